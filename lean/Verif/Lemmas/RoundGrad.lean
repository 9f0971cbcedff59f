import Verif.Model.RoundGrad
import Verif.SpecRoundGrad
import Verif.Lemmas.RoundLayer
import Verif.Props.RoundMeasure
import Verif.Props.Grad
import Verif.Props.Lipschitz
import Verif.Props.SelfTest

/-! # Gradients in rounded arithmetic -/

namespace QTN

open Spec Matrix Complex Finset Props

namespace Arith

variable {N : ℕ} {A : Arith}

/-! ## Operations and their parameters -/

/-- The parameters are floating-point numbers. -/
def Fixed (A : Arith) (p : List ℝ) : Prop := ∀ θ ∈ p, A.fl θ = θ

/-- The operation is the item: as constructed with parameters that are then rounded, or a u1 gate after `params_update`, which uses another formula. -/
def Good (A : Arith) (it : Item N) (o : Op) : Prop :=
  (∃ it', it = it'.mapAngles A.fl ∧ it'.WF ∧ A.buildItem it' = .ok o) ∨
    ∃ θ i, it = .gate (.u1 θ i) ∧ o = .gate ⟨.u1, N, .int (wire i), [θ], A.phaseMat θ, noMat⟩

theorem instr_angles (ins : Instr N) : ins.angles = ins.params := by cases ins <;> rfl

theorem fixed_map {p : List ℝ} (h : Fixed A p) : p.map A.fl = p := by
  conv_rhs => rw [← List.map_id p]
  exact List.map_congr_left h

theorem mapAngles_fixed {it : Item N} (h : Fixed A it.params) : it.mapAngles A.fl = it := by
  rw [item_mapAngles, fixed_map h, withParams_self]

theorem cost_withParams (it : Item N) (p : List ℝ) (h : p.length = it.params.length) (u δ : ℝ) :
    (it.withParams p).cost u δ = it.cost u δ := by
  cases it with
  | gate ins =>
    cases ins with
    | rx | ry | rz | u1 | rxx | ryy | rzz | cphase =>
      match p, h with
      | [a], _ => rfl
    | u3 | cu3 =>
      match p, h with
      | [a, b, c], _ => rfl
    | _ => rfl
  | _ => rfl

theorem itemBound_sameForm {l l' : List (Item N)} (h : SameForm l l') (u δ : ℝ) :
    itemBound u δ l' = itemBound u δ l := by
  unfold itemBound
  congr 2
  induction h with
  | nil => rfl
  | cons h _ ih =>
    obtain ⟨p, hp, rfl⟩ := h
    rw [List.map_cons, List.map_cons, ih, cost_withParams _ _ hp]

theorem good_comp {it : Item N} {o : Op} (h : Good A it o) :
    CompG A (A.opU o) it.op (it.cost A.u A.δ) := by
  rcases h with ⟨it', rfl, hw, h⟩ | ⟨θ, i, rfl, rfl⟩
  · obtain ⟨o', ho, hc⟩ := item_comp A it' hw
    rw [h] at ho
    cases ho
    rwa [item_mapAngles, cost_withParams _ _ (by simp), ← item_mapAngles]
  · obtain ⟨t, m, ht, hm, hr, hu, he⟩ := near_phase (A := A) (θ := θ)
    injection ht with ht
    have hμ := mulErr_nonneg A.u_nonneg
    have hδ := A.δ_nonneg
    obtain ⟨U, G, h1, h2, h3⟩ := comp_single (A := A) (ins := .u1 θ i)
      (g := ⟨.u1, N, .int (wire i), [θ], A.phaseMat θ, noMat⟩) (i := i) (M := Spec.phase θ) rfl rfl
      (by show Represents2 (A.phaseMat θ) m; rw [ht]; exact hm) hr rfl rfl rfl hu (by
        show _ ≤ 2 * ((1 + mulErr A.u) * (1 + 2 * A.δ) ^ 2 - 1)
        have k1 : 1 * (1 + 2 * A.δ) ^ 2 ≤ (1 + mulErr A.u) * (1 + 2 * A.δ) ^ 2 :=
          mul_le_mul_of_nonneg_right (by linarith) (by positivity)
        nlinarith)
    rcases h3 with ⟨hx, -⟩ | ⟨hx, k1, k2, k3⟩
    · cases hx
    · have := bnd_nonneg k3
      have := sumErr_nonneg A.u_nonneg 2
      have hcost : (Item.gate (Instr.u1 θ i)).cost A.u A.δ = Instr.eps A.u A.δ (Instr.u1 θ i) +
          sumErr A.u 2 * (√2 + Instr.eps A.u A.δ (Instr.u1 θ i)) := rfl
      refine ⟨U, G, h1, h2, ?_, Or.inr ⟨2, _, _, k1, k2, k3, hcost.ge⟩⟩
      rw [hcost]
      positivity

theorem good_of {it : Item N} {o : Op} {p : List ℝ} (hw : it.WF) (hp : p.length = (it.mapAngles A.fl).params.length)
    (hf : Fixed A p) (h : A.buildItem ((it.mapAngles A.fl).withParams p) = .ok o) :
    Good A ((it.mapAngles A.fl).withParams p) o :=
  Or.inl ⟨_, (mapAngles_fixed (by rwa [params_withParams _ _ hp])).symm,
    wf_withParams (item_mapAngles_WF _ _ hw) hp, h⟩

/-- What an operation knows about its parameters. -/
theorem good_facts {it : Item N} {o : Op} (h : Good A it o) :
    o.numParams = it.params.length ∧
    (it.params ≠ [] → if it.single then ∃ x, it.params = [x] ∧ o.params = .scalar x else o.params = .vec it.params) ∧
    (∀ p, p.length = it.params.length → it.params ≠ [] → Fixed A p →
      ∃ o', A.opUpdate o p = .ok o' ∧ Good A (it.withParams p) o') := by
  have len1 : ∀ {p : List ℝ}, p.length = 1 → ∃ a, p = [a] := fun {p} h => List.length_eq_one_iff.1 h
  have len3 : ∀ {p : List ℝ}, p.length = 3 → ∃ a b c, p = [a, b, c] := fun {p} h => List.length_eq_three.1 h
  rcases h with ⟨it', rfl, hw, h⟩ | ⟨θ, i, rfl, rfl⟩
  · cases it' with
    | gate ins =>
      obtain ⟨g, hg, h⟩ := py_bind_ok h
      cases h
      cases ins with
      | rx θ i =>
        obtain ⟨m, hm, h⟩ := py_bind_ok hg
        cases h
        refine ⟨rfl, fun _ => ⟨A.fl θ, rfl, rfl⟩, fun p hp _ hfp => ?_⟩
        obtain ⟨a, rfl⟩ := len1 hp
        have e2 : A.fl a = a := hfp a (by simp)
        obtain ⟨m', _, hm', -⟩ := near_rot_rep (A := A) pauliXMat_rep pauli_X X_conj X_sq e2
        refine ⟨.gate ⟨.rx, N, .int (wire i), [a], m', noMat⟩, ?_, good_of hw hp hfp ?_⟩
        · simp [opUpdate, gateUpdate, hm']
        · simp [Item.mapAngles, Instr.mapAngles, Item.withParams, Instr.withParams, buildItem, build, hm', e2]
      | ry θ i =>
        obtain ⟨m, hm, h⟩ := py_bind_ok hg
        cases h
        refine ⟨rfl, fun _ => ⟨A.fl θ, rfl, rfl⟩, fun p hp _ hfp => ?_⟩
        obtain ⟨a, rfl⟩ := len1 hp
        have e2 : A.fl a = a := hfp a (by simp)
        obtain ⟨m', _, hm', -⟩ := near_rot_rep (A := A) pauliYMat_rep pauli_Y Y_conj Y_sq e2
        refine ⟨.gate ⟨.ry, N, .int (wire i), [a], m', noMat⟩, ?_, good_of hw hp hfp ?_⟩
        · simp [opUpdate, gateUpdate, hm']
        · simp [Item.mapAngles, Instr.mapAngles, Item.withParams, Instr.withParams, buildItem, build, hm', e2]
      | rz θ i =>
        obtain ⟨m, hm, h⟩ := py_bind_ok hg
        cases h
        refine ⟨rfl, fun _ => ⟨A.fl θ, rfl, rfl⟩, fun p hp _ hfp => ?_⟩
        obtain ⟨a, rfl⟩ := len1 hp
        have e2 : A.fl a = a := hfp a (by simp)
        obtain ⟨m', _, hm', -⟩ := near_rot_rep (A := A) pauliZMat_rep pauli_Z Z_conj Z_sq e2
        refine ⟨.gate ⟨.rz, N, .int (wire i), [a], m', noMat⟩, ?_, good_of hw hp hfp ?_⟩
        · simp [opUpdate, gateUpdate, hm']
        · simp [Item.mapAngles, Instr.mapAngles, Item.withParams, Instr.withParams, buildItem, build, hm', e2]
      | u1 θ i =>
        obtain ⟨m, hm, h⟩ := py_bind_ok hg
        cases h
        refine ⟨rfl, fun _ => ⟨A.fl θ, rfl, rfl⟩, fun p hp _ hfp => ?_⟩
        obtain ⟨a, rfl⟩ := len1 hp
        exact ⟨_, rfl, Or.inr ⟨a, i, rfl, rfl⟩⟩
      | rxx θ i j =>
        cases hg
        refine ⟨rfl, fun _ => ⟨A.fl θ, rfl, rfl⟩, fun p hp _ hfp => ?_⟩
        obtain ⟨a, rfl⟩ := len1 hp
        exact ⟨_, rfl, good_of hw hp hfp (by simp [Item.mapAngles, Instr.mapAngles, Item.withParams, Instr.withParams, buildItem, build, hfp a (by simp)])⟩
      | ryy θ i j =>
        cases hg
        refine ⟨rfl, fun _ => ⟨A.fl θ, rfl, rfl⟩, fun p hp _ hfp => ?_⟩
        obtain ⟨a, rfl⟩ := len1 hp
        exact ⟨_, rfl, good_of hw hp hfp (by simp [Item.mapAngles, Instr.mapAngles, Item.withParams, Instr.withParams, buildItem, build, hfp a (by simp)])⟩
      | rzz θ i j =>
        cases hg
        refine ⟨rfl, fun _ => ⟨A.fl θ, rfl, rfl⟩, fun p hp _ hfp => ?_⟩
        obtain ⟨a, rfl⟩ := len1 hp
        exact ⟨_, rfl, good_of hw hp hfp (by simp [Item.mapAngles, Instr.mapAngles, Item.withParams, Instr.withParams, buildItem, build, hfp a (by simp)])⟩
      | cphase θ i j =>
        cases hg
        refine ⟨rfl, fun _ => ⟨A.fl θ, rfl, rfl⟩, fun p hp _ hfp => ?_⟩
        obtain ⟨a, rfl⟩ := len1 hp
        exact ⟨_, rfl, good_of hw hp hfp (by simp [Item.mapAngles, Instr.mapAngles, Item.withParams, Instr.withParams, buildItem, build, hfp a (by simp)])⟩
      | u3 θ φ l i =>
        obtain ⟨m, hm, h⟩ := py_bind_ok hg
        cases h
        refine ⟨rfl, fun _ => ?_, fun p hp _ hfp => ?_⟩
        · simp [Op.params, Item.single, Item.params, Instr.params, Item.mapAngles, Instr.mapAngles]
        obtain ⟨a, b, c, rfl⟩ := len3 hp
        have k1 : A.fl a = a := hfp a (by simp)
        have k2 : A.fl b = b := hfp b (by simp)
        have k3 : A.fl c = c := hfp c (by simp)
        obtain ⟨m', hm', hm2, -⟩ := near_u3 (A := A) k1 k2 k3
        rw [k1, k2, k3] at hm2
        refine ⟨.gate ⟨.u3, N, .int (wire i), [a, b, c], m', noMat⟩, ?_, good_of hw hp hfp ?_⟩
        · simp [opUpdate, gateUpdate, hm2]
        · simp [Item.mapAngles, Instr.mapAngles, Item.withParams, Instr.withParams, buildItem, build, hm2, k1, k2, k3]
      | cu3 θ φ l i j =>
        obtain ⟨m, hm, h⟩ := py_bind_ok hg
        cases h
        refine ⟨rfl, fun _ => ?_, fun p hp _ hfp => ?_⟩
        · simp [Op.params, Item.single, Item.params, Instr.params, Item.mapAngles, Instr.mapAngles]
        obtain ⟨a, b, c, rfl⟩ := len3 hp
        have k1 : A.fl a = a := hfp a (by simp)
        have k2 : A.fl b = b := hfp b (by simp)
        have k3 : A.fl c = c := hfp c (by simp)
        obtain ⟨m', hm', hm2, -⟩ := near_u3 (A := A) k1 k2 k3
        rw [k1, k2, k3] at hm2
        refine ⟨.gate ⟨.cu3, N, .list [wire i, wire j], [a, b, c], noMat, m'⟩, ?_, good_of hw hp hfp ?_⟩
        · simp [opUpdate, gateUpdate, hm2]
        · simp [Item.mapAngles, Instr.mapAngles, Item.withParams, Instr.withParams, buildItem, build, hm2, k1, k2, k3]
      | toffoli => cases hg; exact ⟨rfl, fun h => absurd rfl h, fun _ _ h => absurd rfl h⟩
      | mcnot cs t =>
        obtain ⟨m, hm, h⟩ := py_bind_ok hg
        obtain ⟨m', hm', h⟩ := py_bind_ok h
        cases h; exact ⟨rfl, fun h => absurd rfl h, fun _ _ h => absurd rfl h⟩
      | _ => cases hg; exact ⟨rfl, fun h => absurd rfl h, fun _ _ h => absurd rfl h⟩
    | layer k ws q =>
      obtain ⟨g, hg, h⟩ := py_bind_ok h
      cases h
      obtain ⟨h0, hn, hp⟩ := id hw
      have hb : ∀ p : List ℝ, p.length = q.length →
          mkSLayer (layerCls k) N (wires ws) p = .ok ⟨layerCls k, N, wires ws, p⟩ := fun p hp' =>
        mkSLayer_ok hn (by rw [hp', hp]; cases k <;> rfl)
      rw [hb (q.map A.fl) (by simp)] at hg
      cases hg
      refine ⟨rfl, fun _ => rfl, fun p hp' _ hfp => ⟨.single ⟨layerCls k, N, wires ws, p⟩, ?_, good_of hw hp' hfp ?_⟩⟩
      · cases k <;> rfl
      · show A.buildItem (.layer k ws p) = _
        rw [buildItem, fixed_map hfp, hb p (by simpa [Item.params, Item.mapAngles] using hp')]
        rfl
    | hlayer ws =>
      obtain ⟨g, hg, h⟩ := py_bind_ok h
      cases h
      obtain ⟨_, _, hg⟩ := py_bind_ok hg
      obtain ⟨_, _, hg⟩ := py_bind_ok hg
      cases hg
      exact ⟨rfl, fun h => absurd rfl h, fun _ _ h => absurd rfl h⟩
    | basic ws q reps =>
      obtain ⟨g, hg, h⟩ := py_bind_ok h
      cases h
      have hw' := hw
      obtain ⟨hn, h2, hr, hp⟩ := hw
      rw [mkBasic_ok hn h2 hr (by simpa using hp)] at hg
      cases hg
      refine ⟨rfl, fun _ => rfl, fun p hp' _ hfp => ⟨.basic (basicObj N ws p false reps), ?_, good_of hw' hp' hfp ?_⟩⟩
      all_goals have hp2 : p.length = 3 * ws.length * reps := by simpa [Item.params, Item.mapAngles, hp] using hp'
      · unfold opUpdate Op.params_update Basic.params_update
        dsimp only [basicObj]
        rw [basicParts_ok hn h2 hp2.ge]
        rfl
      · show A.buildItem (.basic ws p reps) = _
        rw [buildItem, fixed_map hfp, mkBasic_ok hn h2 hr hp2]
        rfl
    | _ =>
      obtain ⟨g, hg, h⟩ := py_bind_ok h
      cases h
      exact ⟨rfl, fun h => absurd rfl h, fun _ _ h => absurd rfl h⟩
  · refine ⟨rfl, fun _ => ⟨θ, rfl, rfl⟩, fun p hp _ hfp => ?_⟩
    obtain ⟨a, rfl⟩ := len1 hp
    exact ⟨_, rfl, Or.inr ⟨a, i, rfl, rfl⟩⟩

end Arith

end QTN
