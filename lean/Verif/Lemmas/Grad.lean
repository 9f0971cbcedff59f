import Verif.Lemmas.OpMono
import Verif.Lemmas.Shift
import Verif.Props.Expect
import Verif.Props.Layers
import Verif.Props.Gates

/-! # Runs of `cal_params_grad` -/

namespace QTN

open Spec Matrix QTN.Props

variable {N : ℕ}

/-! ## Items and their parameters -/

/-- The constructor call for the item succeeds with `o`. -/
abbrev Built (it : Item N) (o : Op) : Prop := buildItem it = .ok o

theorem withParams_self (it : Item N) : it.withParams it.params = it := by
  cases it with
  | gate ins => cases ins <;> rfl
  | _ => rfl

theorem len1 {p : List ℝ} (h : p.length = 1) : ∃ a, p = [a] := List.length_eq_one_iff.1 h

theorem len3 {p : List ℝ} (h : p.length = 3) : ∃ a b c, p = [a, b, c] := List.length_eq_three.1 h

theorem params_withParams (it : Item N) (p : List ℝ) (h : p.length = it.params.length) :
    (it.withParams p).params = p := by
  cases it with
  | gate ins =>
    cases ins with
    | rx | ry | rz | u1 | rxx | ryy | rzz | cphase => obtain ⟨a, rfl⟩ := len1 h; rfl
    | u3 | cu3 => obtain ⟨a, b, c, rfl⟩ := len3 h; rfl
    | _ => obtain rfl := List.length_eq_zero_iff.1 h; rfl
  | layer => rfl
  | basic => rfl
  | _ => obtain rfl := List.length_eq_zero_iff.1 h; rfl

theorem withParams_twice (it : Item N) (p q : List ℝ) (h : p.length = it.params.length)
    (h' : q.length = it.params.length) : (it.withParams p).withParams q = it.withParams q := by
  cases it with
  | gate ins =>
    cases ins with
    | rx | ry | rz | u1 | rxx | ryy | rzz | cphase => obtain ⟨a, rfl⟩ := len1 h; obtain ⟨b, rfl⟩ := len1 h'; rfl
    | u3 | cu3 => obtain ⟨a, b, c, rfl⟩ := len3 h; obtain ⟨d, e, f, rfl⟩ := len3 h'; rfl
    | _ => rfl
  | _ => rfl

theorem wf_withParams {it : Item N} (hw : it.WF) {p : List ℝ} (h : p.length = it.params.length) :
    (it.withParams p).WF := by
  cases it with
  | gate ins =>
    cases ins with
    | rx | ry | rz | u1 | rxx | ryy | rzz | cphase => obtain ⟨a, rfl⟩ := len1 h; exact hw
    | u3 | cu3 => obtain ⟨a, b, c, rfl⟩ := len3 h; exact hw
    | _ => exact hw
  | layer k ws q => exact ⟨hw.1, hw.2.1, h.trans hw.2.2⟩
  | basic ws q reps => exact ⟨hw.1, hw.2.1, hw.2.2.1, h.trans hw.2.2.2⟩
  | _ => exact hw

theorem hasTN_withParams {it : Item N} (hw : HasTN it) {p : List ℝ} (h : p.length = it.params.length) :
    HasTN (it.withParams p) := by
  cases it with
  | gate ins =>
    cases ins with
    | rx | ry | rz | u1 | cphase => obtain ⟨a, rfl⟩ := len1 h; exact hw
    | u3 | cu3 => obtain ⟨a, b, c, rfl⟩ := len3 h; exact hw
    | rxx | ryy | rzz => exact hw.elim
    | _ => exact hw
  | _ => exact hw

theorem unflagged_withParams {it : Item N} (hw : Unflagged it) (p : List ℝ) : Unflagged (it.withParams p) := by
  cases it with
  | gate ins =>
    cases ins with
    | mcnot => exact hw
    | _ => exact hw.elim
  | _ => exact hw

/-- What a built operation knows about its parameters. -/
theorem built_facts {it : Item N} {o : Op} (hw : it.WF) (h : Built it o) :
    o.numParams = it.params.length ∧
    (it.params ≠ [] → o.params = .vec it.params ∨ ∃ x, it.params = [x] ∧ o.params = .scalar x) ∧
    (∀ p, p.length = it.params.length → it.params ≠ [] →
      ∃ o', o.params_update p = .ok o' ∧ Built (it.withParams p) o') := by
  cases it with
  | gate ins =>
    obtain ⟨g, hg, h⟩ := py_bind_ok h
    cases h
    cases ins with
    | rx θ i =>
      cases hg
      refine ⟨rfl, fun _ => .inr ⟨_, rfl, rfl⟩, fun p hp _ => ?_⟩
      obtain ⟨a, rfl⟩ := len1 hp; exact ⟨_, rfl, rfl⟩
    | ry θ i =>
      cases hg
      refine ⟨rfl, fun _ => .inr ⟨_, rfl, rfl⟩, fun p hp _ => ?_⟩
      obtain ⟨a, rfl⟩ := len1 hp; exact ⟨_, rfl, rfl⟩
    | rz θ i =>
      cases hg
      refine ⟨rfl, fun _ => .inr ⟨_, rfl, rfl⟩, fun p hp _ => ?_⟩
      obtain ⟨a, rfl⟩ := len1 hp; exact ⟨_, rfl, rfl⟩
    | u1 θ i =>
      cases hg
      refine ⟨rfl, fun _ => .inr ⟨_, rfl, rfl⟩, fun p hp _ => ?_⟩
      obtain ⟨a, rfl⟩ := len1 hp
      exact ⟨_, by rw [Op.params_update, (C08_params_update _ _ θ a [] []).2.2.2.1]; rfl, rfl⟩
    | rxx θ i j =>
      cases hg
      refine ⟨rfl, fun _ => .inr ⟨_, rfl, rfl⟩, fun p hp _ => ?_⟩
      obtain ⟨a, rfl⟩ := len1 hp; exact ⟨_, rfl, rfl⟩
    | ryy θ i j =>
      cases hg
      refine ⟨rfl, fun _ => .inr ⟨_, rfl, rfl⟩, fun p hp _ => ?_⟩
      obtain ⟨a, rfl⟩ := len1 hp; exact ⟨_, rfl, rfl⟩
    | rzz θ i j =>
      cases hg
      refine ⟨rfl, fun _ => .inr ⟨_, rfl, rfl⟩, fun p hp _ => ?_⟩
      obtain ⟨a, rfl⟩ := len1 hp; exact ⟨_, rfl, rfl⟩
    | cphase θ i j =>
      cases hg
      refine ⟨rfl, fun _ => .inr ⟨_, rfl, rfl⟩, fun p hp _ => ?_⟩
      obtain ⟨a, rfl⟩ := len1 hp
      exact ⟨_, by rw [Op.params_update, (C08_params_update _ _ θ a [] []).2.2.2.2.2.2.2.1]; rfl, rfl⟩
    | u3 θ φ l i =>
      have hu := fun p' => (C08_params_update N (.int (wire i)) 0 0 [θ, φ, l] p').2.2.2.2.2.2.2.2.1 g hg
      obtain ⟨m, hm, h⟩ := py_bind_ok hg
      refine ⟨by cases h; rfl, fun _ => .inl (by cases h; rfl), fun p hp _ => ?_⟩
      obtain ⟨a, b, c, rfl⟩ := len3 hp
      obtain ⟨o', ho', -⟩ := item_ok (it := .gate (.u3 a b c i)) hw
      obtain ⟨g', hg', e⟩ := py_bind_ok ho'
      cases e
      have hg2 : mkU3 [a, b, c] N (.int (wire i)) = .ok g' := hg'
      exact ⟨.gate g', by rw [Op.params_update, hu, hg2]; rfl, ho'⟩
    | cu3 θ φ l i j =>
      have hu := fun p' => (C08_params_update N (.list [wire i, wire j]) 0 0 [θ, φ, l] p').2.2.2.2.2.2.2.2.2 g hg
      obtain ⟨m, hm, h⟩ := py_bind_ok hg
      obtain ⟨m', hm', h⟩ := py_bind_ok h
      refine ⟨by cases h; rfl, fun _ => .inl (by cases h; rfl), fun p hp _ => ?_⟩
      obtain ⟨a, b, c, rfl⟩ := len3 hp
      obtain ⟨o', ho', -⟩ := item_ok (it := .gate (.cu3 a b c i j)) hw
      obtain ⟨g', hg', e⟩ := py_bind_ok ho'
      cases e
      have hg2 : mkCu3 [a, b, c] N (.list [wire i, wire j]) = .ok g' := hg'
      exact ⟨.gate g', by rw [Op.params_update, hu, hg2]; rfl, ho'⟩
    | toffoli => cases hg; exact ⟨rfl, fun h => absurd rfl h, fun _ _ h => absurd rfl h⟩
    | mcnot cs t =>
      obtain ⟨m, hm, h⟩ := py_bind_ok hg
      obtain ⟨m', hm', h⟩ := py_bind_ok h
      cases h; exact ⟨rfl, fun h => absurd rfl h, fun _ _ h => absurd rfl h⟩
    | _ => cases hg; exact ⟨rfl, fun h => absurd rfl h, fun _ _ h => absurd rfl h⟩
  | layer k ws q =>
    obtain ⟨g, hg, h⟩ := py_bind_ok h
    cases h
    obtain ⟨h0, hn, hp⟩ := hw
    have hb : ∀ p : List ℝ, p.length = q.length →
        mkSLayer (layerCls k) N (wires ws) p = .ok ⟨layerCls k, N, wires ws, p⟩ := fun p hp' =>
      mkSLayer_ok hn (by rw [hp', hp]; cases k <;> rfl)
    rw [hb q rfl] at hg
    cases hg
    refine ⟨rfl, fun _ => .inl rfl, fun p hp' _ => ⟨.single ⟨layerCls k, N, wires ws, p⟩, ?_, ?_⟩⟩
    · cases k <;> rfl
    · show buildItem (.layer k ws p) = _
      rw [buildItem, hb p hp']
      rfl
  | hlayer ws =>
    obtain ⟨g, hg, h⟩ := py_bind_ok h
    cases h
    obtain ⟨_, _, hg⟩ := py_bind_ok hg
    obtain ⟨_, _, hg⟩ := py_bind_ok hg
    cases hg
    exact ⟨rfl, fun h => absurd rfl h, fun _ _ h => absurd rfl h⟩
  | basic ws q reps =>
    obtain ⟨g, hg, h⟩ := py_bind_ok h
    cases h
    obtain ⟨hn, h2, hr, hp⟩ := hw
    rw [mkBasic_ok hn h2 hr hp] at hg
    cases hg
    refine ⟨rfl, fun _ => .inl rfl, fun p hp' _ => ⟨.basic (basicObj N ws p false reps), ?_, ?_⟩⟩
    · unfold Op.params_update Basic.params_update
      dsimp only [basicObj]
      have hp2 : 3 * ws.length * reps ≤ p.length := (hp'.trans hp).ge
      rw [basicParts_ok hn h2 hp2]
      rfl
    · show buildItem (.basic ws p reps) = _
      rw [buildItem, mkBasic_ok hn h2 hr (hp'.trans hp)]
      rfl
  | _ =>
    obtain ⟨g, hg, h⟩ := py_bind_ok h
    cases h
    exact ⟨rfl, fun h => absurd rfl h, fun _ _ h => absurd rfl h⟩

/-! ## The circuit monad -/

theorem CM.bind_ok {α β : Type} {x : CM α} {f : α → CM β} {st st' : Circuit × List (Tensor ℂ)} {a : α}
    (h : x st = (.ok a, st')) : (x >>= f) st = f a st' := by
  show CM.bind' x f st = _
  unfold CM.bind'
  rw [h]

theorem CM.bind_error {α β : Type} {x : CM α} {f : α → CM β} {st st' : Circuit × List (Tensor ℂ)} {e : PyErr}
    (h : x st = (.error e, st')) : (x >>= f) st = (.error e, st') := by
  show CM.bind' x f st = _
  unfold CM.bind'
  rw [h]

theorem CM.pure_apply {α : Type} (a : α) (st : Circuit × List (Tensor ℂ)) : (pure a : CM α) st = (.ok a, st) := rfl

/-- The computation only extends the list of decomposed matrices. -/
def CM.Grows {α : Type} (x : CM α) : Prop := ∀ st, st.2 <+: (x st).2.2

theorem CM.Grows.pure {α : Type} (a : α) : CM.Grows (Pure.pure a : CM α) := fun _ => List.prefix_refl _

theorem CM.Grows.lift {α : Type} (a : Py α) : CM.Grows (CM.lift a) := fun _ => List.prefix_refl _

theorem CM.Grows.bind {α β : Type} {x : CM α} {f : α → CM β} (hx : x.Grows) (hf : ∀ a, (f a).Grows) :
    (x >>= f).Grows := by
  intro st
  rcases h : x st with ⟨e | a, st'⟩
  · rw [CM.bind_error h]; have := hx st; rwa [h] at this
  · rw [CM.bind_ok h]; have := hx st; rw [h] at this; exact this.trans (hf a st')

theorem CM.Grows.read {α : Type} {f : Circuit → TNM α} (h : ∀ c, (f c).Mono) : (CM.read f).Grows :=
  fun st => h st.1 st.2

theorem CM.Grows.update (idx : ℕ) (p : List ℝ) : (CM.update idx p).Grows := by
  intro st
  unfold CM.update
  split
  · exact List.prefix_refl _
  · split <;> exact List.prefix_refl _

theorem CM.logged {α β : Type} {x : CM α} {f : α → CM β} (hf : ∀ a, (f a).Grows)
    {st : Circuit × List (Tensor ℂ)} {P : Tensor ℂ → Prop} (h : ∀ A ∈ ((x >>= f) st).2.2, P A) :
    ∀ A ∈ (x st).2.2, P A := by
  intro A hA
  rcases e : x st with ⟨e' | a, st'⟩
  · rw [CM.bind_error e] at h; rw [e] at hA; exact h A hA
  · rw [CM.bind_ok e] at h; rw [e] at hA; exact h A ((hf a st').subset hA)

theorem grows_expec (svd : SVDOracle) (ps : PShift) : (ps.expec svd).Grows :=
  CM.Grows.read fun _ => mono_expectation _ _ _ _ _

theorem grows_scalar (svd : SVDOracle) (ps : PShift) (idx : ℕ) (x : ℝ) : (ps.gradScalar svd idx x).Grows :=
  (CM.Grows.update _ _).bind fun _ => (grows_expec svd ps).bind fun _ => (CM.Grows.update _ _).bind fun _ =>
    (grows_expec svd ps).bind fun _ => (CM.Grows.update _ _).bind fun _ => CM.Grows.pure _

theorem grows_vec (svd : SVDOracle) (ps : PShift) (idx : ℕ) : ∀ (is : List ℕ) (p : List ℝ),
    (ps.gradVec svd idx is p).Grows
  | [], _ => CM.Grows.pure _
  | _ :: is, _ => (CM.Grows.update _ _).bind fun _ => (grows_expec svd ps).bind fun _ =>
    (CM.Grows.update _ _).bind fun _ => (grows_expec svd ps).bind fun _ => (CM.Grows.update _ _).bind fun _ =>
      (grows_vec svd ps idx is _).bind fun _ => CM.Grows.pure _

theorem grows_at (svd : SVDOracle) (ps : PShift) (idx : ℕ) : (ps.gradAt svd idx).Grows := by
  unfold PShift.gradAt
  refine (CM.Grows.read fun c => ?_).bind fun o => ?_
  · split <;> exact TNM.Mono.lift' _
  · split
    · exact CM.Grows.pure _
    · refine (CM.Grows.read fun c => TNM.Mono.lift' _).bind fun p => ?_
      split
      · exact (grows_scalar _ _ _ _).bind fun _ => CM.Grows.pure _
      · exact grows_vec _ _ _ _ _
      · exact CM.Grows.lift _

theorem grows_loop (svd : SVDOracle) (ps : PShift) : ∀ l, (ps.gradLoop svd l).Grows
  | [] => CM.Grows.pure _
  | idx :: l => (grows_at svd ps idx).bind fun _ => (grows_loop svd ps l).bind fun _ => CM.Grows.pure _

/-! ## One evaluation -/

/-- The circuit can be evaluated: by the matrix path because of some operation, or by the tensor network
path, in which case `q` holds. -/
def Ready (svd : SVDOracle) (v : QState N) (q : Prop) (l : List (Item N)) : Prop :=
  (∀ it ∈ l, it.WF) ∧
  ((∃ it ∈ l, Unflagged it) ∨ (q ∧ ValidSVD svd ∧ 0 < N ∧ v ≠ 0 ∧ ∀ it ∈ l, HasTN it))

theorem Ready.set {svd : SVDOracle} {v : QState N} {q : Prop} {pre post : List (Item N)} {it : Item N}
    (h : Ready svd v q (pre ++ it :: post)) {p : List ℝ} (hp : p.length = it.params.length) :
    Ready svd v q (pre ++ it.withParams p :: post) := by
  obtain ⟨hw, hr⟩ := h
  refine ⟨fun x hx => ?_, ?_⟩
  · rcases List.mem_append.1 hx with hx | hx
    · exact hw x (by simp [hx])
    · rcases List.mem_cons.1 hx with rfl | hx
      · exact wf_withParams (hw it (by simp)) hp
      · exact hw x (by simp [hx])
  · rcases hr with ⟨x, hx, hu⟩ | ⟨h1, h2, h3, h4, h5⟩
    · left
      rcases List.mem_append.1 hx with hx | hx
      · exact ⟨x, by simp [hx], hu⟩
      · rcases List.mem_cons.1 hx with rfl | hx
        · exact ⟨_, by simp, unflagged_withParams hu p⟩
        · exact ⟨x, by simp [hx], hu⟩
    · refine .inr ⟨h1, h2, h3, h4, fun x hx => ?_⟩
      rcases List.mem_append.1 hx with hx | hx
      · exact h5 x (by simp [hx])
      · rcases List.mem_cons.1 hx with rfl | hx
        · exact hasTN_withParams (h5 it (by simp)) hp
        · exact h5 x (by simp [hx])

theorem mapM_of_forall₂ {α β : Type} {f : α → Py β} {l : List α} {m : List β}
    (h : List.Forall₂ (fun a b => f a = .ok b) l m) : l.mapM f = .ok m := by
  induction h with
  | nil => rfl
  | cons h _ ih => rw [List.mapM_cons, h, Py.ok_bind, ih]; rfl

theorem expec_ok {svd : SVDOracle} {v : QState N} {q : Prop} {l : List (Item N)} (hr : Ready svd v q l)
    {c : Circuit} (hn : c.nqubits = N) (hb : List.Forall₂ Built l c.gate) {ps : PShift}
    (hi : IsRow ps.init_state v) {O : QOp N} (hM : Represents ps.M O) {s : List (Tensor ℂ)}
    (hl : q → ∀ A ∈ (ps.expec svd (c, s)).2.2, Lossless A) :
    ∃ s', ps.expec svd (c, s) = (.ok (energy O v l), (c, s')) := by
  obtain ⟨hw, hr⟩ := hr
  have hops := mapM_of_forall₂ hb
  rcases hr with ⟨it, hit, hu⟩ | ⟨hq, hv, hN, h0, hc⟩
  · obtain ⟨ops, hops', hU, -⟩ := C13_items N l hw
    obtain rfl : ops = c.gate := by rw [hops] at hops'; cases hops'; rfl
    have hU' : Computes c.U (circuitOp l) := by
      have : c.U = (circ N c.gate).U := by
        unfold Circuit.U
        rw [circ_gate, circ_nqubits, hn]
      rw [this]; exact hU
    have htn : ¬ (c.TN_check = true ∧ true = true) := by
      rintro ⟨hc, -⟩
      obtain ⟨o, ho, hb'⟩ := forall₂_mem hb hit
      unfold Circuit.TN_check at hc
      rw [List.all_eq_true] at hc
      have := hc o ho
      rw [(Props.build_supportTN it o hb').2 hu] at this
      simp at this
    have e := cir_expectation_matrix svd c hn hU' hi hM true htn s
    refine ⟨s, ?_⟩
    unfold PShift.expec CM.read
    dsimp only
    rw [e]
    rfl
  · obtain ⟨ops, hops', hF, -⟩ := items_mps hv l hw (fun it hit => hasTN_iff (hc it hit))
    obtain rfl : ops = c.gate := by rw [hops] at hops'; cases hops'; rfl
    obtain ⟨s', e⟩ := cir_expectation_tn hv hN c hn _ hF hi h0 hM s (hl hq)
    refine ⟨s', ?_⟩
    unfold PShift.expec CM.read
    dsimp only
    rw [e]
    rfl

/-! ## The loops -/

theorem update_ok {c : Circuit} {opre opost : List Op} {o o' : Op} (p : List ℝ)
    (h : o.params_update p = .ok o') (s : List (Tensor ℂ)) :
    CM.update opre.length p ({ c with gate := opre ++ o :: opost }, s) =
      (.ok (), ({ c with gate := opre ++ o' :: opost }, s)) := by
  unfold CM.update
  simp [h]

theorem bump_eq (p : List ℝ) (i : ℕ) (d : ℝ) (h : i < p.length) :
    PShift.bump p i d = p.set i (p.getD i 0 + d) := by
  unfold PShift.bump
  apply List.ext_getElem (by simp)
  intro k h1 h2
  rw [List.getElem_modify, List.getElem_set]
  split_ifs with hk
  · subst hk; simp [h]
  · rfl

theorem gradAt_read (svd : SVDOracle) (ps : PShift) {idx : ℕ} {c : Circuit} {s : List (Tensor ℂ)} {o : Op}
    (h : c.gate[idx]? = some o) : ps.gradAt svd idx (c, s) = (if o.numParams = 0 then pure []
      else do
        let p ← CM.read (fun c => TNM.lift (PShift.readParams c idx))
        match p with
        | .scalar x => do pure [← ps.gradScalar svd idx x]
        | .vec p => ps.gradVec svd idx (List.range p.length) p
        | .pylist _ => CM.lift (.error .attributeError) : CM (List ℝ)) (c, s) := by
  unfold PShift.gradAt
  refine CM.bind_ok (a := o) ?_
  unfold CM.read
  dsimp only
  rw [h]
  rfl

theorem gradAt_zero (svd : SVDOracle) (ps : PShift) {idx : ℕ} {c : Circuit} {s : List (Tensor ℂ)} {o : Op}
    (h : c.gate[idx]? = some o) (h0 : o.numParams = 0) : ps.gradAt svd idx (c, s) = (.ok [], (c, s)) := by
  rw [gradAt_read svd ps h, if_pos h0]
  rfl

theorem gradAt_vec (svd : SVDOracle) (ps : PShift) {idx : ℕ} {c : Circuit} {s : List (Tensor ℂ)} {o : Op}
    (h : c.gate[idx]? = some o) (h0 : o.numParams ≠ 0) {p : List ℝ}
    (hp : PShift.readParams c idx = .ok (.vec p)) :
    ps.gradAt svd idx (c, s) = ps.gradVec svd idx (List.range p.length) p (c, s) := by
  rw [gradAt_read svd ps h, if_neg h0]
  have e : (CM.read (fun c => TNM.lift (PShift.readParams c idx)) : CM PV) (c, s) = (.ok (.vec p), (c, s)) := by
    unfold CM.read TNM.lift
    dsimp only
    rw [hp]
  rw [CM.bind_ok e]

theorem gradAt_scalar (svd : SVDOracle) (ps : PShift) {idx : ℕ} {c : Circuit} {s : List (Tensor ℂ)} {o : Op}
    (h : c.gate[idx]? = some o) (h0 : o.numParams ≠ 0) {x : ℝ}
    (hp : PShift.readParams c idx = .ok (.scalar x)) :
    ps.gradAt svd idx (c, s) = (do pure [← ps.gradScalar svd idx x] : CM (List ℝ)) (c, s) := by
  rw [gradAt_read svd ps h, if_neg h0]
  have e : (CM.read (fun c => TNM.lift (PShift.readParams c idx)) : CM PV) (c, s) = (.ok (.scalar x), (c, s)) := by
    unfold CM.read TNM.lift
    dsimp only
    rw [hp]
  rw [CM.bind_ok e]

section
variable {svd : SVDOracle} {v : QState N} {q : Prop} {ps : PShift} {O : QOp N} {c : Circuit}

/-- The two shifted evaluations for one parameter of the operation at position `opre.length`. -/
theorem eval_pair (hn : c.nqubits = N) (hi : IsRow ps.init_state v) (hM : Represents ps.M O)
    {pre post : List (Item N)} {it : Item N} {opre opost : List Op}
    (hr : Ready svd v q (pre ++ it :: post)) (hpre : List.Forall₂ Built pre opre)
    (hpost : List.Forall₂ Built post opost) {o : Op} {p0 : List ℝ}
    (hp0 : p0.length = it.params.length) (ho : Built (it.withParams p0) o)
    (x : List ℝ) (hx : x.length = it.params.length) (hne : it.params ≠ [])
    {β : Type} (f : ℝ → CM β) (hf : ∀ a, (f a).Grows) (s : List (Tensor ℂ))
    (hl : q → ∀ A ∈ ((do CM.update opre.length x; let e ← ps.expec svd; f e)
      ({ c with gate := opre ++ o :: opost }, s)).2.2, Lossless A) :
    ∃ o' s', Built (it.withParams x) o' ∧
      (do CM.update opre.length x; let e ← ps.expec svd; f e) ({ c with gate := opre ++ o :: opost }, s) =
        f (energy O v (pre ++ it.withParams x :: post)) ({ c with gate := opre ++ o' :: opost }, s') := by
  have hw := hr.1 it (by simp)
  obtain ⟨-, -, hup⟩ := built_facts (wf_withParams hw hp0) ho
  rw [params_withParams it p0 hp0] at hup
  obtain ⟨o', e1, hb⟩ := hup x (by rw [hx, hp0]) (by
    intro h; rw [h] at hp0; exact hne (List.length_eq_zero_iff.1 hp0.symm))
  rw [withParams_twice it p0 x hp0 hx] at hb
  rw [CM.bind_ok (update_ok x e1 s)] at hl ⊢
  have hb2 : List.Forall₂ Built (pre ++ it.withParams x :: post) (opre ++ o' :: opost) :=
    List.rel_append hpre (.cons hb hpost)
  obtain ⟨s', e2⟩ := expec_ok (hr.set hx) (c := { c with gate := opre ++ o' :: opost }) hn hb2 hi hM (s := s)
    (fun hq => CM.logged hf (hl hq))
  exact ⟨o', s', hb, CM.bind_ok e2⟩

theorem gradVec_run (hn : c.nqubits = N) (hi : IsRow ps.init_state v) (hM : Represents ps.M O)
    {pre post : List (Item N)} {it : Item N} {opre opost : List Op}
    (hr : Ready svd v q (pre ++ it :: post)) (hpre : List.Forall₂ Built pre opre)
    (hpost : List.Forall₂ Built post opost) (hne : it.params ≠ []) :
    ∀ (is : List ℕ) (_ : ∀ i ∈ is, i < it.params.length) (o : Op) (p0 : List ℝ)
      (_ : p0.length = it.params.length) (_ : Built (it.withParams p0) o) (_ : is = [] → p0 = it.params)
      (s : List (Tensor ℂ)),
    (q → ∀ A ∈ (ps.gradVec svd opre.length is it.params ({ c with gate := opre ++ o :: opost }, s)).2.2,
      Lossless A) →
    ∃ o' s', Built it o' ∧
      ps.gradVec svd opre.length is it.params ({ c with gate := opre ++ o :: opost }, s) =
        (.ok (is.map fun i => shiftValue O v (pre ++ it :: post) ((allParams pre).length + i)),
          ({ c with gate := opre ++ o' :: opost }, s')) := by
  intro is
  induction is with
  | nil =>
    intro _ o p0 hp0 ho h0 s _
    rw [h0 rfl, withParams_self] at ho
    exact ⟨o, s, ho, rfl⟩
  | cons i is ih =>
    intro his o p0 hp0 ho _ s hl
    have hil := his i (by simp)
    set p := it.params with hp
    have hb1 : PShift.bump p i (0.5 * Real.pi) = p.set i (p.getD i 0 + 0.5 * Real.pi) := bump_eq _ _ _ hil
    have hb2 : PShift.bump (PShift.bump p i (0.5 * Real.pi)) i (-(1.0 * Real.pi)) =
        p.set i (p.getD i 0 - 0.5 * Real.pi) := by
      rw [hb1, bump_eq _ _ _ (by simpa using hil), List.set_set]
      congr 1
      rw [List.getD_eq_getElem?_getD, List.getElem?_set_self (by simpa using hil), Option.getD_some,
        show (0.5 : ℝ) = 1 / 2 by norm_num, show (1.0 : ℝ) = 1 by norm_num]
      ring
    have hb3 : PShift.bump (PShift.bump (PShift.bump p i (0.5 * Real.pi)) i (-(1.0 * Real.pi))) i
        (0.5 * Real.pi) = p := by
      rw [hb2, bump_eq _ _ _ (by simpa using hil), List.set_set]
      rw [List.getD_eq_getElem?_getD (l := p.set _ _), List.getElem?_set_self (by simpa using hil), Option.getD_some]
      rw [sub_add_cancel, List.getD_eq_getElem?_getD, List.getElem?_eq_getElem hil, Option.getD_some,
        List.set_getElem_self]
    unfold PShift.gradVec at hl ⊢
    dsimp only at hl ⊢
    rw [hb3, hb2, hb1] at hl ⊢
    obtain ⟨o1, s1, ho1, e1⟩ := eval_pair (O := O) hn hi hM hr hpre hpost hp0 ho
      (p.set i (p.getD i 0 + 0.5 * Real.pi)) (by simp [hp]) hne _ (fun e => (CM.Grows.update _ _).bind fun _ =>
        (grows_expec svd ps).bind fun _ => (CM.Grows.update _ _).bind fun _ =>
          (grows_vec svd ps _ is _).bind fun _ => CM.Grows.pure _) s hl
    rw [e1] at hl ⊢
    obtain ⟨o2, s2, ho2, e2⟩ := eval_pair (O := O) hn hi hM hr hpre hpost (by simp [hp]) ho1
      (p.set i (p.getD i 0 - 0.5 * Real.pi)) (by simp [hp]) hne _ (fun e => (CM.Grows.update _ _).bind fun _ =>
          (grows_vec svd ps _ is _).bind fun _ => CM.Grows.pure _) s1 hl
    rw [e2] at hl ⊢
    obtain ⟨-, -, hup⟩ := built_facts (wf_withParams (hr.1 it (by simp)) (p := p.set i (p.getD i 0 - 0.5 * Real.pi))
      (by simp [hp])) ho2
    rw [params_withParams it _ (by simp [hp])] at hup
    obtain ⟨o3, e3, ho3⟩ := hup p (by simp) (by
      intro h; exact hne (by simpa using congrArg List.length h))
    rw [withParams_twice it _ p (by simp [hp]) rfl] at ho3
    rw [CM.bind_ok (update_ok p e3 s2)] at hl ⊢
    obtain ⟨o4, s4, ho4, e4⟩ := ih (fun i h => his i (by simp [h])) o3 p rfl ho3 (fun _ => rfl) s2
      (fun hq => CM.logged (fun _ => CM.Grows.pure _) (hl hq))
    rw [CM.bind_ok e4]
    refine ⟨o4, s4, ho4, ?_⟩
    rw [CM.pure_apply, List.map_cons]
    congr 3
    unfold shiftValue
    rw [setParam_append _ _ _ _ hil, setParam_append _ _ _ _ hil, allParams_getD _ _ _ _ hil]

theorem gradScalar_run (hn : c.nqubits = N) (hi : IsRow ps.init_state v) (hM : Represents ps.M O)
    {pre post : List (Item N)} {it : Item N} {opre opost : List Op}
    (hr : Ready svd v q (pre ++ it :: post)) (hpre : List.Forall₂ Built pre opre)
    (hpost : List.Forall₂ Built post opost) {x : ℝ} (hp : it.params = [x]) (o : Op) (p0 : List ℝ)
    (hp0 : p0.length = it.params.length) (ho : Built (it.withParams p0) o) (s : List (Tensor ℂ))
    (hl : q → ∀ A ∈ (ps.gradScalar svd opre.length x ({ c with gate := opre ++ o :: opost }, s)).2.2,
      Lossless A) :
    ∃ o' s', Built it o' ∧
      ps.gradScalar svd opre.length x ({ c with gate := opre ++ o :: opost }, s) =
        (.ok (shiftValue O v (pre ++ it :: post) ((allParams pre).length + 0)),
          ({ c with gate := opre ++ o' :: opost }, s')) := by
  have hne : it.params ≠ [] := by rw [hp]; simp
  have hil : 0 < it.params.length := by rw [hp]; simp
  unfold PShift.gradScalar at hl ⊢
  obtain ⟨o1, s1, ho1, e1⟩ := eval_pair (O := O) hn hi hM hr hpre hpost hp0 ho
    [x + 0.5 * Real.pi] (by simp [hp]) hne _ (fun e => (CM.Grows.update _ _).bind fun _ =>
      (grows_expec svd ps).bind fun _ => (CM.Grows.update _ _).bind fun _ => CM.Grows.pure _) s hl
  rw [e1] at hl ⊢
  obtain ⟨o2, s2, ho2, e2⟩ := eval_pair (O := O) hn hi hM hr hpre hpost (by simp [hp]) ho1
    [x - 0.5 * Real.pi] (by simp [hp]) hne _ (fun e => (CM.Grows.update _ _).bind fun _ => CM.Grows.pure _) s1 hl
  rw [e2] at hl ⊢
  obtain ⟨-, -, hup⟩ := built_facts (wf_withParams (hr.1 it (by simp)) (p := [x - 0.5 * Real.pi])
    (by simp [hp])) ho2
  rw [params_withParams it _ (by simp [hp])] at hup
  obtain ⟨o3, e3, ho3⟩ := hup [x] (by simp) (by simp)
  rw [withParams_twice it _ [x] (by simp [hp]) (by simp [hp]), ← hp, withParams_self] at ho3
  rw [CM.bind_ok (update_ok [x] e3 s2)]
  refine ⟨o3, s2, ho3, ?_⟩
  rw [CM.pure_apply]
  congr 2
  unfold shiftValue
  rw [setParam_append _ _ _ _ hil, setParam_append _ _ _ _ hil, allParams_getD _ _ _ _ hil, hp]
  rfl

/-- The entry `cir_params[k]` describes the item (which may differ in its parameters from the operation
now at position `k`). -/
def Recorded (c : Circuit) (k : ℕ) (it : Item N) : Prop :=
  it.params ≠ [] → ∃ o, Built it o ∧ c.cir_params k = some (some o.params)

/-- Same gate or layer, possibly with other parameters. -/
def Sibling (a b : Item N) : Prop := ∃ p, p.length = a.params.length ∧ b = a.withParams p

theorem Sibling.refl (a : Item N) : Sibling a a := ⟨a.params, rfl, (withParams_self a).symm⟩

theorem sibling_facts {a b : Item N} (h : Sibling a b) : b.params.length = a.params.length ∧
    b = a.withParams b.params ∧ b.withParams a.params = a := by
  obtain ⟨p, hp, rfl⟩ := h
  rw [params_withParams a p hp]
  exact ⟨hp, rfl, by rw [withParams_twice a p _ hp rfl, withParams_self]⟩

theorem gradAt_run (hn : c.nqubits = N) (hi : IsRow ps.init_state v) (hM : Represents ps.M O)
    {pre post : List (Item N)} {cur it : Item N} {opre opost : List Op}
    (hr : Ready svd v q (pre ++ cur :: post)) (hs : Sibling cur it) (hpre : List.Forall₂ Built pre opre)
    (hpost : List.Forall₂ Built post opost) {o : Op} (ho : Built cur o) (hrec : Recorded c opre.length it)
    (s : List (Tensor ℂ))
    (hl : q → ∀ A ∈ (ps.gradAt svd opre.length ({ c with gate := opre ++ o :: opost }, s)).2.2, Lossless A) :
    ∃ o' s', Built it o' ∧
      ps.gradAt svd opre.length ({ c with gate := opre ++ o :: opost }, s) =
        (.ok ((List.range it.params.length).map fun i =>
          shiftValue O v (pre ++ it :: post) ((allParams pre).length + i)),
          ({ c with gate := opre ++ o' :: opost }, s')) := by
  obtain ⟨hlen, hb, hb'⟩ := sibling_facts hs
  have hw := hr.1 cur (by simp)
  have hr' : Ready svd v q (pre ++ it :: post) := by rw [hb]; exact hr.set hlen
  obtain ⟨hnum, -, -⟩ := built_facts hw ho
  have hg : ({ c with gate := opre ++ o :: opost } : Circuit).gate[opre.length]? = some o := by
    dsimp only
    rw [List.getElem?_append_right (le_refl _), Nat.sub_self]
    rfl
  by_cases hp : it.params = []
  · have h0 : o.numParams = 0 := by rw [hnum, ← hlen, hp]; rfl
    rw [gradAt_zero svd ps (s := s) hg h0, hp]
    have : it = cur := by rw [← hb', List.length_eq_zero_iff.1 (show cur.params.length = 0 by rw [← hlen, hp]; rfl),
      ← hp, withParams_self]
    exact ⟨o, s, by rw [this]; exact ho, rfl⟩
  · have h0 : o.numParams ≠ 0 := by
      rw [hnum, ← hlen]; exact fun h => hp (List.length_eq_zero_iff.1 h)
    obtain ⟨or, hor, hcp⟩ := hrec hp
    obtain ⟨-, hpv, -⟩ := built_facts (hr'.1 it (by simp)) hor
    have ho' : Built (it.withParams cur.params) o := by rw [hb']; exact ho
    rcases hpv hp with hv | ⟨x, hx, hv⟩
    · have e1 : PShift.readParams { c with gate := opre ++ o :: opost } opre.length = .ok (.vec it.params) := by
        unfold PShift.readParams
        dsimp only
        rw [hcp, hv]
      rw [gradAt_vec svd ps (s := s) hg h0 e1] at hl ⊢
      exact gradVec_run hn hi hM hr' hpre hpost hp _ (fun i h => List.mem_range.1 h) o _ hlen.symm ho'
        (fun h => absurd (List.range_eq_nil.1 h) (fun h => hp (List.length_eq_zero_iff.1 h))) s hl
    · have e1 : PShift.readParams { c with gate := opre ++ o :: opost } opre.length = .ok (.scalar x) := by
        unfold PShift.readParams
        dsimp only
        rw [hcp, hv]
      rw [gradAt_scalar svd ps (s := s) hg h0 e1] at hl ⊢
      obtain ⟨o', s', h1, h2⟩ := gradScalar_run hn hi hM hr' hpre hpost hx o _ hlen.symm ho' s
        (fun hq => CM.logged (fun _ => CM.Grows.pure _) (hl hq))
      refine ⟨o', s', h1, ?_⟩
      rw [CM.bind_ok h2, CM.pure_apply, hx]
      rfl

/-- The gradient entries computed when the recorded parameters `rec` may differ from those of the
operations: earlier operations have been reset to their recorded parameters, later ones not yet. -/
noncomputable def mixedGrad (O : QOp N) (v : QState N) : List (Item N) → List (Item N) → List (Item N) → List ℝ
  | pre, _ :: cur, it :: rec =>
    ((List.range it.params.length).map fun i => shiftValue O v (pre ++ it :: cur) ((allParams pre).length + i)) ++
      mixedGrad O v (pre ++ [it]) cur rec
  | _, _, _ => []

theorem gradLoop_run (hn : c.nqubits = N) (hi : IsRow ps.init_state v) (hM : Represents ps.M O)
    {cur rec : List (Item N)} (hs : List.Forall₂ Sibling cur rec) :
    ∀ (pre : List (Item N)) (opre ocur : List Op), Ready svd v q (pre ++ cur) →
      List.Forall₂ Built pre opre → List.Forall₂ Built cur ocur →
      (∀ k it, rec[k]? = some it → Recorded c (opre.length + k) it) → ∀ s : List (Tensor ℂ),
      (q → ∀ A ∈ (ps.gradLoop svd (List.range' opre.length cur.length) ({ c with gate := opre ++ ocur }, s)).2.2,
        Lossless A) →
      ∃ orec s', List.Forall₂ Built rec orec ∧
        ps.gradLoop svd (List.range' opre.length cur.length) ({ c with gate := opre ++ ocur }, s) =
          (.ok (mixedGrad O v pre cur rec), ({ c with gate := opre ++ orec }, s')) := by
  induction hs with
  | nil =>
    intro pre opre ocur _ _ hc _ s _
    cases hc
    exact ⟨[], s, .nil, rfl⟩
  | @cons a b cur rec hab _ ih =>
    intro pre opre ocur hr hpre hc hrec s hl
    cases hc with
    | @cons _ o _ ocur ho hc =>
      rw [List.length_cons, List.range'_succ] at hl ⊢
      unfold PShift.gradLoop at hl ⊢
      have g2 : ∀ a : List ℝ, CM.Grows (do
          let gs ← ps.gradLoop svd (List.range' (opre.length + 1) cur.length)
          pure (a ++ gs)) := fun a => (grows_loop _ _ _).bind fun _ => CM.Grows.pure _
      obtain ⟨o1, s1, ho1, e1⟩ := gradAt_run hn hi hM hr hab hpre hc ho
        (by have := hrec 0 b rfl; simpa using this) s (fun hq => CM.logged g2 (hl hq))
      rw [CM.bind_ok e1] at hl ⊢
      obtain ⟨hlen, hb, -⟩ := sibling_facts hab
      have hr1 : Ready svd v q ((pre ++ [b]) ++ cur) := by
        rw [List.append_assoc, List.singleton_append, hb]; exact hr.set hlen
      have hpre1 : List.Forall₂ Built (pre ++ [b]) (opre ++ [o1]) := List.rel_append hpre (.cons ho1 .nil)
      have ih' := ih (pre ++ [b]) (opre ++ [o1]) ocur hr1 hpre1 hc (fun k it hk => by
        have := hrec (k + 1) it (by simpa using hk)
        rw [List.length_append, List.length_singleton, Nat.add_right_comm]
        exact this) s1
      rw [List.length_append, List.length_singleton, List.append_assoc, List.singleton_append] at ih'
      obtain ⟨orec, s', h1, h2⟩ := ih' (fun hq => CM.logged (fun _ => CM.Grows.pure _) (hl hq))
      rw [CM.bind_ok h2]
      refine ⟨o1 :: orec, s', .cons ho1 h1, ?_⟩
      rw [CM.pure_apply, List.append_assoc, List.singleton_append]
      rfl

theorem mixedGrad_self (O : QOp N) (v : QState N) (l : List (Item N)) : ∀ pre,
    mixedGrad O v pre l l = (List.range' (allParams pre).length (allParams l).length).map
      (shiftValue O v (pre ++ l)) := by
  induction l with
  | nil => intro pre; rfl
  | cons a l ih =>
    intro pre
    have e : allParams (a :: l) = a.params ++ allParams l := by simp [allParams]
    have e1 : (allParams (pre ++ [a])).length = (allParams pre).length + a.params.length := by
      simp [allParams]
    rw [mixedGrad, ih, e, List.length_append, ← List.range'_append_1, List.map_append, e1,
      List.append_assoc, List.singleton_append]
    congr 1
    rw [List.range'_eq_map_range, List.map_map]
    rfl

theorem mixedGrad_length (O : QOp N) (v : QState N) {cur rec : List (Item N)}
    (hs : List.Forall₂ Sibling cur rec) : ∀ pre, (mixedGrad O v pre cur rec).length = (allParams rec).length := by
  induction hs with
  | nil => intro pre; rfl
  | @cons a b cur rec hab _ ih =>
    intro pre
    rw [mixedGrad, List.length_append, ih]
    simp [allParams]

/-- The whole call. -/
theorem cal_params_grad_run (hn : c.nqubits = N) (hi : IsRow ps.init_state v) (hM : Represents ps.M O)
    {cur rec : List (Item N)} (hs : List.Forall₂ Sibling cur rec) (hr : Ready svd v q cur)
    (hb : List.Forall₂ Built cur c.gate) (hrec : ∀ k it, rec[k]? = some it → Recorded c k it)
    (s : List (Tensor ℂ)) (hl : q → ∀ A ∈ (ps.cal_params_grad svd (c, s)).2.2, Lossless A) :
    ∃ orec s', List.Forall₂ Built rec orec ∧
      ps.cal_params_grad svd (c, s) =
        (if (allParams rec).length = c.cir_num_params then .ok (mixedGrad O v [] cur rec)
          else .error .assertionError, ({ c with gate := orec }, s')) := by
  have e0 : (CM.read (fun c => TNM.lift (.ok c.gate.length)) : CM ℕ) (c, s) = (.ok c.gate.length, (c, s)) := rfl
  unfold PShift.cal_params_grad at hl ⊢
  rw [CM.bind_ok e0] at hl ⊢
  have hlen : c.gate.length = cur.length := hb.length_eq.symm
  rw [hlen, List.range_eq_range'] at hl ⊢
  have g2 : ∀ grads : List ℝ, CM.Grows (do
      CM.read (fun c => TNM.lift (pyAssert (grads.length = c.cir_num_params)))
      pure grads) := fun _ => (CM.Grows.read fun _ => TNM.Mono.lift' _).bind fun _ => CM.Grows.pure _
  obtain ⟨orec, s', h1, h2⟩ := gradLoop_run hn hi hM hs [] [] c.gate (by simpa using hr) .nil hb
    (by simpa using hrec) s (fun hq => CM.logged g2 (hl hq))
  have h2' : ps.gradLoop svd (List.range' 0 cur.length) (c, s) =
    (.ok (mixedGrad O v [] cur rec), ({ c with gate := orec }, s')) := h2
  refine ⟨orec, s', h1, ?_⟩
  rw [CM.bind_ok h2']
  have hm := mixedGrad_length O v hs []
  split_ifs with hc
  · have e3 : (CM.read (fun c => TNM.lift (pyAssert ((mixedGrad O v [] cur rec).length = c.cir_num_params))) : CM Unit)
        ({ c with gate := orec }, s') = (.ok (), ({ c with gate := orec }, s')) := by
      unfold CM.read TNM.lift
      dsimp only
      rw [hm, hc]
      simp [pyAssert]
    rw [CM.bind_ok e3]
    rfl
  · have e3 : (CM.read (fun c => TNM.lift (pyAssert ((mixedGrad O v [] cur rec).length = c.cir_num_params))) : CM Unit)
        ({ c with gate := orec }, s') = (.error .assertionError, ({ c with gate := orec }, s')) := by
      unfold CM.read TNM.lift
      dsimp only
      rw [hm]
      simp [pyAssert, hc]
    rw [CM.bind_error e3]

end

end QTN
