import Verif.Lemmas.Holds
import Verif.Lemmas.MpsGates
import Verif.Lemmas.MpsTensor
import Verif.Lemmas.SvMps

/-! # Conversion of state vectors and evolution of whole circuits on matrix product states -/

namespace QTN

open Finset Spec Matrix

variable {N : ℕ}

theorem Spec.IsRow.ext {t t' : Tensor ℂ} {v : QState N} (h : IsRow t v) (h' : IsRow t' v) : t = t' := by
  apply Tensor.ext' (h.1.trans h'.1.symm)
  intro idx hi
  rw [h.1] at hi
  match idx, hi with
  | [], hi => simp [inB] at hi
  | [_], hi => simp [inB] at hi
  | _ :: _ :: _ :: _, hi => simp [inB] at hi
  | [i, j], hi =>
    simp only [inB_cons, inB_nil, Bool.and_eq_true, decide_eq_true_eq] at hi
    obtain ⟨h0, hj, -⟩ := hi
    obtain rfl : i = 0 := by omega
    obtain ⟨b, rfl⟩ := exists_enc hj
    rw [h.2, h'.2]

theorem Spec.IsRow.unique {t : Tensor ℂ} {v w : QState N} (h : IsRow t v) (h' : IsRow t w) : v = w := by
  funext a
  rw [← h.2, h'.2]

theorem row_view_col {t : Tensor ℂ} {v : QState N} (h : IsRow t v) :
    ∃ c, t.view [-1, 1] = .ok c ∧ IsCol c v := by
  have hn : t.numel = 2 ^ N := by simp [Tensor.numel, h.1]
  refine ⟨t.reshapeN [2 ^ N, 1], Tensor.view_neg_first _ (2 ^ N) [1] (by simp [hn]) (by simp), rfl,
    fun a => ?_⟩
  rw [Tensor.reshapeN_get_eq (idx' := [0, enc a]) (by simp [enc_lt]) (by rw [h.1]; simp [enc_lt])
    (by rw [h.1]; simp [ravel]), h.2]

theorem col_view_row {t : Tensor ℂ} {v : QState N} (h : IsCol t v) :
    ∃ c, t.view [1, -1] = .ok c ∧ IsRow c v := by
  have hn : t.numel = 2 ^ N := by simp [Tensor.numel, h.1]
  refine ⟨t.reshapeN [1, 2 ^ N], Tensor.view_neg_last _ 1 (2 ^ N) (by simp [hn]) (by simp), rfl,
    fun a => ?_⟩
  rw [Tensor.reshapeN_get_eq (idx' := [enc a, 0]) (by simp [enc_lt]) (by rw [h.1]; simp [enc_lt])
    (by rw [h.1]; simp [ravel]), h.2]

theorem row_view_row {t : Tensor ℂ} {v : QState N} (h : IsRow t v) : t.view [1, -1] = .ok t := by
  have hn : t.numel = 2 ^ N := by simp [Tensor.numel, h.1]
  have e := Tensor.view_neg_last t 1 (2 ^ N) (by simp [hn]) (by simp)
  refine e.trans (congrArg _ ?_)
  refine Spec.IsRow.ext (v := v) ⟨rfl, fun a => ?_⟩ h
  rw [Tensor.reshapeN_get_eq (idx' := [0, enc a]) (by simp [enc_lt]) (by rw [h.1]; simp [enc_lt])
    (by rw [h.1]), h.2]

theorem row_of_shape {t : Tensor ℂ} (h : t.shape = [1, 2 ^ N]) :
    IsRow t (fun a : Bits N => t.get [0, enc a]) := ⟨h, fun _ => rfl⟩

/-! ## StateVec2MPS -/

theorem sv2mps_unfold (svd : SVDOracle) {psi : Tensor ℂ} (h : psi.shape = [1, 2 ^ N]) :
    StateVec2MPS svd psi N = StateVec2MPS_loop svd N psi := by
  funext s
  unfold StateVec2MPS
  rw [raiseIf_false (by simp [Tensor.rank, h]), TNM.lift_ok_bind, raiseIf_false (by simp [h]),
    TNM.lift_ok_bind]

theorem sv2mps_exact {svd : SVDOracle} (hv : ValidSVD svd) (hN : 0 < N) {psi : Tensor ℂ} {v : QState N}
    (h : IsRow psi v) (h0 : v ≠ 0) {s : List (Tensor ℂ)}
    (hl : ∀ A ∈ (StateVec2MPS svd psi N s).2, Lossless A) :
    ∃ mps s', StateVec2MPS svd psi N s = (.ok mps, s') ∧ IsMPS mps v := by
  rw [sv2mps_unfold svd h.1] at hl ⊢
  obtain ⟨k, rfl⟩ : ∃ k, N = k + 1 := ⟨N - 1, by omega⟩
  have hne : ∃ a, v a ≠ 0 := by
    by_contra hno
    push Not at hno
    exact h0 (funext hno)
  obtain ⟨a, ha⟩ := hne
  obtain ⟨lst, s', e, hlen, hc, hamp⟩ := loop_exact hv k 1 psi s (by omega) h.1
    ⟨0, enc a, by omega, enc_lt a, by rwa [h.2]⟩ hl
  exact ⟨lst, s', e, hlen, hc, fun a => by rw [hamp 0 (by omega), h.2]⟩

theorem mono_sv2mps_loop (svd : SVDOracle) : ∀ (k : ℕ) (c : Tensor ℂ), (StateVec2MPS_loop svd k c).Mono := by
  intro k
  induction k with
  | zero => intro c; exact TNM.Mono.pure _
  | succ k ih =>
    intro c
    unfold StateVec2MPS_loop
    refine (TNM.Mono.lift _).bind (fun _ => ?_)
    split
    · exact (TNM.Mono.lift _).bind (fun _ => TNM.Mono.pure _)
    · exact (TNM.Mono.svdTrunc _ _).bind (fun _ => (TNM.Mono.lift _).bind (fun _ =>
        (ih _).bind (fun _ => TNM.Mono.pure _)))

/-! ## Circuits -/

theorem evolution_acts {svd : SVDOracle} (ops : List Op) (Ms : List (QOp N))
    (h : List.Forall₂ (fun (o : Op) M => o.supportTN = true ∧ Acts (o.TN_operation svd) M) ops Ms) :
    Acts (fun mps => ops.foldlM (fun mps o => if o.supportTN = true then o.TN_operation svd mps
      else TNM.lift (.error .valueError)) mps) (timeOrdered Ms) := by
  induction h with
  | nil => exact acts_pure
  | cons ho _ ih =>
    refine ((ho.2.comp ih).congr (fun mps => ?_)).congrM (by rw [timeOrdered_cons])
    rw [List.foldlM_cons, if_pos ho.1]

theorem Theory.items {svd : SVDOracle} (T : Theory N svd) (l : List (Item N)) (h : ∀ it ∈ l, it.WF)
    (hc : ∀ it ∈ l, Spec.Item.mpsOp it) :
    ∃ ops, l.mapM buildItem = .ok ops ∧
      T.Act (fun mps => ops.foldlM (fun mps o => if o.supportTN = true then o.TN_operation svd mps
        else TNM.lift (.error .valueError)) mps) (timeOrdered (l.map Item.op)) (l.map Item.decomps).sum := by
  induction l with
  | nil => exact ⟨[], rfl, T.nop⟩
  | cons it l ih =>
    obtain ⟨o, ho, hs, hf⟩ := T.item it (h it (by simp)) (hc it (by simp))
    obtain ⟨ops, hops, hF⟩ := ih (fun j hj => h j (by simp [hj])) (fun j hj => hc j (by simp [hj]))
    refine ⟨o :: ops, by rw [List.mapM_cons, ho, hops]; rfl,
      T.cast (T.congr (T.comp hf hF) (fun mps => ?_)) (by rw [List.map_cons, timeOrdered_cons]) (by simp)⟩
    rw [List.foldlM_cons, if_pos hs]

theorem circuit_acts {svd : SVDOracle} (c : Circuit) (hn : c.nqubits = N) (Ms : List (QOp N))
    (h : List.Forall₂ (fun (o : Op) M => o.supportTN = true ∧ Acts (o.TN_operation svd) M) c.gate Ms) :
    (∀ mps, (c.TN_evolution svd mps).Mono) ∧ (∀ v, v ≠ 0 → timeOrdered Ms *ᵥ v ≠ 0) ∧
    ∀ mps (v : QState N) s, IsMPS mps v → (∀ A ∈ (c.TN_evolution svd mps s).2, Lossless A) →
    (∃ mps' s', c.TN_evolution svd mps s = (.ok mps', s') ∧ IsMPS mps' (timeOrdered Ms *ᵥ v)) ∨
      (v = 0 ∧ ∃ s', c.TN_evolution svd mps s = (.error .runtimeError, s')) := by
  have ha := evolution_acts c.gate Ms h
  refine ⟨fun mps => (TNM.Mono.lift _).bind (fun _ => ha.1 mps), ha.2.1, fun mps v s hm hl => ?_⟩
  unfold Circuit.TN_evolution at hl ⊢
  rw [raiseIf_false (by simp [hm.1, hn]), TNM.lift_ok_bind] at hl ⊢
  exact ha.2.2 mps v s hm hl

theorem items_mps {svd : SVDOracle} (hv : ValidSVD svd) (l : List (Item N)) (h : ∀ it ∈ l, it.WF)
    (hc : ∀ it ∈ l, Spec.Item.mpsOp it) :
    ∃ ops, l.mapM buildItem = .ok ops ∧
      List.Forall₂ (fun (o : Op) M => o.supportTN = true ∧ Acts (o.TN_operation svd) M) ops
        (l.map Item.op) ∧
      List.Forall₂ (fun (o : Op) M => Computes o.U_expand M) ops (l.map Item.op) := by
  induction l with
  | nil => exact ⟨[], rfl, .nil, .nil⟩
  | cons it l ih =>
    obtain ⟨o, ho, hs, hf⟩ := item_mps hv it (h it (by simp)) (hc it (by simp))
    obtain ⟨o', ho', hu⟩ := item_ok it (h it (by simp))
    rw [ho] at ho'; cases ho'
    obtain ⟨ops, hops, hF, hU⟩ := ih (fun j hj => h j (by simp [hj])) (fun j hj => hc j (by simp [hj]))
    exact ⟨o :: ops, by rw [List.mapM_cons, ho, hops]; rfl, .cons ⟨hs, hf⟩ hF, .cons hu hU⟩

end QTN
