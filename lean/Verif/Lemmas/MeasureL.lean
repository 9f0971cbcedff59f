import Verif.Model.Measure
import Verif.Lemmas.Expect
import Verif.Lemmas.Expval
import Verif.Lemmas.ContractItems

/-! # Lemmas about `measure` -/

namespace QTN

open Finset Spec Matrix

variable {N : ℕ}

theorem squeeze_vec {state : Tensor ℂ} {d : ℕ} {psi : ℕ → ℂ} (hd : d ≠ 1) (h : IsVec state d psi) :
    state.squeeze.rank = 1 ∧ IsVec state.squeeze d psi := by
  rcases h with ⟨h, g⟩ | ⟨h, g⟩ | ⟨h, g⟩
  all_goals
    have hs : state.squeeze.shape = [d] := by unfold Tensor.squeeze; rw [h]; simp [hd]
    refine ⟨by simp [Tensor.rank, hs], .inl ⟨hs, fun i hi => ?_⟩⟩
    rw [← g i hi]
    unfold Tensor.squeeze
    rw [h, Tensor.get_ofFn (by simp [hd, hi])]
    simp [Tensor.unsqIdx, hd]

theorem squeeze_mat {m : Tensor ℂ} {d : ℕ} {f : ℕ → ℕ → ℂ} (hd : d ≠ 1) (h : IsMat m d f) :
    m.squeeze.rank = 2 ∧ IsMat m.squeeze d f := by
  have hs : m.squeeze.shape = [d, d] := by unfold Tensor.squeeze; rw [h.1]; simp [hd]
  refine ⟨by simp [Tensor.rank, hs], hs, fun i j hi hj => ?_⟩
  rw [← h.2 i j hi hj]
  unfold Tensor.squeeze
  rw [h.1, Tensor.get_ofFn (by simp [hd, hi, hj])]
  simp [Tensor.unsqIdx, hd]

theorem zObservable_rep (i : Fin N) : Computes (zObservable N (wire i)) (onQubit i Spec.Z) :=
  single_rep i rfl rfl pauliZMat_rep

theorem rep_isMat {M : Tensor ℂ} {O : QOp N} (h : Represents M O) :
    IsMat M (2 ^ N) (fun i j => M.get [i, j]) := ⟨h.1, fun _ _ _ _ => rfl⟩

theorem expval_Z_vec {state M : Tensor ℂ} {psi : ℕ → ℂ} (h : IsVec state (2 ^ N) psi) (i : Fin N)
    (hM : Represents M (onQubit i Spec.Z)) :
    expval state M false =
      .ok (∑ a : Bits N, (if a i = 0 then 1 else -1) * ‖psi (enc a)‖ ^ 2) := by
  rw [expval_vec h (rep_isMat hM)]
  have : (∑ k ∈ range (2 ^ N), ∑ j ∈ range (2 ^ N), star (psi k) * M.get [k, j] * psi j) =
      braket (onQubit i Spec.Z) (fun a => psi (enc a)) := by
    unfold braket
    rw [sum_enc]
    refine sum_congr rfl fun a _ => ?_
    rw [sum_enc]
    exact sum_congr rfl fun b _ => by rw [hM.2]
  rw [this, braket_Z, Complex.ofReal_re]

theorem expval_Z_mat {rho M : Tensor ℂ} {r : ℕ → ℕ → ℂ} (h : IsMat rho (2 ^ N) r) (i : Fin N)
    (hM : Represents M (onQubit i Spec.Z)) (ht : ‖(∑ a : Bits N, r (enc a) (enc a)) - 1‖ ≤ (1e-4 : ℝ)) :
    expval rho M true =
      .ok (∑ a : Bits N, (if a i = 0 then 1 else -1) * (r (enc a) (enc a)).re) := by
  rw [expval_mat h (rep_isMat hM), sum_enc N (fun k => r k k), if_neg (not_lt.2 ht)]
  refine congrArg Except.ok ?_
  rw [sum_enc, Complex.re_sum]
  refine sum_congr rfl fun a _ => ?_
  rw [sum_enc, Finset.sum_eq_single a]
  · rw [hM.2, onQubit_Z, if_pos rfl]
    split <;> simp
  · intro b _ hb
    rw [hM.2, onQubit_Z, if_neg hb]; simp
  · simp

theorem prob_diff (p : Bits N → ℝ) (i : Fin N) :
    ∑ a : Bits N, (if a i = 0 then 1 else -1) * p a = prob p i 0 - prob p i 1 := by
  unfold prob
  rw [Finset.sum_filter, Finset.sum_filter, ← Finset.sum_sub_distrib]
  refine sum_congr rfl fun a _ => ?_
  have : a i = 0 ∨ a i = 1 := by
    generalize a i = x
    fin_cases x <;> simp
  rcases this with h | h <;> simp [h]

theorem measure_probs {state : Tensor ℂ} {p : Bits N → ℝ} (hN : 0 < N) (h : HasProbs state p) (i : Fin N)
    {M : Tensor ℂ} (hM : Represents M (onQubit i Spec.Z)) :
    expval state.squeeze M (decide (state.squeeze.rank ≠ 1)) = .ok (prob p i 0 - prob p i 1) := by
  have hd : 2 ^ N ≠ 1 := by
    have := Nat.one_lt_two_pow (n := N) (by omega)
    omega
  rw [← prob_diff]
  rcases h with ⟨psi, h, hp⟩ | ⟨r, h, ht, hp⟩
  · obtain ⟨h1, h2⟩ := squeeze_vec hd h
    rw [h1]
    simp only [ne_eq, not_true_eq_false, decide_false]
    rw [expval_Z_vec h2 i hM]
    simp only [hp]
  · obtain ⟨h1, h2⟩ := squeeze_mat hd h
    rw [h1]
    simp only [ne_eq, OfNat.ofNat_ne_one, not_false_eq_true, decide_true]
    rw [expval_Z_mat h2 i hM ht]
    simp only [hp]

theorem measure_list {state : Tensor ℂ} {p : Bits N → ℝ} (hN : 0 < N) (h : HasProbs state p)
    (ws : List (Fin N)) :
    (do (← (wires ws).mapM (zObservable N)).mapM (fun Mi =>
      expval state.squeeze Mi (decide (state.squeeze.rank ≠ 1)))) =
    .ok (ws.map (fun i => prob p i 0 - prob p i 1)) := by
  have hz : ∀ i : Fin N, ∃ M, zObservable N (wire i) = .ok M ∧ Represents M (onQubit i Spec.Z) :=
    fun i => zObservable_rep i
  choose Z hZ rZ using hz
  have e1 : (wires ws).mapM (zObservable N) = .ok (ws.map Z) := by
    unfold wires
    induction ws with
    | nil => rfl
    | cons i ws ih => rw [List.map_cons, List.mapM_cons, hZ, Py.ok_bind, ih]; rfl
  rw [e1, Py.ok_bind]
  clear e1
  induction ws with
  | nil => rfl
  | cons i ws ih => rw [List.map_cons, List.mapM_cons, measure_probs hN h i (rZ i), Py.ok_bind, ih]; rfl

end QTN
