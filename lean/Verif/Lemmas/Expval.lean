import Verif.Lemmas.View
import Verif.Lemmas.Kron
import Verif.Model.QMath
import Verif.SpecExp

/-! # `dag` and `expval` -/

namespace QTN

open Finset Spec

theorem dag_ok {x : Tensor ℂ} {m n : ℕ} (h : x.shape = [m, n]) :
    ∃ y, dag x = .ok y ∧ y.shape = [n, m] ∧ ∀ i j, i < n → j < m → y.get [i, j] = star (x.get [j, i]) := by
  have hc : x.conj.shape = [m, n] := h
  have e : dag x = .ok (Tensor.ofFn [n, m] (fun idx =>
      x.conj.get ((List.range 2).map (fun j => idx.getD (([1, 0] : List ℕ).idxOf j) 0)))) := by
    unfold dag
    rw [raiseIf_false (by simp [Tensor.rank, h]), Py.ok_bind]
    unfold Tensor.permute
    rw [raiseIf_false (by simp [Tensor.rank, hc]), Py.ok_bind]
    simp [Tensor.rank, hc, wrapIdx, List.mapM_cons]
  refine ⟨_, e, rfl, fun i j hi hj => ?_⟩
  rw [Tensor.get_ofFn (by simp [hi, hj])]
  have : (List.range 2).map (fun k => [i, j].getD (([1, 0] : List ℕ).idxOf k) 0) = [j, i] := by
    simp [List.range_succ, List.idxOf_cons]
  rw [this]
  unfold Tensor.conj
  rw [Tensor.get_ofFn (by rw [h]; simp [hi, hj])]

/-- The quadratic form of a vector given by its entries. -/
noncomputable def qform (M : Tensor ℂ) (d : ℕ) (f : ℕ → ℂ) : ℂ :=
  ∑ i ∈ range d, ∑ j ∈ range d, star (f i) * M.get [i, j] * f j

theorem expval_col {state M c : Tensor ℂ} {d : ℕ} (hv : state.view [-1, 1] = .ok c) (hc : c.shape = [d, 1])
    (hM : M.shape = [d, d]) : expval state M false = .ok (qform M d (fun i => c.get [i, 0])).re := by
  obtain ⟨y, hy, sy, gy⟩ := dag_ok hc
  unfold expval
  rw [if_pos rfl, hv, Py.ok_bind, hy, Py.ok_bind, Tensor.matmul2 sy hM, Py.ok_bind,
    Tensor.matmul2 rfl hc, Py.ok_bind]
  refine congrArg Except.ok (congrArg Complex.re ?_)
  unfold Tensor.diagVec
  rw [Tensor.get_ofFn (by simp), Tensor.get_ofFn (by simp)]
  simp only [List.getD_cons_zero, List.getD_cons_succ]
  unfold qform
  rw [Finset.sum_comm]
  refine sum_congr rfl fun j hj => ?_
  rw [Tensor.get_ofFn (by simpa using hj), sum_mul]
  refine sum_congr rfl fun i hi => ?_
  simp only [List.getD_cons_zero, List.getD_cons_succ]
  rw [gy 0 i (by omega) (by simpa using hi)]

theorem view_col_of {state : Tensor ℂ} {d : ℕ} (h : state.numel = d) :
    state.view [-1, 1] = .ok (state.reshapeN [d, 1]) :=
  Tensor.view_neg_first state d [1] (by simp [h]) (by simp)

theorem isVec_col {state : Tensor ℂ} {d : ℕ} {psi : ℕ → ℂ} (h : IsVec state d psi) :
    ∃ c, state.view [-1, 1] = .ok c ∧ c.shape = [d, 1] ∧ ∀ i < d, c.get [i, 0] = psi i := by
  rcases h with ⟨h, g⟩ | ⟨h, g⟩ | ⟨h, g⟩
  · refine ⟨_, view_col_of (by simp [Tensor.numel, h]), rfl, fun i hi => ?_⟩
    rw [Tensor.reshapeN_get_eq (idx' := [i]) (by simp [hi]) (by rw [h]; simp [hi]) (by rw [h]; simp [ravel]), g i hi]
  · refine ⟨_, view_col_of (by simp [Tensor.numel, h]), rfl, fun i hi => ?_⟩
    rw [Tensor.reshapeN_get_eq (idx' := [0, i]) (by simp [hi]) (by rw [h]; simp [hi]) (by rw [h]; simp [ravel]), g i hi]
  · refine ⟨_, view_col_of (by simp [Tensor.numel, h]), rfl, fun i hi => ?_⟩
    rw [Tensor.reshapeN_get_eq (idx' := [i, 0]) (by simp [hi]) (by rw [h]; simp [hi]) (by rw [h]), g i hi]

theorem expval_vec {state M : Tensor ℂ} {d : ℕ} {psi : ℕ → ℂ} {m : ℕ → ℕ → ℂ} (h : IsVec state d psi)
    (hM : IsMat M d m) : expval state M false =
      .ok (∑ i ∈ range d, ∑ j ∈ range d, star (psi i) * m i j * psi j).re := by
  obtain ⟨c, hv, hc, gc⟩ := isVec_col h
  rw [expval_col hv hc hM.1]
  refine congrArg Except.ok (congrArg Complex.re ?_)
  unfold qform
  refine sum_congr rfl fun i hi => sum_congr rfl fun j hj => ?_
  beta_reduce
  rw [gc i (by simpa using hi), gc j (by simpa using hj), hM.2 i j (by simpa using hi) (by simpa using hj)]

theorem expval_mat {rho M : Tensor ℂ} {d : ℕ} {r m : ℕ → ℕ → ℂ} (hr : IsMat rho d r) (hM : IsMat M d m) :
    expval rho M true = if ‖(∑ i ∈ range d, r i i) - 1‖ > (1e-4 : ℝ) then .error .valueError
      else .ok (∑ i ∈ range d, ∑ j ∈ range d, r i j * m j i).re := by
  have ht : rho.trace = .ok (∑ i ∈ range d, r i i) := by
    unfold Tensor.trace
    rw [hr.1]
    simp only [min_self]
    exact congrArg _ (sum_congr rfl fun i hi => hr.2 i i (by simpa using hi) (by simpa using hi))
  unfold expval
  rw [if_neg (by simp), ht, Py.ok_bind]
  split
  · next h => rw [raiseIf_true h, Py.error_bind]
  · next h =>
    rw [raiseIf_false h, Py.ok_bind, Tensor.matmul2 hr.1 hM.1, Py.ok_bind]
    unfold Tensor.trace
    simp only [Tensor.shape_ofFn, min_self, Py.ok_bind]
    refine congrArg Except.ok (congrArg Complex.re (sum_congr rfl fun i hi => ?_))
    rw [Tensor.get_ofFn (by simpa using hi)]
    simp only [List.getD_cons_zero, List.getD_cons_succ]
    refine sum_congr rfl fun j hj => ?_
    rw [hr.2 i j (by simpa using hi) (by simpa using hj), hM.2 j i (by simpa using hj) (by simpa using hi)]

end QTN
