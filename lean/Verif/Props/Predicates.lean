import Verif.Lemmas.Gates
import Mathlib.LinearAlgebra.Matrix.ConjTranspose
import Mathlib.LinearAlgebra.UnitaryGroup

/-! # Property C38: the matrix predicates -/

namespace QTN.Props

open QTN QTN.Spec Matrix Finset

/-- The matrix of a tensor of shape `[n, n]`. -/
def mat (m : Tensor ℂ) (n : ℕ) : Matrix (Fin n) (Fin n) ℂ := fun i j => m.get [i, j]

/-- C38: `IsUnitary` of an `n × n` matrix returns a Boolean, which is True exactly when `A A†` is
entrywise within `1e-6` of the identity; in particular for every unitary `A`. -/
theorem C38_unitary (A : Tensor ℂ) (n : ℕ) (h : A.shape = [n, n]) :
    (∃ b, IsUnitary A = .ok b) ∧
    (IsUnitary A = .ok true ↔ ∀ i k, ‖(mat A n * (mat A n)ᴴ - 1) i k‖ ≤ 1e-6) ∧
    (mat A n ∈ Matrix.unitaryGroup (Fin n) ℂ → IsUnitary A = .ok true) := by
  have hd : ∀ i : Fin n, ‖(mat A n * (mat A n)ᴴ - 1) i i‖ =
      |(∑ j ∈ range n, ‖A.get [(i : ℕ), j]‖ ^ 2) - 1| := by
    intro i
    rw [← Real.norm_eq_abs, ← Complex.norm_real, ← Fin.sum_univ_eq_sum_range (fun j => ‖A.get [(i : ℕ), j]‖ ^ 2)]
    congr 1
    simp [mat, Matrix.mul_apply, Complex.mul_conj, Complex.normSq_eq_norm_sq]
  have ho : ∀ i k : Fin n, i ≠ k → ‖(mat A n * (mat A n)ᴴ - 1) i k‖ =
      ‖∑ j ∈ range n, A.get [(i : ℕ), j] * star (A.get [(k : ℕ), j])‖ := by
    intro i k hik
    rw [← Fin.sum_univ_eq_sum_range (fun j => A.get [(i : ℕ), j] * star (A.get [(k : ℕ), j]))]
    congr 1
    simp [mat, Matrix.mul_apply, hik]
  have hsym : ∀ i k : Fin n, ‖(mat A n * (mat A n)ᴴ - 1) i k‖ = ‖(mat A n * (mat A n)ᴴ - 1) k i‖ := by
    intro i k
    have : (mat A n * (mat A n)ᴴ - 1)ᴴ = mat A n * (mat A n)ᴴ - 1 := by simp
    conv_lhs => rw [← this]
    rw [Matrix.conjTranspose_apply, norm_star]
  have key : IsUnitary A = .ok (decide (∀ i k, ‖(mat A n * (mat A n)ᴴ - 1) i k‖ ≤ 1e-6)) := by
    unfold IsUnitary
    rw [h]
    simp only
    rw [raiseIf_false (by simp), Py.ok_bind]
    split_ifs with h1 h2
    · refine congrArg Except.ok (decide_eq_false ?_).symm
      simp only [List.any_eq_true, List.mem_range, decide_eq_true_eq] at h1
      obtain ⟨i, hi, hgt⟩ := h1
      intro hall
      have := hall ⟨i, hi⟩ ⟨i, hi⟩
      rw [hd] at this
      exact absurd this (not_le.2 hgt)
    · refine congrArg Except.ok (decide_eq_false ?_).symm
      simp only [List.any_eq_true, List.mem_range, List.mem_range', decide_eq_true_eq] at h2
      obtain ⟨i, hi, k, ⟨x, hx, rfl⟩, hgt⟩ := h2
      intro hall
      have := hall ⟨i, by omega⟩ ⟨i + 1 + 1 * x, by omega⟩
      rw [ho _ _ (by simp; omega)] at this
      exact absurd this (not_le.2 hgt)
    · refine congrArg Except.ok (decide_eq_true ?_).symm
      simp only [List.any_eq_true, List.mem_range, List.mem_range', decide_eq_true_eq, not_exists, not_and,
        not_lt, gt_iff_lt] at h1 h2
      have hlt : ∀ i k : Fin n, i < k → ‖(mat A n * (mat A n)ᴴ - 1) i k‖ ≤ 1e-6 := by
        intro i k hik
        have hik' : (i : ℕ) < k := hik
        rw [ho _ _ hik.ne]
        exact h2 i (by omega) k ⟨k - (i + 1), by omega, by omega⟩
      intro i k
      rcases lt_trichotomy i k with hik | rfl | hik
      · exact hlt i k hik
      · rw [hd]; exact h1 i i.2
      · rw [hsym]; exact hlt k i hik
  refine ⟨⟨_, key⟩, by rw [key, Except.ok.injEq, decide_eq_true_iff], fun hu => ?_⟩
  rw [key, decide_eq_true]
  intro i k
  have : mat A n * (mat A n)ᴴ = 1 := (Matrix.mem_unitaryGroup_iff).1 hu
  rw [this]
  norm_num

/-- C38: `IsHermitian` of an `n × n` matrix returns a Boolean, which is True exactly when `A` is
entrywise within `1e-6` of `A†`; in particular for every Hermitian `A`. -/
theorem C38_hermitian (A : Tensor ℂ) (n : ℕ) (h : A.shape = [n, n]) :
    (∃ b, IsHermitian A = .ok b) ∧
    (IsHermitian A = .ok true ↔ ∀ i k, ‖(mat A n - (mat A n)ᴴ) i k‖ ≤ 1e-6) ∧
    ((mat A n)ᴴ = mat A n → IsHermitian A = .ok true) := by
  have ho : ∀ i k : Fin n, ‖(mat A n - (mat A n)ᴴ) i k‖ = ‖A.get [(i : ℕ), (k : ℕ)] - star (A.get [(k : ℕ), (i : ℕ)])‖ :=
    fun i k => rfl
  have hsym : ∀ i k : Fin n, ‖(mat A n - (mat A n)ᴴ) i k‖ = ‖(mat A n - (mat A n)ᴴ) k i‖ := by
    intro i k
    have : (mat A n - (mat A n)ᴴ)ᴴ = -(mat A n - (mat A n)ᴴ) := by simp
    rw [← norm_star, ← Matrix.conjTranspose_apply, this, Matrix.neg_apply, norm_neg]
  have key : IsHermitian A = .ok (decide (∀ i k, ‖(mat A n - (mat A n)ᴴ) i k‖ ≤ 1e-6)) := by
    unfold IsHermitian
    rw [h]
    simp only
    rw [raiseIf_false (by simp), Py.ok_bind]
    split_ifs with h2
    · refine congrArg Except.ok (decide_eq_false ?_).symm
      simp only [List.any_eq_true, List.mem_range, List.mem_range', decide_eq_true_eq] at h2
      obtain ⟨i, hi, k, ⟨x, hx, rfl⟩, hgt⟩ := h2
      intro hall
      have := hall ⟨i, by omega⟩ ⟨i + 1 * x, by omega⟩
      rw [ho] at this
      exact absurd this (not_le.2 hgt)
    · refine congrArg Except.ok (decide_eq_true ?_).symm
      simp only [List.any_eq_true, List.mem_range, List.mem_range', decide_eq_true_eq, not_exists, not_and,
        not_lt, gt_iff_lt] at h2
      have hlt : ∀ i k : Fin n, i ≤ k → ‖(mat A n - (mat A n)ᴴ) i k‖ ≤ 1e-6 := by
        intro i k hik
        have hik' : (i : ℕ) ≤ k := hik
        rw [ho]
        exact h2 i (by omega) k ⟨k - i, by omega, by omega⟩
      intro i k
      rcases le_total i k with hik | hik
      · exact hlt i k hik
      · rw [hsym]; exact hlt k i hik
  refine ⟨⟨_, key⟩, by rw [key, Except.ok.injEq, decide_eq_true_iff], fun hu => ?_⟩
  rw [key, decide_eq_true]
  intro i k
  rw [hu]
  norm_num

/-- C38: `IsNormalized` of a non-empty vector returns a Boolean, which is True exactly when the squared
norm is within `1e-6` of one; in particular for every normalised vector. -/
theorem C38_normalized (v : Tensor ℂ) (n : ℕ) (hn : 0 < n) (h : v.shape = [n]) :
    (∃ b, IsNormalized v = .ok b) ∧
    (IsNormalized v = .ok true ↔ |(∑ i ∈ range n, ‖v.get [i]‖ ^ 2) - 1| ≤ 1e-6) ∧
    (∑ i ∈ range n, ‖v.get [i]‖ ^ 2 = 1 → IsNormalized v = .ok true) := by
  have key : IsNormalized v = .ok (decide (|(∑ i ∈ range n, ‖v.get [i]‖ ^ 2) - 1| ≤ 1e-6)) := by
    unfold IsNormalized
    rw [raiseIf_false (by simp [Tensor.rank, h]), Py.ok_bind, raiseIf_false (by simp [h]; omega), Py.ok_bind, h]
    simp only [List.getD_cons_zero]
    split_ifs with h1
    · rw [decide_eq_false (not_le.2 h1)]
    · rw [decide_eq_true (not_lt.1 h1)]
  refine ⟨⟨_, key⟩, by rw [key, Except.ok.injEq, decide_eq_true_iff], fun hu => ?_⟩
  rw [key, decide_eq_true]
  rw [hu]
  norm_num

/-- C38, error branch: non-square matrices raise ValueError, tensors that are not vectors raise
ValueError in `IsNormalized` (the empty vector raises TypeError). -/
theorem C38_rejects (A : Tensor ℂ) :
    (∀ r c, A.shape = [r, c] → r ≠ c → IsUnitary A = .error .valueError ∧ IsHermitian A = .error .valueError) ∧
    (A.rank ≠ 1 → IsNormalized A = .error .valueError) ∧
    (A.shape = [0] → IsNormalized A = .error .typeError) := by
  refine ⟨fun r c h hrc => ⟨?_, ?_⟩, fun h => ?_, fun h => ?_⟩
  · unfold IsUnitary
    rw [h]
    simp only
    rw [raiseIf_true hrc, Py.error_bind]
  · unfold IsHermitian
    rw [h]
    simp only
    rw [raiseIf_true hrc, Py.error_bind]
  · unfold IsNormalized
    rw [raiseIf_true h, Py.error_bind]
  · unfold IsNormalized
    rw [raiseIf_false (by simp [Tensor.rank, h]), Py.ok_bind, raiseIf_true (by simp [h]), Py.error_bind]

/-- The exchange matrix is a non-diagonal unitary and Hermitian input. -/
example : mat (Tensor.ofRows [[0, 1], [1, 0]]) 2 ∈ Matrix.unitaryGroup (Fin 2) ℂ := by
  rw [Matrix.mem_unitaryGroup_iff]
  ext i j
  fin_cases i <;> fin_cases j <;>
    simp [Matrix.mul_apply, mat, Tensor.ofRows, Tensor.ofFn, inB, Fin.sum_univ_two, Matrix.star_apply]

example : (mat (Tensor.ofRows [[1, Complex.I], [-Complex.I, 2]]) 2)ᴴ = mat (Tensor.ofRows [[1, Complex.I], [-Complex.I, 2]]) 2 := by
  ext i j
  fin_cases i <;> fin_cases j <;> simp [mat, Tensor.ofRows, Tensor.ofFn, inB]

/-- Inputs on which the predicates return False. -/
example : IsUnitary (Tensor.ofRows [[1, 1], [0, 1]]) ≠ .ok true := by
  intro h
  have := (C38_unitary (Tensor.ofRows [[1, 1], [0, 1]]) 2 rfl).2.1.1 h 0 1
  simp [Matrix.mul_apply, mat, Tensor.ofRows, Tensor.ofFn, inB, Fin.sum_univ_two] at this
  norm_num at this

example : ∑ i ∈ range 2, ‖(Tensor.ofList [(3 / 5 : ℂ), 4 / 5 * Complex.I]).get [i]‖ ^ 2 = 1 := by
  simp [Finset.sum_range_succ, Tensor.ofList, Tensor.ofFn, inB]
  norm_num

example : ∃ A : Tensor ℂ, A.shape = [2, 3] := ⟨Tensor.zeros _, rfl⟩

end QTN.Props
