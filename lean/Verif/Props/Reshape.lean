import Verif.Lemmas.MpsCircuit

/-! # Property C27: the rank-`N` and rank-`2N` reshapes -/

namespace QTN.Props

open QTN QTN.Spec Matrix

variable {N : ℕ}

/-- C27: `MatrixProductState(psi, N)` of a `1 × 2^N` row puts the amplitude of the basis state `a` at
the position given by the bits of `a`. -/
theorem C27_state (psi : Tensor ℂ) (h : psi.shape = [1, 2 ^ N]) :
    ∃ T, MatrixProductState psi N = .ok T ∧ IsTen T (fun a : Bits N => psi.get [0, enc a]) := by
  refine ⟨psi.reshapeN (List.replicate N 2), ?_, rfl, fun a => ?_⟩
  · unfold MatrixProductState
    rw [raiseIf_false (by simp [Tensor.rank, h]), Py.ok_bind, raiseIf_false (by simp [h]), Py.ok_bind]
    have := Tensor.view_nat psi (List.replicate N 2) (by simp [Tensor.numel, h])
    rwa [List.map_replicate] at this
  · rw [Tensor.reshapeN_get_eq (idx' := [0, enc a]) (inB_bl a) (by rw [h]; simp [enc_lt])]
    rw [h, ← enc_eq_ravel]
    simp [ravel]

/-- C27, error branch: any other shape raises ValueError. -/
theorem C27_state_rejects (psi : Tensor ℂ) (N : ℕ) (h : psi.shape ≠ [1, 2 ^ N]) :
    MatrixProductState psi N = .error .valueError := by
  unfold MatrixProductState
  by_cases hr : psi.rank = 2
  · rw [raiseIf_false (by simpa using hr), Py.ok_bind, raiseIf_true, Py.error_bind]
    by_contra hno
    push Not at hno
    apply h
    unfold Tensor.rank at hr
    match hsh : psi.shape, hr, hno with
    | [a, b], _, hno => simp at hno; simp [hno]
  · rw [raiseIf_true (by simpa using hr), Py.error_bind]

/-- C27: `MatrixProductDensityOperator(rho, N)` of a `2^N × 2^N` matrix puts the entry of row `a` and
column `b` at the position given by the bits of `a` followed by the bits of `b`. -/
theorem C27_density (rho : Tensor ℂ) (h : rho.shape = [2 ^ N, 2 ^ N]) :
    ∃ T, MatrixProductDensityOperator rho N = .ok T ∧ T.shape = List.replicate (2 * N) 2 ∧
      ∀ a b : Bits N, T.get (bl a ++ bl b) = rho.get [enc a, enc b] := by
  have hrep : List.replicate (2 * N) 2 = List.replicate N 2 ++ List.replicate N 2 := by
    rw [List.replicate_append_replicate, two_mul]
  refine ⟨rho.reshapeN (List.replicate (2 * N) 2), ?_, rfl, fun a b => ?_⟩
  · unfold MatrixProductDensityOperator
    rw [raiseIf_false (by simp [Tensor.rank, h]), Py.ok_bind, raiseIf_false (by simp [h]), Py.ok_bind]
    have := Tensor.view_nat rho (List.replicate (2 * N) 2) (by simp [Tensor.numel, h]; ring)
    rw [List.map_replicate] at this
    have e : ((2 : ℕ) : ℤ) = 2 := rfl
    rw [e] at this
    rw [this, Py.ok_bind, pyAssert_true (by simp [Tensor.rank]), Py.ok_bind]
  · rw [Tensor.reshapeN_get_eq (idx' := [enc a, enc b])]
    · rw [hrep, inB_append (by simp), inB_bl, inB_bl]; rfl
    · rw [h]; simp [enc_lt]
    · rw [h, hrep, ravel_append (by simp), ← enc_eq_ravel, ← enc_eq_ravel]
      simp [ravel]

/-- C27, error branch: any other shape raises ValueError. -/
theorem C27_density_rejects (rho : Tensor ℂ) (N : ℕ) (h : rho.shape ≠ [2 ^ N, 2 ^ N]) :
    MatrixProductDensityOperator rho N = .error .valueError := by
  unfold MatrixProductDensityOperator
  by_cases hr : rho.rank = 2
  · rw [raiseIf_false (by simpa using hr), Py.ok_bind, raiseIf_true, Py.error_bind]
    by_contra hno
    push Not at hno
    apply h
    unfold Tensor.rank at hr
    match hsh : rho.shape, hr, hno with
    | [a, b], _, hno => simp at hno; simp [hno]
  · rw [raiseIf_true (by simpa using hr), Py.error_bind]

example : (Tensor.ofFn [1, 8] (fun idx => (idx.getD 1 0 : ℂ)) : Tensor ℂ).shape = [1, 2 ^ 3] := rfl
example : (Tensor.eye 8 : Tensor ℂ).shape = [2 ^ 3, 2 ^ 3] := rfl
/-- Qubit 0 is the first index: amplitude 6 of a three-qubit state is at `[1, 1, 0]`. -/
example : bl (![1, 1, 0] : Bits 3) = [1, 1, 0] ∧ enc (![1, 1, 0] : Bits 3) = 6 := by
  constructor
  · rfl
  · simp [enc, Fin.sum_univ_three]
example : (Tensor.eye 8 : Tensor ℂ).shape ≠ [2 ^ 2, 2 ^ 2] := by show [8, 8] ≠ [4, 4]; decide
example : (Tensor.zeros [8] : Tensor ℂ).shape ≠ [1, 2 ^ 3] := by show [8] ≠ [1, 8]; decide

end QTN.Props
