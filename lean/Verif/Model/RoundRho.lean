import Verif.Model.RoundMeasure

/-!
# `expval` and `measure` of a density matrix in rounded arithmetic

deepquantum/gates/qmath.py:236-239.  Together with `Model/RoundMeasure.lean` this is all of `measure`.
-/

namespace QTN

open Finset

noncomputable section

/-- Routines for `torch.trace` and `torch.abs`.  The numbers may be added in any order and with more digits than they
have; the absolute value of a complex number may be computed in several steps. -/
structure TraceRoutines (A : Arith) where
  sum : ℕ → (ℕ → ℂ) → ℂ
  abs : ℂ → ℝ
  sum_err : ∀ n a, ‖sum n a - ∑ k ∈ range n, a k‖ ≤ ((1 + A.u) ^ n - 1) * ∑ k ∈ range n, ‖a k‖
  abs_err : ∀ z, |abs z - ‖z‖| ≤ ((1 + A.u) ^ 3 - 1) * ‖z‖

namespace Arith

variable (A : Arith) (R : TraceRoutines A)

/-- `torch.trace(m)`; RuntimeError unless the tensor is a matrix. -/
def trace (t : Tensor ℂ) : Py ℂ :=
  match t.shape with
  | [n, m] => .ok (R.sum (min n m) (fun k => t.get [k, k]))
  | _ => .error .runtimeError

/-- qmath.py:236-239 `expval` with `rho=True`; in the comparison of line 237 the number 1e-4 is converted to the type of
the tensor. -/
def expvalRho (state M : Tensor ℂ) : Py ℝ := do
  let tr ← A.trace R state
  raiseIf (R.abs (A.sub tr 1) > A.fl 1e-4) .valueError
  .ok (← A.trace R (← A.matmul state M)).re

/-- qmath.py:242-253 `measure`, both branches of lines 244-247. -/
def measureAny (n : ℤ) (state : Tensor ℂ) (ith : MeasArg) : Py (List ℝ) := do
  let state := state.squeeze
  let rho := decide (state.rank ≠ 1)
  (← A.Zmeasure n ith).mapM (fun Mi => if rho = true then A.expvalRho R state Mi else A.expval state Mi)

end Arith

end

end QTN
