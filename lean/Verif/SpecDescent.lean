import Verif.SpecGrad
import Mathlib.Analysis.Calculus.Deriv.Basic

/-! # Specification: gradient descent -/

namespace QTN.Spec

open Finset

/-- The circuit with the parameters `p`. -/
def setParams {N : ℕ} : List (Item N) → List ℝ → List (Item N)
  | [], _ => []
  | it :: l, p => it.withParams (p.take it.params.length) :: setParams l (p.drop it.params.length)

/-- The sum of the squared partial derivatives of an expectation value. -/
noncomputable def slope {N : ℕ} (O : QOp N) (v : QState N) (l : List (Item N)) : ℝ :=
  ∑ j ∈ range (allParams l).length, deriv (fun x => energy O v (setParam l j x)) ((allParams l).getD j 0) ^ 2

/-- How far the rounded step is off, divided by the learning rate: the error `e` of the derivative, the rounding of the
product with the learning rate, and the rounding of the difference for parameters up to `X`. -/
noncomputable def stepErr (u lr B X e : ℝ) : ℝ := e + ((1 + u) ^ 3 - 1) * (B + e) + u * X / lr

end QTN.Spec
