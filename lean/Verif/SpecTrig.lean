import Mathlib.Analysis.SpecialFunctions.Trigonometric.Basic
import Mathlib.Algebra.BigOperators.Group.Finset.Basic

/-! # Specification vocabulary: trigonometric polynomials -/

namespace QTN.Spec

open Finset

/-- `f` is a trigonometric polynomial of degree at most `d`: a linear combination of `cos (k x)` and `sin (k x)`
for `k ≤ d`. -/
def IsTrigPoly (d : ℕ) (f : ℝ → ℝ) : Prop :=
  ∃ a b : ℕ → ℝ, ∀ x, f x = ∑ k ∈ range (d + 1), (a k * Real.cos (k * x) + b k * Real.sin (k * x))

/-- The number of qubits among `N` that get the number at position `m` when `n` numbers are dealt out in turn. -/
def copies (N n m : ℕ) : ℕ := ((range N).filter (fun j => j % n = m)).card

end QTN.Spec
