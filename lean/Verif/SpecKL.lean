import Mathlib.Data.EReal.Operations
import Mathlib.Analysis.SpecialFunctions.Log.Basic

/-!
# Specification of the relative entropy of two distributions
-/

namespace QTN.Spec

open Finset

/-- `p` and `q` on `n` points are probability distributions. -/
def IsDist (n : ℕ) (p : ℕ → ℝ) : Prop := (∀ k < n, 0 ≤ p k) ∧ ∑ k ∈ range n, p k = 1

open Classical in
/-- The relative entropy `Σ p log (p / q)`; infinite where `q` misses a point of `p`. -/
noncomputable def relEntropy (n : ℕ) (p q : ℕ → ℝ) : EReal :=
  if ∃ k < n, p k ≠ 0 ∧ q k = 0 then ⊤
  else ((∑ k ∈ range n, p k * Real.log (p k / q k) : ℝ) : EReal)

end QTN.Spec
