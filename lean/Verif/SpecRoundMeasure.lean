import Verif.SpecRound
import Verif.SpecExp

/-! # Specification: the error of a measured value in floating-point arithmetic -/

namespace QTN.Spec

/-- `P(0) - P(1)` of one qubit in a state. -/
noncomputable def biasZ {N : ℕ} (v : QState N) (i : Fin N) : ℝ :=
  prob (fun a => ‖v a‖ ^ 2) i 0 - prob (fun a => ‖v a‖ ^ 2) i 1

/-- The error of a measured value if the state has the error `d`: that of the probabilities, and that of
their sum, which has `2 ^ N` terms. -/
noncomputable def measErr (u : ℝ) (N : ℕ) (d : ℝ) : ℝ := d * (2 + d) + sumErr u (2 ^ N) * (1 + d) ^ 2

/-- The error of the product of a computed circuit, whose columns have the error `d`, with an arbitrary
state. -/
noncomputable def prodErr (u : ℝ) (N : ℕ) (d : ℝ) : ℝ := Real.sqrt (2 ^ N) * (d + sumErr u (2 ^ N) * (1 + d))

end QTN.Spec
