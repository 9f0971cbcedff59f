import Verif.SpecRoundLayers
import Verif.SpecLip

/-! # Specification: gradients in floating-point arithmetic -/

namespace QTN.Spec

/-- The error of an expectation value of an observable of size `B`, if the state has the error `d`: that of the
quadratic form in the state, and that of its evaluation by two products of matrices. -/
noncomputable def expErr (u : ℝ) (N : ℕ) (B d : ℝ) : ℝ :=
  B * (d * (2 + d) + Real.sqrt (2 ^ N) * (sumErr u (2 ^ N) * (2 + sumErr u (2 ^ N))) * (1 + d) ^ 2)

/-- The error of the rounded sum of a number and `d` as an approximation of `y`, if the number has the error `e`
as an approximation of `y - d`. -/
noncomputable def addErr (u y d e : ℝ) : ℝ := (1 + u) * (e + u * |d|) + u * |y|

/-- How far a parameter can be from where it should be while it is shifted to both sides and back. -/
noncomputable def drift (u x : ℝ) : ℝ :=
  addErr u x (Real.pi / 2) (addErr u (x - Real.pi / 2) Real.pi (addErr u (x + Real.pi / 2) (Real.pi / 2) 0))

/-- The same for all parameters of a circuit. -/
noncomputable def driftSum {N : ℕ} (u : ℝ) (l : List (Item N)) : ℝ := ((allParams l).map (drift u)).sum

/-- The error of an expectation value of a circuit with shifted parameters. -/
noncomputable def shiftErr {N : ℕ} (u δ B : ℝ) (l : List (Item N)) : ℝ :=
  expErr u N B (prodErr u N (itemBound u δ l)) + B * driftSum u l

/-- The error of an entry of the gradient: that of the two expectation values, and that of their difference. -/
noncomputable def gradErr {N : ℕ} (u δ B : ℝ) (l : List (Item N)) : ℝ :=
  shiftErr u δ B l + u * (B + shiftErr u δ B l)

/-- The gates that store a single number as their parameter. -/
def Item.single {N : ℕ} : Item N → Bool
  | .gate ins => ins.params.length = 1
  | _ => false

/-- What shifting to both sides and back leaves of a parameter `x`, if `rnd` is the rounding. -/
noncomputable def restored (rnd : ℝ → ℝ) (x : ℝ) : ℝ :=
  rnd (rnd (rnd (x + rnd (Real.pi / 2)) - rnd Real.pi) + rnd (Real.pi / 2))

/-- The parameters of a gate or layer after its gradient has been computed. -/
noncomputable def Item.after {N : ℕ} (rnd : ℝ → ℝ) (it : Item N) : List ℝ :=
  if it.single then it.params else it.params.map (restored rnd)

end QTN.Spec
