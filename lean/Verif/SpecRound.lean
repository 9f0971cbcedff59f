import Verif.SpecLayer
import Verif.SpecAccuracy

/-!
# Specification: how much one gate may cost in floating-point arithmetic

`u` is the relative error of one rounded real operation, `δ` the absolute error of the routines for cosine
and sine.
-/

namespace QTN.Spec

/-- Relative error of a complex product. -/
noncomputable def mulErr (u : ℝ) : ℝ := Real.sqrt 2 * ((1 + u) ^ 2 - 1)

/-- Error of a sum of products with at most `r` terms that are not zero, relative to the sum of the
absolute values. -/
noncomputable def sumErr (u : ℝ) (r : ℕ) : ℝ := (1 + u) ^ r * (1 + mulErr u) - 1

/-- Error of the matrix of a gate before it is multiplied with anything. -/
noncomputable def Instr.eps {N : ℕ} (u δ : ℝ) : Instr N → ℝ
  | .h _ => 2 * u
  | .rx _ _ | .ry _ _ | .rz _ _ | .rxx _ _ _ | .ryy _ _ _ | .rzz _ _ _ | .cphase _ _ _ => 3 * δ
  | .u1 _ _ => 2 * ((1 + mulErr u) * (1 + 2 * δ) ^ 2 - 1)
  | .u3 _ _ _ _ | .cu3 _ _ _ _ _ => (1 + 3 * δ) ^ 3 * (1 + 3 * (δ + u)) ^ 2 * (1 + 2 * sumErr u 2) ^ 4 - 1
  | _ => 0

/-- The gates whose matrix has one entry 1, -1, i or -i in every row. -/
def Instr.exact {N : ℕ} : Instr N → Bool
  | .x _ | .y _ | .z _ | .cnot _ _ | .cz _ _ | .swap _ _ | .toffoli _ _ _ | .mcnot _ _ => true
  | _ => false

/-- What one gate adds to the error of every column of the unitary matrix of a circuit. -/
noncomputable def Instr.cost {N : ℕ} (u δ : ℝ) (ins : Instr N) : ℝ :=
  if ins.exact = true then 0 else ins.eps u δ + sumErr u 2 * (Real.sqrt 2 + ins.eps u δ)

/-- The angles of a gate. -/
def Instr.angles {N : ℕ} : Instr N → List ℝ
  | .rx θ _ | .ry θ _ | .rz θ _ | .u1 θ _ | .rxx θ _ _ | .ryy θ _ _ | .rzz θ _ _ | .cphase θ _ _ => [θ]
  | .u3 θ φ l _ | .cu3 θ φ l _ _ => [θ, φ, l]
  | _ => []

/-- The same gate with other angles. -/
def Instr.mapAngles {N : ℕ} (f : ℝ → ℝ) : Instr N → Instr N
  | .rx θ i => .rx (f θ) i
  | .ry θ i => .ry (f θ) i
  | .rz θ i => .rz (f θ) i
  | .u1 θ i => .u1 (f θ) i
  | .u3 θ φ l i => .u3 (f θ) (f φ) (f l) i
  | .rxx θ p q => .rxx (f θ) p q
  | .ryy θ p q => .ryy (f θ) p q
  | .rzz θ p q => .rzz (f θ) p q
  | .cphase θ c t => .cphase (f θ) c t
  | .cu3 θ φ l c t => .cu3 (f θ) (f φ) (f l) c t
  | ins => ins

/-- The sum of the absolute values of all angles of a circuit. -/
noncomputable def angleSum {N : ℕ} (l : List (Instr N)) : ℝ := (l.map (fun ins => (ins.angles.map abs).sum)).sum

/-- The operator of a list of gates, first gate first. -/
noncomputable def gateSeqOp {N : ℕ} (l : List (Instr N)) : QOp N := timeOrdered (l.map Instr.op)

/-- The column of an operator for one basis state. -/
def column {N : ℕ} (M : QOp N) (b : Bits N) : QState N := fun a => M a b

/-- The bound on the error of a circuit: the errors of the gates accumulate like compound interest. -/
noncomputable def roundBound {N : ℕ} (u δ : ℝ) (l : List (Instr N)) : ℝ :=
  (l.map (fun ins => 1 + ins.cost u δ)).prod - 1

end QTN.Spec
