import Verif.SpecExp
import Mathlib.Analysis.Calculus.Deriv.Basic

/-! # Specification vocabulary for gradients -/

namespace QTN.Spec

open Matrix

/-- The parameters of a gate. -/
def Instr.params {N : ℕ} : Instr N → List ℝ
  | .rx θ _ | .ry θ _ | .rz θ _ | .u1 θ _ | .rxx θ _ _ | .ryy θ _ _ | .rzz θ _ _ | .cphase θ _ _ => [θ]
  | .u3 θ φ l _ | .cu3 θ φ l _ _ => [θ, φ, l]
  | _ => []

/-- The same gate with other parameters. -/
def Instr.withParams {N : ℕ} : Instr N → List ℝ → Instr N
  | .rx _ i, [a] => .rx a i
  | .ry _ i, [a] => .ry a i
  | .rz _ i, [a] => .rz a i
  | .u1 _ i, [a] => .u1 a i
  | .rxx _ p q, [a] => .rxx a p q
  | .ryy _ p q, [a] => .ryy a p q
  | .rzz _ p q, [a] => .rzz a p q
  | .cphase _ c t, [a] => .cphase a c t
  | .u3 _ _ _ i, [a, b, c'] => .u3 a b c' i
  | .cu3 _ _ _ c t, [a, b, c'] => .cu3 a b c' c t
  | ins, _ => ins

/-- The parameters of a gate or layer. -/
def Item.params {N : ℕ} : Item N → List ℝ
  | .gate ins => ins.params
  | .layer _ _ p => p
  | .basic _ p _ => p
  | _ => []

/-- The same gate or layer with other parameters. -/
def Item.withParams {N : ℕ} : Item N → List ℝ → Item N
  | .gate ins, p => .gate (ins.withParams p)
  | .layer k ws _, p => .layer k ws p
  | .basic ws _ reps, p => .basic ws p reps
  | it, _ => it

/-- All parameters of a circuit: gate by gate, then by position. -/
def allParams {N : ℕ} (l : List (Item N)) : List ℝ := l.flatMap Item.params

/-- The circuit with its `j`-th parameter replaced by `x`. -/
def setParam {N : ℕ} : List (Item N) → ℕ → ℝ → List (Item N)
  | [], _, _ => []
  | it :: rest, j, x =>
    if j < it.params.length then it.withParams (it.params.set j x) :: rest
    else it :: setParam rest (j - it.params.length) x

/-- The gate or layer the `j`-th parameter belongs to. -/
def ownerOf {N : ℕ} : List (Item N) → ℕ → Option (Item N)
  | [], _ => none
  | it :: rest, j => if j < it.params.length then some it else ownerOf rest (j - it.params.length)

/-- The expectation value `Re ⟨ψ| O |ψ⟩` in the state `ψ` a circuit makes of `v`. -/
noncomputable def energy {N : ℕ} (O : QOp N) (v : QState N) (l : List (Item N)) : ℝ :=
  (braket O (circuitOp l *ᵥ v)).re

/-- `g` is the partial derivative of the expectation value of the circuit with respect to its `j`-th
parameter. -/
def IsPartial {N : ℕ} (O : QOp N) (v : QState N) (l : List (Item N)) (j : ℕ) (g : ℝ) : Prop :=
  HasDerivAt (fun x => energy O v (setParam l j x)) g ((allParams l).getD j 0)

end QTN.Spec
