import Verif.Spec

/-!
# Specification of the gate set

Every gate of the library applied to qubits of an `N`-qubit register, with its textbook operator.
-/

namespace QTN.Spec

open Matrix

/-- A gate with its parameters and wires. -/
inductive Instr (N : ℕ)
  | h (i : Fin N) | x (i : Fin N) | y (i : Fin N) | z (i : Fin N)
  | rx (θ : ℝ) (i : Fin N) | ry (θ : ℝ) (i : Fin N) | rz (θ : ℝ) (i : Fin N)
  | u1 (θ : ℝ) (i : Fin N) | u3 (θ φ l : ℝ) (i : Fin N)
  | rxx (θ : ℝ) (p q : Fin N) | ryy (θ : ℝ) (p q : Fin N) | rzz (θ : ℝ) (p q : Fin N)
  | cnot (c t : Fin N) | cz (c t : Fin N) | cphase (θ : ℝ) (c t : Fin N)
  | cu3 (θ φ l : ℝ) (c t : Fin N)
  | swap (p q : Fin N) | toffoli (a b t : Fin N) | mcnot (cs : List (Fin N)) (t : Fin N)

/-- The wires of a multi-qubit gate are distinct, and a multi-controlled NOT has a control. -/
def Instr.WF {N : ℕ} : Instr N → Prop
  | .rxx _ p q | .ryy _ p q | .rzz _ p q | .cnot p q | .cz p q | .cphase _ p q | .cu3 _ _ _ p q
  | .swap p q => p ≠ q
  | .toffoli a b t => a ≠ b ∧ a ≠ t ∧ b ≠ t
  | .mcnot cs t => cs ≠ [] ∧ t ∉ cs
  | _ => True

/-- The textbook operator of a gate. -/
noncomputable def Instr.op {N : ℕ} : Instr N → QOp N
  | .h i => onQubit i H
  | .x i => onQubit i X
  | .y i => onQubit i Y
  | .z i => onQubit i Z
  | .rx θ i => onQubit i (rot X θ)
  | .ry θ i => onQubit i (rot Y θ)
  | .rz θ i => onQubit i (rot Z θ)
  | .u1 θ i => onQubit i (phase θ)
  | .u3 θ φ l i => onQubit i (U3 θ φ l)
  | .rxx θ p q => rot2 X θ p q
  | .ryy θ p q => rot2 Y θ p q
  | .rzz θ p q => rot2 Z θ p q
  | .cnot c t => controlled [c] t X
  | .cz c t => controlled [c] t Z
  | .cphase θ c t => controlled [c] t (phase θ)
  | .cu3 θ φ l c t => controlled [c] t (U3 θ φ l)
  | .swap p q => Spec.swap p q
  | .toffoli a b t => controlled [a, b] t X
  | .mcnot cs t => controlled cs t X

end QTN.Spec
