import Verif.SpecLayer
import Verif.SpecTN

/-! # How many decompositions the matrix-product path makes, and accuracy of states -/

namespace QTN.Spec

open Matrix

/-- Distance of two qubits on the line. -/
def gap {N : ℕ} (p q : Fin N) : ℕ := max (p : ℕ) q - min (p : ℕ) q

/-- Decompositions made by a gate on a matrix product state: a two-qubit gate is carried over its
distance and back one neighbour at a time; Toffoli brings both outer wires next to the middle one. -/
def Instr.decomps {N : ℕ} : Instr N → ℕ
  | .cnot p q | .cz p q | .cphase _ p q | .cu3 _ _ _ p q | .swap p q => 2 * gap p q - 1
  | .toffoli a b t => 2 * (max (a : ℕ) (max (b : ℕ) t) - min (a : ℕ) (min (b : ℕ) t)) - 2
  | _ => 0

/-- Decompositions made by an item on a matrix product state. -/
def Item.decomps {N : ℕ} : Item N → ℕ
  | .gate ins => ins.decomps
  | .ring _ | .ringDag _ => if N = 2 then 1 else 3 * N - 4
  | _ => 0

/-- Euclidean norm of a state. -/
noncomputable def norm2 {N : ℕ} (v : QState N) : ℝ := Real.sqrt (∑ a, ‖v a‖ ^ 2)

/-- Decompositions made when a state vector is converted and the circuit is applied. -/
def svdCount {N : ℕ} (l : List (Item N)) : ℕ := N - 1 + (l.map Item.decomps).sum

/-- The most that the decompositions of one run can discard: every one of them cuts off at most
`2 ^ (N / 2)` singular values, each at most `1e-8`. -/
noncomputable def accuracy {N : ℕ} (l : List (Item N)) : ℝ :=
  svdCount l * (1e-8 * Real.sqrt (2 ^ (N / 2)))

/-- A matrix with at most `2 ^ (N / 2)` singular values. -/
def SmallMat (N : ℕ) (A : Tensor ℂ) : Prop := ∃ m n, A.shape = [m, n] ∧ min m n ≤ 2 ^ (N / 2)

end QTN.Spec
