import Verif.SpecLayer
import Verif.SpecTN

/-! # Which sites an operation may touch -/

namespace QTN.Spec

variable {N : ℕ}

/-- The qubits a gate is applied to. -/
def Instr.qubits : Instr N → List (Fin N)
  | .h i | .x i | .y i | .z i | .rx _ i | .ry _ i | .rz _ i | .u1 _ i | .u3 _ _ _ i => [i]
  | .rxx _ p q | .ryy _ p q | .rzz _ p q | .cnot p q | .cz p q | .cphase _ p q | .cu3 _ _ _ p q
  | .swap p q => [p, q]
  | .toffoli a b t => [a, b, t]
  | .mcnot cs t => cs ++ [t]

/-- The qubits an item is applied to. -/
def Item.qubits : Item N → List (Fin N)
  | .gate ins => ins.qubits
  | .layer _ ws _ | .hlayer ws | .ring ws | .ringDag ws | .ring2 ws | .basic ws _ _ => ws

/-- The items that act on each of their qubits separately. -/
def Item.separate : Item N → Prop
  | .layer _ _ _ | .hlayer _ => True
  | _ => False

/-- Qubit `j` lies between the outermost qubits of the item; for an item acting on each qubit
separately, `j` is one of its qubits. -/
def Item.spans (it : Item N) (j : ℕ) : Prop :=
  ∃ p ∈ it.qubits, ∃ q ∈ it.qubits, (p : ℕ) ≤ j ∧ j ≤ q ∧ (it.separate → p = q)

/-- The item acts jointly on qubits before and after the cut between qubits `k - 1` and `k`. -/
def Item.crosses (it : Item N) (k : ℕ) : Prop :=
  ∃ p ∈ it.qubits, ∃ q ∈ it.qubits, (p : ℕ) < k ∧ k ≤ q ∧ ¬ it.separate

/-- `mps` has `N` sites, and the bond to the left of site `i` has dimension `D i`. -/
def HasBonds (N : ℕ) (D : ℕ → ℕ) (mps : List (Tensor ℂ)) : Prop :=
  mps.length = N ∧ D 0 = 1 ∧ D N = 1 ∧ (∀ i, 0 < D i) ∧
    ∀ (i : ℕ) (h : i < mps.length), mps[i].shape = [2, D i, D (i + 1)]

/-- Two lists of site tensors of the same length that agree at all sites outside `S`. -/
def SameOutside (S : ℕ → Prop) (mps mps' : List (Tensor ℂ)) : Prop :=
  mps'.length = mps.length ∧ ∀ j : ℕ, ¬ S j → mps'[j]? = mps[j]?

end QTN.Spec
