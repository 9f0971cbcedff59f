import Verif.SpecSpan

/-! # How much an operation may enlarge a bond of a matrix product state -/

namespace QTN.Spec

variable {N : ℕ}

/-- A two-qubit gate between qubits `lo < hi` is carried to neighbouring sites and back by exchanges of
neighbours: two exchanges, each at most a factor 4, across the bonds strictly between `lo` and `hi`; the gate
itself, a sum of `r` products, across the bond to the left of `hi`. -/
def pairGrowth (r lo hi k : ℕ) : ℕ :=
  if lo < k ∧ k < hi then 16 else if k = hi then r else 1

/-- The bound of a gate for the bond to the left of qubit `k`. -/
def Instr.growth : Instr N → ℕ → ℕ
  | .cnot p q | .cz p q | .cphase _ p q | .cu3 _ _ _ p q => pairGrowth 2 (min (p : ℕ) q) (max (p : ℕ) q)
  | .swap p q => pairGrowth 4 (min (p : ℕ) q) (max (p : ℕ) q)
  | .toffoli a b t => fun k =>
    let lo := min (min (a : ℕ) b) t
    let hi := max (max (a : ℕ) b) t
    let mid := (a : ℕ) + b + t - lo - hi
    if k = mid ∨ k = mid + 1 then 2 else if lo < k ∧ k ≤ hi then 16 else 1
  | _ => fun _ => 1

/-- The bound of an item for the bond to the left of qubit `k`: a ring of CNOTs applies one CNOT across each
bond and carries the last CNOT around. -/
def Item.growth : Item N → ℕ → ℕ
  | .gate ins => ins.growth
  | .ring _ | .ringDag _ => fun k =>
    if 0 < k ∧ k < N then (if N = 2 then 2 else if k = N - 1 then 4 else 32) else 1
  | _ => fun _ => 1

end QTN.Spec
