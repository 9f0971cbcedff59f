import Verif.SpecInstr
import Verif.Model.QOperator

/-! # Constructor calls for the specified gates -/

namespace QTN

open Spec

/-- The wire number of a qubit. -/
abbrev wire {N : ℕ} (i : Fin N) : ℤ := ((i : ℕ) : ℤ)

/-- The constructor call a user writes for a gate on `N` qubits, e.g. `rx(θ, N, i)`. -/
noncomputable def build {N : ℕ} : Instr N → Py Gate
  | .h i => .ok (mkHadamard N (.int (wire i)))
  | .x i => .ok (mkPauliX N (.int (wire i)))
  | .y i => .ok (mkPauliY N (.int (wire i)))
  | .z i => .ok (mkPauliZ N (.int (wire i)))
  | .rx θ i => .ok (mkRx θ N (.int (wire i)))
  | .ry θ i => .ok (mkRy θ N (.int (wire i)))
  | .rz θ i => .ok (mkRz θ N (.int (wire i)))
  | .u1 θ i => .ok (mkU1 θ N (.int (wire i)))
  | .u3 θ φ l i => mkU3 [θ, φ, l] N (.int (wire i))
  | .rxx θ p q => .ok (mkRxx θ N (.list [wire p, wire q]))
  | .ryy θ p q => .ok (mkRyy θ N (.list [wire p, wire q]))
  | .rzz θ p q => .ok (mkRzz θ N (.list [wire p, wire q]))
  | .cnot c t => .ok (mkCnot N (.list [wire c, wire t]))
  | .cz c t => .ok (mkCz N (.list [wire c, wire t]))
  | .cphase θ c t => .ok (mkCphase θ N (.list [wire c, wire t]))
  | .cu3 θ φ l c t => mkCu3 [θ, φ, l] N (.list [wire c, wire t])
  | .swap p q => .ok (mkSwap N (.list [wire p, wire q]))
  | .toffoli a b t => mkToffoli N (.list [wire a, wire b, wire t])
  | .mcnot cs t => mkMcnot N (.list (cs.map wire ++ [wire t]))

end QTN
