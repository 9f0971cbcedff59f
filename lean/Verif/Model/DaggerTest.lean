import Verif.Model.Methods

/-!
# The test of `operation_dagger` (deepquantum/tests/test_operation_dagger.py)

Two blocks build the same two circuits.  The first, switched off by `if 0`, prints the diagonals of
`U_dagger @ U`; the second applies every operation and its dagger to a matrix product state and prints the overlap
with the initial state.  The random draws are arguments; the separator lines that are printed are left out.
-/

namespace QTN

noncomputable section

namespace DaggerTest

/-- test_operation_dagger.py:37-43 and 84-90: the methods called on `c1`, for `N` qubits. -/
def calls1 (N : ℕ) (p1 p2 : List ℝ) : List Method :=
  let wires := pyRange N
  [.ring_of_cnot wires, .XYZLayer wires p1, .YZYLayer wires p1, .XZXLayer wires p1, .ZXLayer wires p2,
   .XZLayer wires p2, .Hadamard (.many wires)]

/-- test_operation_dagger.py:51-66 and 101-116: the methods called on `c2`. -/
def calls2 (N : ℕ) : List Method :=
  [.Hadamard (.one 1), .PauliX 0, .PauliY 1, .PauliZ ((N : ℤ) - 1), .rx 0.236 0, .ry 6.263 1, .rz 1.259 ((N : ℤ) - 1),
   .u1 0.98 1, .u3 [0.54, 2.14, 0.95] 0, .rxx 0.48 [0, 1], .ryy 5.48 [0, 1], .ryy 2.50 [0, 1], .cnot [1, 0],
   .cz [(N : ℤ) - 1, 0], .cphase 0.52 [0, 1], .cu3 [0.21, 0.84, 2.1] [1, 0]]

/-- An attribute of what `operation_dagger()` returns; None has none of those used. -/
def daggerOf (o : Op) : Py Op := do
  match ← o.operation_dagger with
  | some d => .ok d
  | none => .error .attributeError

/-- `t.diag()` of a matrix. -/
def diag (t : Tensor ℂ) : Py (Tensor ℂ) :=
  match t.shape with
  | [m, n] => .ok (Tensor.ofFn [min m n] (fun idx => t.get [idx.getD 0 0, idx.getD 0 0]))
  | _ => .error .runtimeError

/-- test_operation_dagger.py:45-46 = 68-69: what the loop prints for one operation. -/
def diagLine (each : Op) : Py (Tensor ℂ) := do
  let d ← daggerOf each
  let temp ← (← d.U_expand).matmul (← each.U_expand)
  diag temp

/-- test_operation_dagger.py:31-69, the first block: the diagonals printed for `c1` and `c2`, and in between
the parameters of `c1.gate[1]` and of its dagger. -/
def block1 (N : ℕ) (p1 p2 : List ℝ) : Py (List (Tensor ℂ) × PV × PV × List (Tensor ℂ)) := do
  let c1 ← methods N (calls1 N p1 p2)
  let out1 ← c1.gate.mapM diagLine
  let g ← pyGet c1.gate 1
  let d ← daggerOf g
  let c2 ← methods N (calls2 N)
  let out2 ← c2.gate.mapM diagLine
  .ok (out1, g.params, d.params, out2)

/-- test_operation_dagger.py:92-95 = 119-122: one round of the loop, the new sites and the number printed. -/
def step (svd : SVDOracle) (psi : Tensor ℂ) (each : Op) (mps : List (Tensor ℂ)) : TNM (List (Tensor ℂ) × ℂ) := do
  let mps ← each.TN_operation svd mps
  let d ← (daggerOf each : Py _)
  let mps ← d.TN_operation svd mps
  let psif ← (MPS2StateVec mps : Py _)
  let col ← (psi.view [-1, 1] : Py _)
  let temp ← (psif.conj.matmul col : Py _)
  pure (mps, temp.squeeze.get [])

/-- test_operation_dagger.py:91-96 (`guard = false`) and 117-123 (`guard = true`): the loop over the operations.
The lines printed so far remain when a round raises. -/
def loop (svd : SVDOracle) (psi : Tensor ℂ) (guard : Bool) :
    List Op → ℕ → List (Tensor ℂ) → List (Tensor ℂ) → List (ℕ × ℂ) × Py (List (Tensor ℂ)) × List (Tensor ℂ)
  | [], _, mps, s => ([], .ok mps, s)
  | each :: os, idx, mps, s =>
    if guard ∧ each.supportTN = false then loop svd psi guard os (idx + 1) mps s
    else match step svd psi each mps s with
      | (.error e, s) => ([], .error e, s)
      | (.ok (mps, temp), s) =>
        let r := loop svd psi guard os (idx + 1) mps s
        ((idx, temp) :: r.1, r.2)

/-- test_operation_dagger.py:76-123, the second block: the lines printed and how the block ends. -/
def block2 (svd : SVDOracle) (N : ℕ) (p1 p2 : List ℝ) (psi : Tensor ℂ) (s : List (Tensor ℂ)) :
    List (ℕ × ℂ) × Py Unit :=
  match StateVec2MPS svd psi N s with
  | (.error e, _) => ([], .error e)
  | (.ok mps, s) =>
    match methods N (calls1 N p1 p2) with
    | .error e => ([], .error e)
    | .ok c1 =>
      match loop svd psi false c1.gate 0 mps s with
      | (out1, .error e, _) => (out1, .error e)
      | (out1, .ok mps, s) =>
        match methods N (calls2 N) with
        | .error e => (out1, .error e)
        | .ok c2 =>
          match loop svd psi true c2.gate 0 mps s with
          | (out2, .error e, _) => (out1 ++ out2, .error e)
          | (out2, .ok _, _) => (out1 ++ out2, .ok ())

end DaggerTest

end

end QTN
