import Verif.Model.Info
import Verif.Model.Methods
import Verif.Model.Qnn

/-!
# The demo test_torchscript.py

The circuit `qcir`; the linear layers of `qnet` and the export are reached only after `qcir.forward`.
-/

namespace QTN

noncomputable section

namespace Script

/-- test_torchscript.py:73-89: the operations of the circuit.  Those given to `c1.add` are written as the method that
constructs and adds the same operation. -/
def calls (N : ℕ) (w : List ℝ) : List Method :=
  let ws := pyRange N
  [.PauliX 0, .PauliY 1, .PauliZ 0, .Hadamard (.one 1), .rxx 0.3 [1, 0], .ryy 0.2 [1, 2], .rzz 0.4 [2, 0],
   .SWAP [0, 2], .BasicEntangleLayer ws (slc w (0 * N) (3 * N)) 1, .XYZLayer ws (slc w (6 * N) (9 * N)),
   .ring_of_cnot2 ws, .ZXLayer ws (slc w (9 * N) (11 * N)), .ring_of_cnot ws, .toffoli [2, 1, 0]]

/-- test_torchscript.py:56-95 `build_circuit`: the circuit, the encoded states and the line that is printed.  The
encoding (lines 65-70) is that of test_qnn_demo.py:60-65. -/
def buildCircuit (N : ℕ) (w : List ℝ) (batch : List (List ℝ)) : Py (Circuit × Tensor ℂ × List String) := do
  let phi ← Qnn.encodeBatch N batch
  let c1 ← methods N (calls N w)
  let line ← c1.labels
  .ok (c1, ← phi.permute [1, 0], line)

/-- test_torchscript.py:101-115: `forward` after `build_circuit`. -/
def readOut (N : ℕ) (c1 : Circuit) (phi : Tensor ℂ) : Py (Tensor ℝ) := do
  let M_lst ← Hybrid.Zmeasure N
  let phi_out ← (← c1.U).matmul phi
  let measure_rst ← M_lst.mapM (fun Mi => measureAny (.inr phi_out) Mi)
  let rst ← Tensor.catList Tensor.cat1 (measure_rst.map Tensor.ofList)
  .ok (rst.smul 4)

/-- test_torchscript.py:98-115 `forward`: the printed lines and the result.  (The list `M_lst` is built in `__init__`,
line 43.) -/
def forward (N : ℕ) (w : List ℝ) (batch : List (List ℝ)) : List (List String) × Py (Tensor ℝ) :=
  match buildCircuit N w batch with
  | .error e => ([], .error e)
  | .ok (c1, phi, line) => ([line], readOut N c1 phi)

end Script

end

end QTN
