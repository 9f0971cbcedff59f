import Verif.Model.Methods
import Verif.Model.Train

/-!
# The tests of the tensor-network evolution (deepquantum/tests/test_TN.py)

The three blocks that run (`if 1`).  The random draws are arguments, the timing is left out, and a block returns the
tensors that it prints.
-/

namespace QTN

noncomputable section

namespace TnTest

/-- test_TN.py:242 = 318 (and 103, commented out): `(c.U() @ psi.view(-1,1)).view(1,-1)`. -/
def byMatrix (c : Circuit) (psi : Tensor ℂ) : Py (Tensor ℂ) := do
  let t ← (← c.U).matmul (← psi.view [-1, 1])
  t.view [1, -1]

/-- test_TN.py:96-98, and 244-246, where a `view(1,-1)` follows that changes nothing. -/
def bySites (svd : SVDOracle) (N : ℕ) (c : Circuit) (psi : Tensor ℂ) : TNM (Tensor ℂ) := do
  let mps ← StateVec2MPS svd psi N
  let mps ← c.TN_evolution svd mps
  TNM.lift (MPS2StateVec mps)

/-- test_TN.py:107-108 = 248 = 265: the state as a tensor with one index per qubit. -/
def asTensor (svd : SVDOracle) (N : ℕ) (psi : Tensor ℂ) : TNM (Tensor ℂ) := do
  let mps ← StateVec2MPS svd psi N
  TNM.lift (MPS2StateVec_tensor mps)

/-- test_TN.py:107-110 = 248-250. -/
def byContraction (svd : SVDOracle) (N : ℕ) (c : Circuit) (psi : Tensor ℂ) : TNM (Tensor ℂ) := do
  let T ← asTensor svd N psi
  let T ← (c.TN_contract_evolution T false : Py _)
  TNM.lift (T.view [1, -1])

/-- test_TN.py:255, 322, 324: `torch.abs(a - b) < 1e-6` at one index, for tensors of the same shape. -/
def close (a b : Tensor ℂ) (idx : List ℕ) : Prop := ‖(a.subT b).get idx‖ < 1e-6

/-! ## Evolution of 14 qubits -/

/-- test_TN.py:66-80: the methods called on `c1`, for `N` qubits. -/
def calls1 (N : ℕ) (weight : List ℝ) : List Method :=
  let wires := pyRange N
  [.YZYLayer wires (slc weight 0 (3 * N)), .ring_of_cnot wires, .YZYLayer wires (slc weight (3 * N) (6 * N)),
   .ring_of_cnot wires, .YZYLayer wires (slc weight (6 * N) (9 * N)), .ring_of_cnot wires,
   .YZYLayer wires (slc weight (9 * N) (12 * N)), .ring_of_cnot wires,
   .YZYLayer wires (slc weight (12 * N) (15 * N)), .ring_of_cnot wires,
   .YZYLayer wires (slc weight (15 * N) (18 * N)), .ring_of_cnot wires,
   .YZYLayer wires (slc weight (18 * N) (21 * N))]

/-- test_TN.py:82-84: the methods called on `c2`. -/
def calls2 (N : ℕ) (weight : List ℝ) : List Method :=
  let wires := pyRange N
  [.BasicEntangleLayer wires (slc weight 0 (18 * N)) 6, .YZYLayer wires (slc weight (18 * N) (21 * N))]

/-- test_TN.py:62-116: the states printed as TN1 and TN2. -/
def block1 (svd : SVDOracle) (N : ℕ) (weight : List ℝ) (psi : Tensor ℂ) : TNM (Tensor ℂ × Tensor ℂ) := do
  let c1 ← (methods N (calls1 N weight) : Py _)
  let _ ← (methods N (calls2 N weight) : Py _)
  let psi_f0 ← bySites svd N c1 psi
  let psi_f2 ← byContraction svd N c1 psi
  pure (psi_f0, psi_f2)

/-! ## All gates and layers -/

/-- test_TN.py:171-188: the methods called on the first `c1`, of 8 qubits, which is built and not used. -/
def calls3 (N : ℕ) : List Method :=
  (pyRange N).map (fun i => .Hadamard (.one i)) ++
  [.PauliX 3, .PauliY 5, .PauliZ 7, .rx 0.5 0, .cz [2, 1], .ry 0.1 6, .toffoli [4, 2, 7], .rz 0.8 4, .cnot [0, 1],
   .toffoli [1, 5, 7], .SWAP [3, (N : ℤ) - 1], .cnot [(N : ℤ) - 1, 0], .cnot [4, 6], .cnot [7, 2], .toffoli [0, 1, 2]]

/-- test_TN.py:203-241: the methods called on the second `c1`. -/
def calls4 (N : ℕ) : List Method :=
  (pyRange N).map (fun i => .Hadamard (.one i)) ++
  [.PauliX 0, .PauliY 1, .cphase 1.2 [2, 0], .PauliZ 2, .rx 0.5 0, .cz [2, 1], .ry 0.1 2, .SWAP [1, 2],
   .cu3 [0.18, 0.54, 1.5] [0, 1], .toffoli [1, 2, 0], .rz 0.8 1, .cnot [0, 1], .u1 0.1 1,
   .cu3 [0.18, 0.54, 1.5] [2, 0], .cz [0, 2], .toffoli [1, 0, 2], .cnot [2, 0], .u1 0.381 2, .cnot [1, 2],
   .cphase 0.49 [0, 1], .u3 [0.188, 0, 3.1] 0, .cnot [0, 2], .toffoli [0, 2, 1], .ring_of_cnot (pyRange N),
   .YZYLayer [0] [0.1, 0.2, 0.1], .XZXLayer [1] [0.1, 0.2, 0.1], .XYZLayer [2] [0.1, 0.2, 0.1],
   .ZYXLayer [0, (N : ℤ) - 1] [0.21, 0.45, 0.98, 1, 2, 7], .cz [2, 0], .u1 0.5 2, .SWAP [0, 1], .cphase 1.2 [1, 0],
   .SWAP [0, 2], .cz [0, 1], .cnot [2, 0], .SWAP [(N : ℤ) - 1, 1]]

/-- test_TN.py:164-253: the three states that are printed; `N1` is the first value of `N`, `N` the second, and `psi`
the second draw. -/
def block2 (svd : SVDOracle) (N1 N : ℕ) (psi : Tensor ℂ) : TNM (Tensor ℂ × Tensor ℂ × Tensor ℂ) := do
  let _ ← (methods N1 (calls3 N1) : Py _)
  let c1 ← (methods N (calls4 N) : Py _)
  let psif0 ← (byMatrix c1 psi : Py _)
  let psif1 ← bySites svd N c1 psi
  let psif1 ← (psif1.view [1, -1] : Py _)
  let psif2 ← byContraction svd N c1 psi
  pure (psif0, psif1, psif2)

/-! ## Batches -/

/-- `torch.cat((a, b), dim=0)` -/
def catFirst (a b : Tensor ℂ) : Py (Tensor ℂ) :=
  match a.shape, b.shape with
  | m :: ds, m' :: ds' =>
    if ds = ds' then .ok (Tensor.ofFn ((m + m') :: ds) (fun idx =>
      match idx with
      | i :: is => if i < m then a.get (i :: is) else b.get ((i - m) :: is)
      | [] => 0))
    else .error .runtimeError
  | _, _ => .error .runtimeError

/-- test_TN.py:269-311: the methods called on `c1`. -/
def calls5 (N : ℕ) (p1 p2 : List ℝ) : List Method :=
  let wires := pyRange N
  wires.map (fun i => .Hadamard (.one i)) ++
  [.PauliX 0, .PauliY 1, .PauliZ 2, .u1 0.09 1, .u1 0.12 0, .rx 0.124 2, .ry 5.048 1, .rz 1.523 3,
   .ring_of_cnot wires, .u3 [0.128, 0.00, 3.1] 0, .u3 [0.972, 0.54, 2.1] 3, .rxx 0.65 [0, 1], .ryy 0.15 [0, 2],
   .rzz 3.02 [3, 1], .cnot [0, 1], .cnot [1, 2], .cnot [2, 3], .cnot [(N : ℤ) - 1, 0], .cnot [3, 1], .cz [0, 3],
   .cz [3, 1], .cz [0, 1], .cphase 1.2 [2, 0], .SWAP [0, 2], .SWAP [1, 3], .cu3 [0.128, 0.00, 3.1] [3, 1],
   .cu3 [2.128, 0.10, 0.1] [2, 3], .toffoli [1, 0, 2], .toffoli [3, 2, 0], .ZXLayer wires p2, .ring_of_cnot wires,
   .XZLayer wires p2, .ring_of_cnot wires, .YZYLayer wires p1, .ring_of_cnot wires, .XYZLayer wires p1,
   .ring_of_cnot wires, .XZXLayer wires p1, .ZYXLayer wires p1]

/-- test_TN.py:260-324: `psif0`, `psif1` and `psif2`; the states are printed, and the comparisons of `psif0` with
`psif1` and with `psif2[0]`. -/
def block3 (svd : SVDOracle) (N batch_size : ℕ) (p1 p2 : List ℝ) (psi : Tensor ℂ) :
    TNM (Tensor ℂ × Tensor ℂ × Tensor ℂ) := do
  let T ← asTensor svd N psi
  let B ← (T.unsqueeze 0 : Py _)
  let B ← (Tensor.catList catFirst (List.replicate batch_size B) : Py _)
  let c1 ← (methods N (calls5 N p1 p2) : Py _)
  let T ← (c1.TN_contract_evolution T false : Py _)
  let B ← (c1.TN_contract_evolution B true : Py _)
  let psif1 ← (T.view [1, -1] : Py _)
  let psif2 ← (B.view [(batch_size : ℤ), 1, -1] : Py _)
  let psif0 ← (byMatrix c1 psi : Py _)
  pure (psif0, psif1, psif2)

end TnTest

end

end QTN
