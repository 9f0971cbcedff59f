import Verif.Model.Hybrid

/-!
# The circuits of the demos test_qnn_demo.py, test_qnn_demo_free.py, test_qcnn_demo.py and test_born_machine.py

Only the quantum circuits are modelled here (`qcir`, and `qnet` of the Born machine).  The linear layers, losses and
training loops of test_qnn_demo.py and test_qcnn_demo.py are in Model/DemoNet.lean.
-/

namespace QTN

noncomputable section

namespace Circuit

/-- `c.add(ring_of_cnot2(N, wires))`, test_qnn_demo.py:71, 73 (qlayers.py:898-933). -/
def ringOfCnot2 (c : Circuit) (ws : List ℤ) : Py Circuit :=
  c.addBuilt (fun n => do .ok (.ring (← mkRing .ring2 n ws)))

end Circuit

/-- qmath.py:242-253 `measure`, called with an integer or with a tensor as first argument.  For a tensor
`_Zmeasure` (line 211) evaluates `range(n_qubit)`, which raises TypeError: a complex tensor is no index. -/
def measureAny (n : ℤ ⊕ Tensor ℂ) (state : Tensor ℂ) : Py (List ℝ) :=
  match n with
  | .inl n => measure n state .none
  | .inr _ => .error .typeError

namespace Qnn

/-- test_qnn_demo.py:62-65 = test_qnn_demo_free.py:61-64 = test_qcnn_demo.py:61-64: one pass of the loop. -/
def encodeStep (N : ℕ) (batch : List (List ℝ)) (phi : Tensor ℂ) (i : ℕ) : Py (Tensor ℂ) := do
  let e ← mkPauliEnc N (← pyGet batch ((i : ℕ) : ℤ)) (pyRange N) "Y"
  let E ← e.U_expand
  phi.setFirst i (← E.matmul (Circuit.new N).state_init)

/-- test_qnn_demo.py:60-65: the encoded states, one per row. -/
def encodeBatch (N : ℕ) (batch : List (List ℝ)) : Py (Tensor ℂ) :=
  (List.range batch.length).foldlM (encodeStep N batch) (Tensor.zeros [batch.length, 2 ^ N])

/-- test_qnn_demo.py:68-74: the variational circuit. -/
def layers (N : ℕ) (w : List ℝ) : Py Circuit := do
  let ws := pyRange N
  let c1 := Circuit.new N
  let c1 ← c1.basicEntangleLayer ws (slc w (0 * N) (3 * N)) 1
  let c1 ← c1.basicEntangleLayer ws (slc w (3 * N) (6 * N)) 1
  let c1 ← c1.yzyLayer ws (slc w (6 * N) (9 * N))
  let c1 ← c1.ringOfCnot2 ws
  let c1 ← c1.yzyLayer ws (slc w (9 * N) (12 * N))
  let c1 ← c1.ringOfCnot2 ws
  c1.yzyLayer ws (slc w (12 * N) (15 * N))

/-- test_qnn_demo_free.py:67-77. -/
def layersFree (N : ℕ) (w : List ℝ) : Py Circuit := do
  let ws := pyRange N
  let c1 := Circuit.new N
  let c1 ← c1.yzyLayer ws (slc w 0 (3 * N))
  let c1 ← c1.ringOfCnot ws
  let c1 ← c1.yzyLayer ws (slc w (3 * N) (6 * N))
  let c1 ← c1.ringOfCnot ws
  let c1 ← c1.yzyLayer ws (slc w (6 * N) (9 * N))
  let c1 ← c1.ringOfCnot2 ws
  let c1 ← c1.yzyLayer ws (slc w (9 * N) (12 * N))
  let c1 ← c1.ringOfCnot2 ws
  let c1 ← c1.yzyLayer ws (slc w (12 * N) (15 * N))
  let c1 ← c1.ringOfCnot ws
  c1.yzyLayer ws (slc w (15 * N) (18 * N))

/-- test_qcnn_demo.py:67-76. -/
def layersQcnn (N : ℕ) (w : List ℝ) : Py Circuit := do
  let ws := pyRange N
  let c1 := Circuit.new N
  let c1 ← c1.yzyLayer ws (slc w 0 (3 * N))
  let c1 ← c1.ringOfCnot ws
  let c1 ← c1.yzyLayer ws (slc w (3 * N) (6 * N))
  let c1 ← c1.ringOfCnot ws
  let c1 ← c1.yzyLayer ws (slc w (6 * N) (9 * N))
  let c1 ← c1.ringOfCnot2 ws
  let c1 ← c1.yzyLayer ws (slc w (9 * N) (12 * N))
  let c1 ← c1.ringOfCnot2 ws
  let c1 ← c1.basicEntangleLayer ws (slc w (12 * N) (15 * N)) 1
  c1.yzyLayer ws (slc w (15 * N) (18 * N))

/-- test_qnn_demo.py:50-79 `build_circuit` and line 86: the final states, one per column. -/
def evolve (layers : ℕ → List ℝ → Py Circuit) (N : ℕ) (w : List ℝ) (batch : List (List ℝ)) : Py (Tensor ℂ) := do
  let phi ← encodeBatch N batch
  let U ← (← layers N w).U
  U.matmul (← phi.permute [1, 0])

/-- test_qnn_demo.py:91 = test_qcnn_demo.py:92: the expectation values of one observable. -/
def readOut (phi : Tensor ℂ) (Mi : Tensor ℂ) : Py (Tensor ℂ) := do
  let l ← phi.conj.unsqueeze (-2)
  let r ← phi.unsqueeze (-1)
  (← (← l.matmul Mi).matmul r).squeezeDim 2

/-- test_qnn_demo.py:82-99 = test_qcnn_demo.py:82-99 `qcir.forward`. -/
def forward (layers : ℕ → List ℝ → Py Circuit) (N : ℕ) (w : List ℝ) (batch : List (List ℝ)) : Py (Tensor ℝ) := do
  let M_lst ← Hybrid.Zmeasure N
  let phi ← (← evolve layers N w batch).permute [1, 0]
  let measure_rst ← M_lst.mapM (readOut phi)
  let rst ← Tensor.catList Tensor.cat1 measure_rst
  .ok ((rst.smul 4).mapT Complex.re)

/-- test_qnn_demo_free.py:103-108: the mean of the columns. -/
def columnMean (rst : Tensor ℝ) : Tensor ℝ :=
  let m := rst.shape.getD 0 0
  let n := rst.shape.getD 1 0
  Tensor.ofFn [m, 1] (fun idx => (∑ j ∈ Finset.range n, rst.get [idx.getD 0 0, j]) * (1 / n))

/-- test_qnn_demo_free.py:85-110 `qcir.forward`: line 94 calls `measure(phi_out, Mi)`. -/
def forwardFree (N : ℕ) (w : List ℝ) (batch : List (List ℝ)) : Py (Tensor ℝ) := do
  let M_lst ← Hybrid.Zmeasure N
  let phi ← evolve layersFree N w batch
  let measure_rst ← M_lst.mapM (fun Mi => measureAny (.inr phi) Mi)
  let rst ← Tensor.catList Tensor.cat1 (measure_rst.map Tensor.ofList)
  .ok (columnMean (rst.smul 8))

end Qnn

namespace Born

/-- test_born_machine.py:67-69. -/
def layers (N : ℕ) (w : List ℝ) : Py Circuit := do
  let ws := pyRange N
  let c1 := Circuit.new N
  let c1 ← c1.basicEntangleLayer ws (slc w 0 (15 * N)) 5
  c1.yzyLayer ws (slc w (15 * N) (18 * N))

/-- test_born_machine.py:63-97 `qcir.forward`. -/
def state (N : ℕ) (w : List ℝ) : Py (Tensor ℂ) := do
  let c1 ← layers N w
  let psi0 ← c1.state_init.view [-1, 1]
  let sv ← (← c1.U).matmul (← psi0.view [-1, 1])
  sv.view [1, -1]

/-- test_born_machine.py:107-112 `qnet.forward`. -/
def forward (N : ℕ) (w : List ℝ) : Py (Tensor ℝ) := do
  let cir_out ← state N w
  let m := (← cir_out.view [-1]).mapT (fun z => ‖z‖)
  let rst := Tensor.ofFn m.shape (fun idx => m.get idx * m.get idx)
  pyAssert (rst.shape.getD 0 0 = 2 ^ N)
  .ok rst

end Born

end

end QTN
