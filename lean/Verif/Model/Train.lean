import Verif.Model.Embedding
import Verif.Model.QCircuit
import Verif.Model.Measure

/-!
# The training programs deepquantum/tests/test_TN_train2.py

The class `qcir` of this file evaluates one variational model in four ways.  Only the evaluation is
modelled; the optimiser, the plots and the conversion to TorchScript are not.  `weight` is a list of
numbers and a batch is the list of its rows.
-/

namespace QTN

noncomputable section

/-- `l[a:b]` for natural numbers -/
def slc (l : List ℝ) (a b : ℕ) : List ℝ := (l.take b).drop a

namespace Tensor
variable {α : Type} [Zero α]

/-- `torch.cat((a, b), dim=0)` for tensors of any positive rank. -/
def catFirst (a b : Tensor α) : Py (Tensor α) :=
  match a.shape, b.shape with
  | m :: s, m' :: s' =>
    if s = s' then .ok (ofFn ((m + m') :: s) (fun idx =>
      if idx.getD 0 0 < m then a.get idx else b.get ((idx.getD 0 0 - m) :: idx.tail)))
    else .error .runtimeError
  | _, _ => .error .runtimeError

/-- `t[i] = r` for `0 ≤ i` and `r` of the shape of `t[i]` (other shapes raise here; broadcasting is
not used by the modelled code). -/
def setFirst (t : Tensor α) (i : ℕ) (r : Tensor α) : Py (Tensor α) :=
  match t.shape with
  | m :: s =>
    if i < m then
      if r.shape = s then .ok (ofFn t.shape (fun idx =>
        if idx.getD 0 0 = i then r.get idx.tail else t.get idx))
      else .error .runtimeError
    else .error .indexError
  | [] => .error .indexError

end Tensor

namespace Circuit

/-- qcircuit.py:235-236 `Circuit.YZYLayer`. -/
def yzyLayer (c : Circuit) (ws : List ℤ) (p : List ℝ) : Py Circuit :=
  c.addBuilt (fun n => do .ok (.single (← mkSLayer .yzy n ws p)))

/-- qcircuit.py:247-248 `Circuit.ring_of_cnot`. -/
def ringOfCnot (c : Circuit) (ws : List ℤ) : Py Circuit :=
  c.addBuilt (fun n => do .ok (.ring (← mkRing .ring n ws)))

/-- qcircuit.py:253-254 `Circuit.BasicEntangleLayer` with a tensor of parameters. -/
def basicEntangleLayer (c : Circuit) (ws : List ℤ) (p : List ℝ) (reps : ℤ) : Py Circuit :=
  c.addBuilt (fun n => do .ok (.basic (← mkBasic n ws p false reps)))

end Circuit

namespace Train2

/-- test_TN_train2.py:78-91 = 125-138 = 205-218: the variational circuit, call by call. -/
def layers (N : ℕ) (w : List ℝ) : Py Circuit := do
  let ws := pyRange N
  let c1 := Circuit.new N
  let c1 ← c1.yzyLayer ws (slc w 0 (3 * N))
  let c1 ← c1.ringOfCnot ws
  let c1 ← c1.yzyLayer ws (slc w (3 * N) (6 * N))
  let c1 ← c1.ringOfCnot ws
  let c1 ← c1.yzyLayer ws (slc w (6 * N) (9 * N))
  let c1 ← c1.ringOfCnot ws
  let c1 ← c1.yzyLayer ws (slc w (9 * N) (12 * N))
  let c1 ← c1.ringOfCnot ws
  let c1 ← c1.yzyLayer ws (slc w (12 * N) (15 * N))
  let c1 ← c1.ringOfCnot ws
  let c1 ← c1.yzyLayer ws (slc w (15 * N) (18 * N))
  let c1 ← c1.ringOfCnot ws
  c1.yzyLayer ws (slc w (18 * N) (21 * N))

/-- test_TN_train2.py:164-166: the variational circuit of `forward1`. -/
def layers1 (N : ℕ) (w : List ℝ) : Py Circuit := do
  let ws := pyRange N
  let c1 := Circuit.new N
  let c1 ← c1.basicEntangleLayer ws (slc w 0 (18 * N)) 6
  c1.yzyLayer ws (slc w (18 * N) (21 * N))

/-- test_TN_train2.py:66-67 = 115-116 = 156-157 = 191-192: `Circuit(N).state_init().view(1,-1)`. -/
def psi0 (N : ℕ) : Py (Tensor ℂ) := (Circuit.new N).state_init.view [1, -1]

/-- test_TN_train2.py:74 = 121 = 160 = 200: the encoding of one input row, with the default axis. -/
def encoding (N : ℕ) (x : List ℝ) : Py PauliEnc := mkPauliEnc N x (pyRange N) "X"

/-- test_TN_train2.py:121-122 = 160-161: the encoded state as a row. -/
def encodeRow (N : ℕ) (p0 : Tensor ℂ) (x : List ℝ) : Py (Tensor ℂ) := do
  let PE ← encoding N x
  (← (← PE.U_expand).matmul (← p0.view [-1, 1])).view [1, -1]

/-- test_TN_train2.py:142-144 = 170-172: `(psif^H Z_0 psif).real` of the final state. -/
def expecRow (N : ℕ) (c : Circuit) (psi : Tensor ℂ) : Py (Tensor ℝ) := do
  let psif ← (← c.U).matmul (← psi.view [-1, 1])
  let e ← (← (← psif.view [1, -1]).conj.matmul (← (mkPauliZ N (.int 0)).U_expand)).matmul psif
  .ok (e.mapT Complex.re)

/-- test_TN_train2.py:94-103 = 142-148 = 170-176: one pass of the loop; `rst` is unset before the first. -/
def gatherStep {α : Type} (f : α → Py (Tensor ℝ)) (rst : Option (Tensor ℝ)) (a : α) :
    Py (Option (Tensor ℝ)) := do
  let row ← (← f a).view [1, -1]
  match rst with
  | none => .ok (some row)
  | some r => do .ok (some (← r.cat0 row))

/-- test_TN_train2.py:93-105 = 141-150 = 169-177: the loop that stacks the results; with an empty
batch `rst` is never assigned. -/
def gather {α : Type} (f : α → Py (Tensor ℝ)) (l : List α) : Py (Tensor ℝ) := do
  let rst ← l.foldlM (gatherStep f) none
  match rst with
  | none => .error .unboundLocal
  | some r => .ok r

/-- test_TN_train2.py:108-150 `qcir.forward3`: everything with `2^N × 2^N` matrices. -/
def forward3 (N : ℕ) (w : List ℝ) (batch : List (List ℝ)) : Py (Tensor ℝ) := do
  let p0 ← psi0 N
  let psis ← batch.mapM (encodeRow N p0)
  let c1 ← layers N w
  gather (expecRow N c1) psis

/-- test_TN_train2.py:152-177 `qcir.forward1`: with `BasicEntangleLayer`. -/
def forward1 (N : ℕ) (w : List ℝ) (batch : List (List ℝ)) : Py (Tensor ℝ) := do
  let p0 ← psi0 N
  let psis ← batch.mapM (encodeRow N p0)
  let c1 ← layers1 N w
  gather (expecRow N c1) psis

/-- test_TN_train2.py:94-98: the expectation value of one encoded state tensor. -/
def expecTensor (N : ℕ) (c : Circuit) (T : Tensor ℂ) : Py (Tensor ℝ) := do
  let MPSt ← c.TN_contract_evolution T false
  let MPStz ← (mkPauliZ N (.int 0)).TN_contract MPSt false
  let e ← (← MPSt.view [1, -1]).conj.matmul (← MPStz.view [-1, 1])
  .ok (e.mapT Complex.re)

/-- test_TN_train2.py:59-105 `qcir.forward2`: by contraction, one sample after the other. -/
def forward2 (svd : SVDOracle) (N : ℕ) (w : List ℝ) (batch : List (List ℝ)) : TNM (Tensor ℝ) := do
  let p0 ← (psi0 N : Py _)
  let MPS ← StateVec2MPS svd p0 N
  let MPSc ← (MPS2StateVec_tensor MPS : Py _)
  let Ts ← (batch.mapM (fun x => do (← encoding N x).TN_contract MPSc false) : Py _)
  let c1 ← (layers N w : Py _)
  TNM.lift (gather (expecTensor N c1) Ts)

/-- test_TN_train2.py:196-201: the batch of encoded states: copies of the tensor of `|0…0⟩`, each
encoded in place. -/
def encodeBatch (N : ℕ) (MPSc : Tensor ℂ) (batch : List (List ℝ)) : Py (Tensor ℂ) := do
  let u ← MPSc.unsqueeze 0
  let T ← Tensor.catList Tensor.catFirst (List.replicate batch.length u)
  (List.range batch.length).foldlM (fun (T : Tensor ℂ) (i : ℕ) => do
    let PE ← encoding N (← pyGet batch ((i : ℕ) : ℤ))
    T.setFirst i (← PE.TN_contract (← T.select0 ((i : ℕ) : ℤ)) false)) T

/-- test_TN_train2.py:232-241: line 238 multiplies the batch with `Z_0` times the batch, without
complex conjugation. -/
def readBatch (N : ℕ) (c : Circuit) (T : Tensor ℂ) : Py (Tensor ℝ) := do
  let T ← c.TN_contract_evolution T true
  let T0 := T
  let T ← (mkPauliZ N (.int 0)).TN_contract T true
  let s0 ← pyGet T.shape 0
  let T ← T.view [(s0 : ℤ), -1, 1]
  let T0 ← T0.view [(s0 : ℤ), 1, -1]
  let rst := (← T0.matmul T).mapT Complex.re
  rst.squeezeDim (-1)

/-- test_TN_train2.py:181-241 `qcir.forward`: by contraction of the whole batch. -/
def forward (svd : SVDOracle) (N : ℕ) (w : List ℝ) (batch : List (List ℝ)) : TNM (Tensor ℝ) := do
  let p0 ← (psi0 N : Py _)
  let MPS ← StateVec2MPS svd p0 N
  let MPSc ← (MPS2StateVec_tensor MPS : Py _)
  let T ← (encodeBatch N MPSc batch : Py _)
  let c1 ← (layers N w : Py _)
  TNM.lift (readBatch N c1 T)

end Train2

end

end QTN
