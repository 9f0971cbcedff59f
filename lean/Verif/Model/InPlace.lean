import Verif.Model.QCircuit
import Verif.Model.Embedding

/-!
# The matrix product state as a list object

In `Model/QOperator.lean`, `Model/QLayers.lean` and `Model/QCircuit.lean` the methods take a list of
tensors and return a new one.  In Python the list is an object: `MPS[i] = …` changes the list the
caller passed, every `TN_operation` returns that same object, and changes made before an exception
persist.  Here the same functions are written once more with references to lists, so that this can be
stated.  Tensors stay values, because no modelled line writes into a tensor of a state; hence a deep
copy of a list is a new list with the same tensors.
-/

namespace QTN

noncomputable section

/-- A reference to a list of tensors. -/
abbrev LRef := ℕ

/-- The lists by reference, the number of references handed out, the circuit held by a
`parameter_shift` object, and the matrices decomposed so far. -/
structure LWorld where
  lists : LRef → List (Tensor ℂ)
  next : LRef
  cir : Circuit
  log : List (Tensor ℂ)

/-- Computations on list objects: they may raise; changes made before an exception persist. -/
def LM (α : Type) : Type := LWorld → Py α × LWorld

namespace LM
/-- return -/
def pure' {α : Type} (a : α) : LM α := fun w => (.ok a, w)
/-- sequencing -/
def bind' {α β : Type} (x : LM α) (f : α → LM β) : LM β := fun w =>
  match x w with
  | (.ok a, w') => f a w'
  | (.error e, w') => (.error e, w')
instance : Monad LM where
  pure := pure'
  bind := bind'
/-- a computation without effects -/
def py {α : Type} (x : Py α) : LM α := fun w => (x, w)
/-- a computation that calls the SVD -/
def tn {α : Type} (x : TNM α) : LM α := fun w =>
  let r := x w.log
  (r.1, { w with log := r.2 })
/-- the content of a list -/
def content (r : LRef) : LM (List (Tensor ℂ)) := fun w => (.ok (w.lists r), w)
/-- `MPS[i]` -/
def item (r : LRef) (i : ℤ) : LM (Tensor ℂ) := fun w => (pyGet (w.lists r) i, w)
/-- `MPS[i] = t` -/
def setItem (r : LRef) (i : ℤ) (t : Tensor ℂ) : LM Unit := fun w =>
  match pySet (w.lists r) i t with
  | .ok l => (.ok (), { w with lists := Function.update w.lists r l })
  | .error e => (.error e, w)
/-- a new list object -/
def alloc (l : List (Tensor ℂ)) : LM LRef := fun w =>
  (.ok w.next, { w with lists := Function.update w.lists w.next l, next := w.next + 1 })
/-- `copy.deepcopy(MPS)` -/
def deepcopy (r : LRef) : LM LRef := fun w => alloc (w.lists r) w
/-- the circuit -/
def circuit : LM Circuit := fun w => (.ok w.cir, w)
/-- a computation that reads the circuit -/
def reads {α : Type} (f : Circuit → Py α) : LM α := fun w => (f w.cir, w)
/-- a computation on the circuit (`params_update`) -/
def onCircuit {α : Type} (x : CM α) : LM α := fun w =>
  let r := x (w.cir, w.log)
  (r.1, { w with cir := r.2.1, log := r.2.2 })
end LM

/-! ## Gates -/

namespace Gate

/-- `applyTwo` on a list object: qoperator.py:1050-1062 and the same lines in the other gates. -/
def applyTwoL (svd : SVDOracle) (G : Tensor ℂ) (r : LRef) (i : ℤ) : LM LRef := do
  let A ← LM.item r i
  let B ← LM.item r (i + 1)
  let temp ← LM.py (mergeTwo A B G)
  let ab ← LM.tn (TensorDecompAfterTwoQbitGate svd temp)
  LM.setItem r i ab.1
  LM.setItem r (i + 1) ab.2
  pure r

/-- qoperator.py:1763-1799 `SWAP.TN_operation`. -/
def swapTNL (svd : SVDOracle) (m : Tensor ℂ) (w : List ℤ) (r : LRef) : LM LRef := do
  LM.py (raiseIf (w.length ≠ 2) .valueError)
  let up ← LM.py (pyMin w)
  let down ← LM.py (pyMax w)
  let r ← (pyRange2 up down).foldlM (fun r i => applyTwoL svd m r i) r
  (pyRangeDown (down - 1) up).foldlM (fun r i => applyTwoL svd m r (i - 1)) r

/-- qoperator.py:1763-1799 -/
def swap_TN_operationL (svd : SVDOracle) (g : Gate) (r : LRef) : LM LRef := do
  LM.py g.guard
  let w ← LM.py g.wires.asList
  swapTNL svd g.matrix w r

/-- `MPS = SWAP(N,[i,j]).TN_operation(MPS)` inside the other gates. -/
def swapCallL (svd : SVDOracle) (N i j : ℤ) (r : LRef) : LM LRef :=
  swap_TN_operationL svd (mkSwap N (.list [i, j])) r

/-- qoperator.py:1040-1133 `cnot.TN_operation`. -/
def cnot_TN_operationL (svd : SVDOracle) (g : Gate) (r : LRef) : LM LRef := do
  LM.py g.guard
  let w ← LM.py g.wires.asList
  let up ← LM.py (pyMin w)
  let down ← LM.py (pyMax w)
  let w0 ← LM.py (pyGet w 0)
  if up + 1 = down then
    let G ← LM.py (if w0 = up then .ok cnotMat else (mkCnot 2 (.list [1, 0])).U_expand)
    applyTwoL svd G r up
  else
    let r ← (pyRange2 up (down - 1)).foldlM (fun r i => swapCallL svd g.nqubits i (i + 1) r) r
    let G ← LM.py (if w0 = up then .ok cnotMat else (mkCnot 2 (.list [1, 0])).U_expand)
    let r ← applyTwoL svd G r (down - 1)
    (pyRangeDown (down - 1) up).foldlM (fun r i => swapCallL svd g.nqubits (i - 1) i r) r

/-- qoperator.py:1259-1286 (cz), 1417-1444 (cphase), 1575-1602 (cu3). -/
def ctrl_TN_operationL (svd : SVDOracle) (g : Gate) (Grev : Py (Tensor ℂ)) (r : LRef) :
    LM LRef := do
  LM.py g.guard
  let w ← LM.py g.wires.asList
  LM.py (raiseIf (w.length ≠ 2) .valueError)
  let up ← LM.py (pyMin w)
  let down ← LM.py (pyMax w)
  let w0 ← LM.py (pyGet w 0)
  let r ← (pyRange2 up (down - 1)).foldlM (fun r i => swapCallL svd g.nqubits i (i + 1) r) r
  let G ← LM.py (if w0 = up then .ok g.matrix else Grev)
  let r ← applyTwoL svd G r (down - 1)
  (pyRangeDown (down - 1) up).foldlM (fun r i => swapCallL svd g.nqubits (i - 1) i r) r

/-- qoperator.py:1952-1966: the three-site update. -/
def applyThreeL (svd : SVDOracle) (G : Tensor ℂ) (r : LRef) (i : ℤ) : LM LRef := do
  let A ← LM.item r (i - 1)
  let B ← LM.item r i
  let C ← LM.item r (i + 1)
  let temp ← LM.py (mergeThree A B C G)
  let abc ← LM.tn (TensorDecompAfterThreeQbitGate svd temp)
  LM.setItem r (i - 1) abc.1
  LM.setItem r i abc.2.1
  LM.setItem r (i + 1) abc.2.2
  pure r

/-- qoperator.py:1921-1991 `toffoli.TN_operation`. -/
def toffoli_TN_operationL (svd : SVDOracle) (g : Gate) (r : LRef) : LM LRef := do
  LM.py g.guard
  let w ← LM.py g.wires.asList
  let sw := w.mergeSort (· ≤ ·)
  let up ← LM.py (pyGet sw 0)
  let mid ← LM.py (pyGet sw 1)
  let down ← LM.py (pyGet sw 2)
  let r ← (pyRange2 up (mid - 1)).foldlM (fun r i => swapCallL svd g.nqubits i (i + 1) r) r
  let r ← (pyRangeDown down (mid + 1)).foldlM (fun r i => swapCallL svd g.nqubits (i - 1) i r) r
  let w2 ← LM.py (pyGet w 2)
  let G ← LM.py (toffoliG w2 mid down)
  let r ← applyThreeL svd G r mid
  let r ← (pyRangeDown (mid - 1) up).foldlM (fun r i => swapCallL svd g.nqubits (i - 1) i r) r
  (pyRange2 (mid + 1) down).foldlM (fun r i => swapCallL svd g.nqubits i (i + 1) r) r

/-- qoperator.py:115-124 `SingleGateOperation.TN_operation`. -/
def single_TN_operationL (g : Gate) (r : LRef) : LM LRef := do
  LM.py g.guard
  let i ← LM.py g.wires.asInt
  let t ← LM.item r i
  let t' ← LM.py (Tensor.einsum_ab_bcd g.matrix t)
  LM.setItem r i t'
  pure r

/-- `TN_operation(MPS)` by class, as in `Gate.TN_operation`. -/
def TN_operationL (svd : SVDOracle) (g : Gate) (r : LRef) : LM LRef :=
  match g.cls with
  | .hadamard | .pauliX | .pauliY | .pauliZ | .rx | .ry | .rz | .u1 | .u3 =>
    g.single_TN_operationL r
  | .rxx | .ryy | .rzz | .mcnot => LM.py (.error .attributeError)
  | .cnot => g.cnot_TN_operationL svd r
  | .cz => g.ctrl_TN_operationL svd ((mkCz 2 (.list [1, 0])).U_expand) r
  | .cphase => g.ctrl_TN_operationL svd
      (do (mkCphase (← pyGet g.params 0) 2 (.list [1, 0])).U_expand) r
  | .cu3 => g.ctrl_TN_operationL svd (two_qubit_control_gate g.uMatrix 2 1 0) r
  | .swap => g.swap_TN_operationL svd r
  | .toffoli => g.toffoli_TN_operationL svd r

end Gate

/-! ## Layers -/

namespace SingleLayer

/-- qlayers.py:37-48 `SingleGateLayer.TN_operation`. -/
def TN_operationL (gates : Py (List (Tensor ℂ))) (wires : List ℤ) (r : LRef) : LM LRef := do
  let lst ← LM.py gates
  wires.foldlM (fun r q => do
    let m ← LM.py (pyGet lst q)
    let t ← LM.item r q
    let t' ← LM.py (Tensor.einsum_ab_bcd m t)
    LM.setItem r q t'
    pure r) r

end SingleLayer

/-- The layers of single-qubit gates: `TN_operation` is inherited. -/
def SLayer.TN_operationL (l : SLayer) (r : LRef) : LM LRef :=
  SingleLayer.TN_operationL l.calSingleGates l.wires r

/-- `PauliEncoding`: `TN_operation` is inherited. -/
def PauliEnc.TN_operationL (e : PauliEnc) (r : LRef) : LM LRef :=
  SingleLayer.TN_operationL e.calSingleGates e.wires r

namespace Ring

/-- `MPS = cnot(N,[a,b]).TN_operation(MPS)` -/
def cnotCallL (svd : SVDOracle) (N a b : ℤ) (r : LRef) : LM LRef :=
  (mkCnot N (.list [a, b])).TN_operationL svd r

/-- `MPS = SWAP(N,[a,b]).TN_operation(MPS)` -/
def swapCallL (svd : SVDOracle) (N a b : ℤ) (r : LRef) : LM LRef :=
  (mkSwap N (.list [a, b])).TN_operationL svd r

/-- qlayers.py:709-744 = 848-854. -/
def wrapCnotL (svd : SVDOracle) (N : ℤ) (L : ℤ) (r : LRef) : LM LRef := do
  let r ← (pyRange (L - 1)).foldlM (fun r i =>
    if i ≠ L - 2 then swapCallL svd N i (i + 1) r else cnotCallL svd N (i + 1) i r) r
  (pyRangeDown (L - 3) (-1)).foldlM (fun r i => swapCallL svd N i (i + 1) r) r

/-- `TN_operation`: qlayers.py:685-744 (`ring_of_cnot`), 837-859 (`ring_of_cnot_dagger`). -/
def TN_operationL (svd : SVDOracle) (g : Ring) (r : LRef) : LM LRef := do
  let L : ℤ := g.wires.length
  match g.kind with
  | .ring =>
    LM.py (raiseIf (g.wires ≠ pyRange g.nqubits) .valueError)
    let r ← (pyRange (L - 1)).foldlM (fun r i => cnotCallL svd g.nqubits i (i + 1) r) r
    if g.nqubits = 2 then pure r
    else wrapCnotL svd g.nqubits L r
  | .dagger =>
    LM.py (raiseIf (g.wires ≠ pyRange g.nqubits) .valueError)
    if g.nqubits = 2 then cnotCallL svd 2 0 1 r
    else
      let r ← wrapCnotL svd g.nqubits L r
      (pyRangeDown (L - 2) (-1)).foldlM (fun r i => cnotCallL svd g.nqubits i (i + 1) r) r
  | .ring2 => LM.py (.error .attributeError)

end Ring

/-- `TN_operation(MPS)` -/
def Op.TN_operationL (svd : SVDOracle) (o : Op) (r : LRef) : LM LRef :=
  match o with
  | .gate g => g.TN_operationL svd r
  | .single l => l.TN_operationL r
  | .ring g => g.TN_operationL svd r
  | .basic _ => LM.py (.error .attributeError)

/-! ## qcircuit.py -/

namespace Circuit

/-- qcircuit.py:64-77 `TN_evolution`; the deep copy at line 67 is commented out. -/
def TN_evolutionL (svd : SVDOracle) (c : Circuit) (r : LRef) : LM LRef := do
  let mps ← LM.content r
  LM.py (raiseIf (mps.length ≠ c.nqubits) .valueError)
  c.gate.foldlM (fun r o =>
    if o.supportTN = true then o.TN_operationL svd r
    else LM.py (.error .valueError)) r

/-- qcircuit.py:101-115 `cir_expectation`: `StateVec2MPS` makes a new list. -/
def cir_expectationL (svd : SVDOracle) (c : Circuit) (init M : Tensor ℂ) (tn : Bool := true) :
    LM ℝ := do
  let i0 ← LM.py (pyGet init.shape 0)
  LM.py (raiseIf (i0 ≠ 1) .valueError)
  let i1 ← LM.py (pyGet init.shape 1)
  LM.py (raiseIf (i1 ≠ 2 ^ c.nqubits) .valueError)
  let m0 ← LM.py (pyGet M.shape 0)
  let m1 ← LM.py (pyGet M.shape 1)
  LM.py (raiseIf (m0 ≠ m1) .valueError)
  if c.TN_check = true ∧ tn = true then
    let v ← LM.py (init.view [1, -1])
    let r ← LM.alloc (← LM.tn (StateVec2MPS svd v c.nqubits))
    let r ← c.TN_evolutionL svd r
    let psi ← LM.py (MPS2StateVec (← LM.content r))
    LM.py (quadForm psi M)
  else
    let u ← LM.py c.U
    let v ← LM.py (init.view [-1, 1])
    let psi ← LM.py (u.matmul v)
    LM.py (quadForm psi M)

end Circuit

namespace PShift

/-- The dictionary of saved states, as references. -/
abbrev SavedL := ℕ → Option LRef

/-- `save_dict[k] = copy.deepcopy(MPS)` under a condition. -/
def keepL (cond : Prop) [Decidable cond] (d : SavedL) (k : ℕ) (r : LRef) : LM SavedL :=
  if cond then do
    let r' ← LM.deepcopy r
    pure (Function.update d k (some r'))
  else pure d

open Classical in
/-- qcircuit.py:334-343. -/
def saveForwardL (svd : SVDOracle) (gates : List Op) : ℕ → List Op → LRef → SavedL →
    LM (LRef × SavedL)
  | _, [], r, d => pure (r, d)
  | idx, o :: os, r, d =>
    if o.supportTN = true then do
      let r ← o.TN_operationL svd r
      let d ← keepL (idx ≠ gates.length - 1 ∧ (∃ nxt, gates[idx + 1]? = some nxt ∧ nxt.numParams ≠ 0))
        d idx r
      saveForwardL svd gates (idx + 1) os r d
    else LM.py (.error .valueError)

open Classical in
/-- qcircuit.py:355-366. -/
def saveBackwardL (svd : SVDOracle) (gates : List Op) : ℕ → LRef → SavedL → LM (LRef × SavedL)
  | 0, r, d => pure (r, d)
  | idx + 1, r, d => do
    let o ← LM.py (pyGet gates (idx : ℤ))
    let od ← LM.py o.operation_dagger
    match od with
    | none => LM.py (.error .attributeError)
    | some o' =>
      if o'.supportTN = true then do
        let r ← o'.TN_operationL svd r
        let d ← keepL (idx ≠ 0 ∧ (∃ prv, gates[idx - 1]? = some prv ∧ prv.numParams ≠ 0))
          d (2 * gates.length - idx - 1) r
        saveBackwardL svd gates idx r d
      else LM.py (.error .valueError)

/-- qcircuit.py:320-371 `save_mid_MPS`. -/
def save_mid_MPSL (svd : SVDOracle) (ps : PShift) (mOper : Op) : LM (SavedL × Tensor ℂ) := do
  let c ← LM.circuit
  let r ← LM.alloc (← LM.tn (StateVec2MPS svd ps.init_state c.nqubits))
  let mps ← LM.content r
  LM.py (raiseIf (mps.length ≠ c.nqubits) .valueError)
  let rd ← saveForwardL svd c.gate 0 c.gate r (fun _ => none)
  let svf ← LM.py (MPS2StateVec (← LM.content rd.1))
  let r ← mOper.TN_operationL svd rd.1
  let last ← LM.py (pyGet c.gate ((c.gate.length : ℤ) - 1))
  let d ← keepL (last.numParams ≠ 0) rd.2 (c.gate.length - 1) r
  let rd ← saveBackwardL svd c.gate c.gate.length r d
  pure (rd.2, svf)

/-- `save_dict[k]` -/
def savedGetL (d : SavedL) (k : ℤ) : Py LRef :=
  if k < 0 then .error .keyError else
  match d k.toNat with
  | some m => .ok m
  | none => .error .keyError

/-- qcircuit.py:390-402 = 414-425. -/
def overlapL (svd : SVDOracle) (initMPS : LRef) (d : SavedL) (idx : ℕ) : LM ℝ := do
  let c ← LM.circuit
  let o ← LM.py (pyGet c.gate (idx : ℤ))
  let r ← LM.py (if idx = 0 then .ok initMPS else savedGetL d ((idx : ℤ) - 1))
  let r ← LM.deepcopy r
  let r ← o.TN_operationL svd r
  let psi1 ← LM.py (MPS2StateVec (← LM.content r))
  let r2 ← LM.py (savedGetL d (2 * (c.gate.length : ℤ) - (idx : ℤ) - 2))
  let psi2 ← LM.py (MPS2StateVec (← LM.content r2))
  let v ← LM.py (psi1.view [-1, 1])
  let t ← LM.py (psi2.conj.matmul v)
  pure (-1.0 * (t.squeeze.get []).re)

/-- qcircuit.py:386-407. -/
def grad2ScalarL (svd : SVDOracle) (initMPS : LRef) (d : SavedL) (idx : ℕ) (x : ℝ) : LM ℝ := do
  LM.onCircuit (CM.update idx [x - Real.pi])
  let e ← overlapL svd initMPS d idx
  LM.onCircuit (CM.update idx [x - Real.pi + Real.pi])
  pure e

/-- qcircuit.py:409-431. -/
def grad2VecL (svd : SVDOracle) (initMPS : LRef) (d : SavedL) (idx : ℕ) :
    List ℕ → List ℝ → LM (List ℝ)
  | [], _ => pure []
  | i :: is, p => do
    let p1 := bump p i (-Real.pi)
    LM.onCircuit (CM.update idx p1)
    let e ← overlapL svd initMPS d idx
    let p2 := bump p1 i Real.pi
    LM.onCircuit (CM.update idx p2)
    let rest ← grad2VecL svd initMPS d idx is p2
    pure (e :: rest)

/-- qcircuit.py:380-433. -/
def grad2AtL (svd : SVDOracle) (initMPS : LRef) (d : SavedL) (idx : ℕ) : LM (List ℝ) := do
  let o ← LM.reads (fun c => match c.gate[idx]? with
    | some o => .ok o
    | none => .error .indexError)
  if o.numParams = 0 then pure []
  else do
    let p ← LM.reads (fun c => readParams c idx)
    match p with
    | .scalar x => do
      let e ← grad2ScalarL svd initMPS d idx x
      pure [e]
    | .vec p => grad2VecL svd initMPS d idx (List.range p.length) p
    | .pylist _ => LM.py (.error .attributeError)

/-- The loop qcircuit.py:380-433. -/
def grad2LoopL (svd : SVDOracle) (initMPS : LRef) (d : SavedL) : List ℕ → LM (List ℝ)
  | [] => pure []
  | idx :: rest => do
    let g ← grad2AtL svd initMPS d idx
    let gs ← grad2LoopL svd initMPS d rest
    pure (g ++ gs)

/-- qcircuit.py:375-436 `cal_params_grad2`. -/
def cal_params_grad2L (svd : SVDOracle) (ps : PShift) (d : SavedL) : LM (List ℝ) := do
  let c ← LM.circuit
  let r ← LM.alloc (← LM.tn (StateVec2MPS svd ps.init_state c.nqubits))
  let grads ← grad2LoopL svd r d (List.range c.gate.length)
  LM.reads (fun c => pyAssert (grads.length = c.cir_num_params))
  pure grads

end PShift

/-! ## The encoding loop of tests/test_TN_train.py -/

/-- tests/test_TN_train.py:173-187: `MPS_batch.append(PE.TN_operation(copy.deepcopy(MPS)))` for every
encoding. -/
def encodeBatchL (r : LRef) : List PauliEnc → LM (List LRef)
  | [] => pure []
  | e :: es => do
    let r' ← LM.deepcopy r
    let f ← e.TN_operationL r'
    let fs ← encodeBatchL r es
    pure (f :: fs)

/-- The same loop without the deep copy, which the comment in tests/test_TN_train.py:179-183 warns
about. -/
def encodeSharedL (r : LRef) : List PauliEnc → LM (List LRef)
  | [] => pure []
  | e :: es => do
    let f ← e.TN_operationL r
    let fs ← encodeSharedL r es
    pure (f :: fs)

end

end QTN
