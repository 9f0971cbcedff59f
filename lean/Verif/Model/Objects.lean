import Verif.Model.QCircuit
import Verif.Model.Embedding

/-!
# deepquantum/gates/qcircuit.py on objects

The same functions as in `Model/QCircuit.lean`, one level closer to Python: the list `gate` of a
circuit holds references to objects, several positions may refer to one object, and an object need
not have every attribute.  `params_update` changes the object, hence every position that refers to
it.  Objects are gates, layers and `PauliEncoding`s; the latter have no `num_params`, `supportTN`,
`params`, `params_update` and `operation_dagger` (neither their constructor nor a base class defines
them), so reading one of these raises AttributeError.
-/

namespace QTN

noncomputable section

/-- An object that can be put into a circuit. -/
inductive Obj
  | op (o : Op)
  | enc (e : PauliEnc)

namespace Obj

/-- `num_params` -/
def numParams : Obj → Py ℕ
  | .op o => .ok o.numParams
  | .enc _ => .error .attributeError

/-- `supportTN` -/
def supportTN : Obj → Py Bool
  | .op o => .ok o.supportTN
  | .enc _ => .error .attributeError

/-- `params` -/
def params : Obj → Py PV
  | .op o => .ok o.params
  | .enc _ => .error .attributeError

/-- `U_expand()` -/
def U_expand : Obj → Py (Tensor ℂ)
  | .op o => o.U_expand
  | .enc e => e.U_expand

/-- `TN_operation(MPS)` -/
def TN_operation (svd : SVDOracle) : Obj → List (Tensor ℂ) → TNM (List (Tensor ℂ))
  | .op o, mps => o.TN_operation svd mps
  | .enc e, mps => TNM.lift (e.TN_operation mps)

/-- `TN_contract(T, batch_mod)` -/
def TN_contract : Obj → Tensor ℂ → Bool → Py (Tensor ℂ)
  | .op o, T, b => o.TN_contract T b
  | .enc e, T, b => e.TN_contract T b

/-- `params_update(p)` -/
def params_update : Obj → List ℝ → Py Obj
  | .op o, p => do .ok (.op (← o.params_update p))
  | .enc _, _ => .error .attributeError

/-- `operation_dagger()`; `none` is Python's None. -/
def operation_dagger : Obj → Py (Option Op)
  | .op o => o.operation_dagger
  | .enc _ => .error .attributeError

end Obj

/-- References to objects. -/
abbrev Ref := ℕ

/-- The objects by reference. -/
abbrev Heap := Ref → Obj

/-- A `Circuit` object. -/
structure OCircuit where
  nqubits : ℕ
  gate : List Ref
  cir_params : ℕ → Option (Option PV)
  cir_num_params : ℕ

namespace OCircuit

/-- qcircuit.py:24-29 `Circuit(N)`. -/
def new (N : ℕ) : OCircuit := ⟨N, [], fun _ => none, 0⟩

/-- The objects in the list `gate`. -/
def objs (h : Heap) (c : OCircuit) : List Obj := c.gate.map h

/-- qcircuit.py:51-62 `U`. -/
def U (h : Heap) (c : OCircuit) (leftToRight : Bool := true) : Py (Tensor ℂ) :=
  (c.objs h).foldlM (fun acc o => do
    let u ← o.U_expand
    if leftToRight then u.matmul acc else acc.matmul u) (Tensor.eye (2 ^ c.nqubits))

/-- qcircuit.py:64-77 `TN_evolution`. -/
def TN_evolution (svd : SVDOracle) (h : Heap) (c : OCircuit) (mps : List (Tensor ℂ)) :
    TNM (List (Tensor ℂ)) := do
  (raiseIf (mps.length ≠ c.nqubits) .valueError : Py _)
  (c.objs h).foldlM (fun mps o => do
    let b ← (o.supportTN : Py _)
    if b = true then o.TN_operation svd mps else TNM.lift (.error .valueError)) mps

/-- qcircuit.py:82-96 `TN_contract_evolution`. -/
def TN_contract_evolution (h : Heap) (c : OCircuit) (T : Tensor ℂ) (batch : Bool) :
    Py (Tensor ℂ) := do
  if batch = false then pyAssert (T.rank = c.nqubits)
  else pyAssert (T.rank = c.nqubits + 1)
  (c.objs h).foldlM (fun T o => do
    if (← o.supportTN) = true then o.TN_contract T batch else .error .valueError) T

/-- qcircuit.py:130-137 `TN_check`: stops at the first object without support. -/
def tnCheck : List Obj → Py Bool
  | [] => .ok true
  | o :: os => do if (← o.supportTN) = false then .ok false else tnCheck os

/-- qcircuit.py:130-137 `TN_check`. -/
def TN_check (h : Heap) (c : OCircuit) : Py Bool := tnCheck (c.objs h)

/-- qcircuit.py:101-115 `cir_expectation`; `self.TN_check()` is evaluated whatever `TN` is. -/
def cir_expectation (svd : SVDOracle) (h : Heap) (c : OCircuit) (init M : Tensor ℂ)
    (tn : Bool := true) : TNM ℝ := do
  let i0 ← (pyGet init.shape 0 : Py _)
  (raiseIf (i0 ≠ 1) .valueError : Py _)
  let i1 ← (pyGet init.shape 1 : Py _)
  (raiseIf (i1 ≠ 2 ^ c.nqubits) .valueError : Py _)
  let m0 ← (pyGet M.shape 0 : Py _)
  let m1 ← (pyGet M.shape 1 : Py _)
  (raiseIf (m0 ≠ m1) .valueError : Py _)
  let ok ← (c.TN_check h : Py _)
  if ok = true ∧ tn = true then
    let v ← (init.view [1, -1] : Py _)
    let mps ← StateVec2MPS svd v c.nqubits
    let mps ← c.TN_evolution svd h mps
    let psi ← (MPS2StateVec mps : Py _)
    TNM.lift (Circuit.quadForm psi M)
  else
    let u ← (c.U h : Py _)
    let v ← (init.view [-1, 1] : Py _)
    let psi ← (u.matmul v : Py _)
    TNM.lift (Circuit.quadForm psi M)

end OCircuit

/-- The state of a program: the objects, one circuit, and the matrices decomposed so far. -/
structure World where
  heap : Heap
  cir : OCircuit
  log : List (Tensor ℂ)

/-- Computations on objects: they may raise; changes made before an exception persist. -/
def OM (α : Type) : Type := World → Py α × World

namespace OM
/-- return -/
def pure' {α : Type} (a : α) : OM α := fun w => (.ok a, w)
/-- sequencing -/
def bind' {α β : Type} (x : OM α) (f : α → OM β) : OM β := fun w =>
  match x w with
  | (.ok a, w') => f a w'
  | (.error e, w') => (.error e, w')
instance : Monad OM where
  pure := pure'
  bind := bind'
/-- a computation without effect on the objects -/
def lift {α : Type} (x : Py α) : OM α := fun w => (x, w)
/-- a computation that reads the objects and calls the SVD -/
def read {α : Type} (f : Heap → OCircuit → TNM α) : OM α := fun w =>
  let r := f w.heap w.cir w.log
  (r.1, { w with log := r.2 })

/-- qcircuit.py:42-48 `add`: the object is appended first; then `num_params` and `params` are
read. -/
def add (r : Ref) : OM Unit := fun w =>
  let gate := w.cir.gate ++ [r]
  let w1 := { w with cir := { w.cir with gate := gate } }
  match (w.heap r).numParams with
  | .error e => (.error e, w1)
  | .ok n =>
    if n ≠ 0 then
      let w2 := { w1 with cir := { w1.cir with cir_num_params := w1.cir.cir_num_params + n } }
      match (w.heap r).params with
      | .error e => (.error e, w2)
      | .ok p => (.ok (), { w2 with cir := { w2.cir with
          cir_params := Function.update w2.cir.cir_params (gate.length - 1) (some (some p)) } })
    else (.ok (), { w1 with cir := { w1.cir with
          cir_params := Function.update w1.cir.cir_params (gate.length - 1) (some none) } })

/-- `obj.params_update(p)` called on an object directly; if it raises the object is left as it
was (Python may have stored `p` already, a simplification). -/
def touch (r : Ref) (p : List ℝ) : OM Unit := fun w =>
  match (w.heap r).params_update p with
  | .error e => (.error e, w)
  | .ok o => (.ok (), { w with heap := Function.update w.heap r o })

/-- `self.cir.gate[idx].params_update(p)`. -/
def update (idx : ℕ) (p : List ℝ) : OM Unit := fun w =>
  match w.cir.gate[idx]? with
  | none => (.error .indexError, w)
  | some r => touch r p w

/-- qcircuit.py:153-154 `clear`. -/
def clear : OM Unit := fun w => (.ok (), { w with cir := { w.cir with gate := [] } })

end OM

namespace PShift

/-- `readParams` on the object level. -/
def oreadParams (c : OCircuit) (idx : ℕ) : Py PV :=
  match c.cir_params idx with
  | none => .error .keyError
  | some none => .error .attributeError
  | some (some (.pylist _)) => .error .attributeError
  | some (some p) => .ok p

/-- One call of `self.cir.cir_expectation(self.init_state, self.M)`. -/
def oexpec (svd : SVDOracle) (ps : PShift) : OM ℝ :=
  OM.read (fun h c => c.cir_expectation svd h ps.init_state ps.M)

/-- qcircuit.py:289-296. -/
def ogradScalar (svd : SVDOracle) (ps : PShift) (idx : ℕ) (x : ℝ) : OM ℝ := do
  OM.update idx [x + 0.5 * Real.pi]
  let e1 ← ps.oexpec svd
  OM.update idx [x - 0.5 * Real.pi]
  let e2 ← ps.oexpec svd
  OM.update idx [x]
  pure (0.5 * (e1 - e2))

/-- qcircuit.py:300-311. -/
def ogradVec (svd : SVDOracle) (ps : PShift) (idx : ℕ) : List ℕ → List ℝ → OM (List ℝ)
  | [], _ => pure []
  | i :: is, p => do
    let p1 := bump p i (0.5 * Real.pi)
    OM.update idx p1
    let e1 ← ps.oexpec svd
    let p2 := bump p1 i (-(1.0 * Real.pi))
    OM.update idx p2
    let e2 ← ps.oexpec svd
    let p3 := bump p2 i (0.5 * Real.pi)
    OM.update idx p3
    let rest ← ogradVec svd ps idx is p3
    pure (0.5 * (e1 - e2) :: rest)

/-- `self.cir.gate[idx]`. -/
def oget (idx : ℕ) : OM Obj :=
  OM.read (fun h c => match c.gate[idx]? with
    | some r => TNM.lift (.ok (h r))
    | none => TNM.lift (.error .indexError))

/-- qcircuit.py:281-313. -/
def ogradAt (svd : SVDOracle) (ps : PShift) (idx : ℕ) : OM (List ℝ) := do
  let o ← oget idx
  let n ← OM.lift o.numParams
  if n = 0 then pure []
  else do
    let p ← OM.read (fun _ c => TNM.lift (oreadParams c idx))
    match p with
    | .scalar x => do pure [← ps.ogradScalar svd idx x]
    | .vec p => ps.ogradVec svd idx (List.range p.length) p
    | .pylist _ => OM.lift (.error .attributeError)

/-- The loop qcircuit.py:281-313. -/
def ogradLoop (svd : SVDOracle) (ps : PShift) : List ℕ → OM (List ℝ)
  | [] => pure []
  | idx :: rest => do
    let g ← ps.ogradAt svd idx
    let gs ← ogradLoop svd ps rest
    pure (g ++ gs)

/-- qcircuit.py:279-316 `cal_params_grad`. -/
def ocal_params_grad (svd : SVDOracle) (ps : PShift) : OM (List ℝ) := do
  let n ← OM.read (fun _ c => TNM.lift (.ok c.gate.length))
  let grads ← ps.ogradLoop svd (List.range n)
  OM.read (fun _ c => TNM.lift (pyAssert (grads.length = c.cir_num_params)))
  pure grads

/-- qcircuit.py:334-343, as `saveForward`; the attribute `num_params` of the next object is read
only if there is a next object. -/
def osaveForward (svd : SVDOracle) (objs : List Obj) : ℕ → List Obj → List (Tensor ℂ) → Saved →
    TNM (List (Tensor ℂ) × Saved)
  | _, [], mps, d => pure (mps, d)
  | idx, o :: os, mps, d => do
    let b ← (o.supportTN : Py _)
    if b = true then do
      let mps ← o.TN_operation svd mps
      let save ← (if idx ≠ objs.length - 1 then do
        let nxt ← pyGet objs ((idx : ℤ) + 1)
        .ok (decide ((← nxt.numParams) ≠ 0)) else .ok false : Py Bool)
      let d := if save = true then Function.update d idx (some mps) else d
      osaveForward svd objs (idx + 1) os mps d
    else TNM.lift (.error .valueError)

/-- qcircuit.py:355-366, as `saveBackward`. -/
def osaveBackward (svd : SVDOracle) (objs : List Obj) : ℕ → List (Tensor ℂ) → Saved →
    TNM (List (Tensor ℂ) × Saved)
  | 0, mps, d => pure (mps, d)
  | idx + 1, mps, d => do
    let o ← (pyGet objs (idx : ℤ) : Py _)
    let od ← (o.operation_dagger : Py _)
    match od with
    | none => TNM.lift (.error .attributeError)
    | some o' =>
      if o'.supportTN = true then do
        let mps ← o'.TN_operation svd mps
        let save ← (if idx ≠ 0 then do
          let prv ← pyGet objs ((idx : ℤ) - 1)
          .ok (decide ((← prv.numParams) ≠ 0)) else .ok false : Py Bool)
        let d := if save = true then Function.update d (2 * objs.length - idx - 1) (some mps) else d
        osaveBackward svd objs idx mps d
      else TNM.lift (.error .valueError)

/-- qcircuit.py:320-371 `save_mid_MPS`. -/
def osave_mid_MPS (svd : SVDOracle) (ps : PShift) (h : Heap) (c : OCircuit) (mOper : Op) :
    TNM (Saved × Tensor ℂ) := do
  let mps ← StateVec2MPS svd ps.init_state c.nqubits
  (raiseIf (mps.length ≠ c.nqubits) .valueError : Py _)
  let (mps, d) ← osaveForward svd (c.objs h) 0 (c.objs h) mps (fun _ => none)
  let svf ← (MPS2StateVec mps : Py _)
  let mps ← mOper.TN_operation svd mps
  let last ← (pyGet (c.objs h) (((c.objs h).length : ℤ) - 1) : Py _)
  let n ← (last.numParams : Py _)
  let d := if n ≠ 0 then Function.update d ((c.objs h).length - 1) (some mps) else d
  let (_, d) ← osaveBackward svd (c.objs h) (c.objs h).length mps d
  pure (d, svf)

/-- qcircuit.py:390-402 = 414-425. -/
def ooverlap (svd : SVDOracle) (initMPS : List (Tensor ℂ)) (d : Saved) (idx : ℕ) : OM ℝ :=
  OM.read (fun h c => do
    let o ← (pyGet (c.objs h) (idx : ℤ) : Py _)
    let mps ← (if idx = 0 then .ok initMPS else savedGet d ((idx : ℤ) - 1) : Py _)
    let mps ← o.TN_operation svd mps
    let psi1 ← (MPS2StateVec mps : Py _)
    let m2 ← (savedGet d (2 * (c.gate.length : ℤ) - (idx : ℤ) - 2) : Py _)
    let psi2 ← (MPS2StateVec m2 : Py _)
    let v ← (psi1.view [-1, 1] : Py _)
    let t ← (psi2.conj.matmul v : Py _)
    TNM.lift (.ok (-1.0 * (t.squeeze.get []).re)))

/-- qcircuit.py:386-407. -/
def ograd2Scalar (svd : SVDOracle) (initMPS : List (Tensor ℂ)) (d : Saved) (idx : ℕ) (x : ℝ) :
    OM ℝ := do
  OM.update idx [x - Real.pi]
  let e ← ooverlap svd initMPS d idx
  OM.update idx [x - Real.pi + Real.pi]
  pure e

/-- qcircuit.py:409-431. -/
def ograd2Vec (svd : SVDOracle) (initMPS : List (Tensor ℂ)) (d : Saved) (idx : ℕ) :
    List ℕ → List ℝ → OM (List ℝ)
  | [], _ => pure []
  | i :: is, p => do
    let p1 := bump p i (-Real.pi)
    OM.update idx p1
    let e ← ooverlap svd initMPS d idx
    let p2 := bump p1 i Real.pi
    OM.update idx p2
    let rest ← ograd2Vec svd initMPS d idx is p2
    pure (e :: rest)

/-- qcircuit.py:380-433. -/
def ograd2At (svd : SVDOracle) (initMPS : List (Tensor ℂ)) (d : Saved) (idx : ℕ) :
    OM (List ℝ) := do
  let o ← oget idx
  let n ← OM.lift o.numParams
  if n = 0 then pure []
  else do
    let p ← OM.read (fun _ c => TNM.lift (oreadParams c idx))
    match p with
    | .scalar x => do pure [← ograd2Scalar svd initMPS d idx x]
    | .vec p => ograd2Vec svd initMPS d idx (List.range p.length) p
    | .pylist _ => OM.lift (.error .attributeError)

/-- The loop qcircuit.py:380-433. -/
def ograd2Loop (svd : SVDOracle) (initMPS : List (Tensor ℂ)) (d : Saved) :
    List ℕ → OM (List ℝ)
  | [] => pure []
  | idx :: rest => do
    let g ← ograd2At svd initMPS d idx
    let gs ← ograd2Loop svd initMPS d rest
    pure (g ++ gs)

/-- qcircuit.py:375-436 `cal_params_grad2`. -/
def ocal_params_grad2 (svd : SVDOracle) (ps : PShift) (d : Saved) : OM (List ℝ) := do
  let n ← OM.read (fun _ c => TNM.lift (.ok c.gate.length))
  let initMPS ← OM.read (fun _ c => StateVec2MPS svd ps.init_state c.nqubits)
  let grads ← ograd2Loop svd initMPS d (List.range n)
  OM.read (fun _ c => TNM.lift (pyAssert (grads.length = c.cir_num_params)))
  pure grads

end PShift

end

end QTN
