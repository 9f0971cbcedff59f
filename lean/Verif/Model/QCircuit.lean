import Verif.Model.QLayers

/-!
# deepquantum/gates/qcircuit.py

`Circuit` and `parameter_shift`.  Operations are values here: a circuit holds copies.  The same
functions on objects, where one object can stand at several positions, are in `Objects.lean`; `C63`
relates the two.  `draw` and `info` are not modelled.
-/

namespace QTN

noncomputable section

/-! ## Operations -/

/-- Anything that can be added to a circuit: a gate or a layer. -/
inductive Op
  | gate (g : Gate)
  | single (l : SLayer)
  | ring (r : Ring)
  | basic (b : Basic)

/-- The `params` attribute: a 0-dimensional tensor, a 1-dimensional tensor, or a Python list (only
`BasicEntangleLayer` keeps the list it is given). -/
inductive PV
  | scalar (x : ℝ)
  | vec (p : List ℝ)
  | pylist (p : List ℝ)

namespace Op

/-- `num_params` -/
def numParams : Op → ℕ
  | .gate g => g.numParams
  | .single l => l.numParams
  | .ring _ => 0
  | .basic b => b.numParams

/-- `supportTN` -/
def supportTN : Op → Bool
  | .gate g => g.supportTN
  | .single _ => true
  | .ring r => r.supportTN
  | .basic _ => false

/-- `params` (read only for operations with parameters): the gates with one parameter store a
0-dimensional tensor (e.g. qoperator.py:344-346), u3 and cu3 a 1-dimensional one. -/
def params : Op → PV
  | .gate g => match g.params with
    | [x] => .scalar x
    | p => .vec p
  | .single l => .vec l.params
  | .ring _ => .vec []
  | .basic b => if b.pyList then .pylist b.params else .vec b.params

/-- `U_expand()` -/
def U_expand : Op → Py (Tensor ℂ)
  | .gate g => g.U_expand
  | .single l => l.U_expand
  | .ring r => r.U_expand
  | .basic b => b.U_expand

/-- `TN_operation(MPS)`; `BasicEntangleLayer` has no such method. -/
def TN_operation (svd : SVDOracle) (o : Op) (mps : List (Tensor ℂ)) : TNM (List (Tensor ℂ)) :=
  match o with
  | .gate g => g.TN_operation svd mps
  | .single l => TNM.lift (l.TN_operation mps)
  | .ring r => r.TN_operation svd mps
  | .basic _ => TNM.lift (.error .attributeError)

/-- `TN_contract(T, batch_mod)`; `BasicEntangleLayer` has no such method. -/
def TN_contract (o : Op) (T : Tensor ℂ) (batch : Bool) : Py (Tensor ℂ) :=
  match o with
  | .gate g => g.TN_contract T batch
  | .single l => l.TN_contract T batch
  | .ring r => r.TN_contract T batch
  | .basic _ => .error .attributeError

/-- `params_update(p)` with a tensor argument; `pass` for the rings (qlayers.py:784, 891, 957). -/
def params_update (o : Op) (p : List ℝ) : Py Op :=
  match o with
  | .gate g => do .ok (.gate (← g.params_update p))
  | .single l => .ok (.single (l.params_update p))
  | .ring r => .ok (.ring r)
  | .basic b => do .ok (.basic (← b.params_update p false))

/-- `operation_dagger()`; `none` is Python's None (`ring_of_cnot2` and `BasicEntangleLayer`,
qlayers.py:945-946, 1006-1007). -/
def operation_dagger (o : Op) : Py (Option Op) :=
  match o with
  | .gate g => do .ok (some (.gate (← g.operation_dagger)))
  | .single l => do .ok (some (.single (← l.operation_dagger)))
  | .ring r => do .ok ((← r.operation_dagger).map .ring)
  | .basic _ => .ok none

end Op

/-! ## Circuit -/

/-- A `Circuit` object.  `cir_params` is the dictionary from positions; the outer `none` is an absent
key, the inner one the value None. -/
structure Circuit where
  nqubits : ℕ
  gate : List Op
  cir_params : ℕ → Option (Option PV)
  cir_num_params : ℕ

namespace Circuit

/-- qcircuit.py:24-29 `Circuit(N)`. -/
def new (N : ℕ) : Circuit := ⟨N, [], fun _ => none, 0⟩

/-- qcircuit.py:33-40 `state_init`. -/
def state_init (c : Circuit) : Tensor ℂ :=
  Tensor.ofFn [2 ^ c.nqubits] (fun idx => if idx.getD 0 0 = 0 then 1 else 0)

/-- qcircuit.py:42-48 `add`. -/
def add (c : Circuit) (o : Op) : Circuit :=
  let gate := c.gate ++ [o]
  if o.numParams ≠ 0 then
    { c with
      gate := gate
      cir_num_params := c.cir_num_params + o.numParams
      cir_params := Function.update c.cir_params (gate.length - 1) (some (some o.params)) }
  else
    { c with
      gate := gate
      cir_params := Function.update c.cir_params (gate.length - 1) (some none) }

/-- qcircuit.py:51-62 `U`. -/
def U (c : Circuit) (leftToRight : Bool := true) : Py (Tensor ℂ) :=
  c.gate.foldlM (fun acc o => do
    let u ← o.U_expand
    if leftToRight then u.matmul acc else acc.matmul u) (Tensor.eye (2 ^ c.nqubits))

/-- qcircuit.py:64-77 `TN_evolution`. -/
def TN_evolution (svd : SVDOracle) (c : Circuit) (mps : List (Tensor ℂ)) :
    TNM (List (Tensor ℂ)) := do
  (raiseIf (mps.length ≠ c.nqubits) .valueError : Py _)
  c.gate.foldlM (fun mps o =>
    if o.supportTN = true then o.TN_operation svd mps
    else TNM.lift (.error .valueError)) mps

/-- qcircuit.py:82-96 `TN_contract_evolution`. -/
def TN_contract_evolution (c : Circuit) (T : Tensor ℂ) (batch : Bool) : Py (Tensor ℂ) := do
  if batch = false then pyAssert (T.rank = c.nqubits)
  else pyAssert (T.rank = c.nqubits + 1)
  c.gate.foldlM (fun T o =>
    if o.supportTN = true then o.TN_contract T batch else .error .valueError) T

/-- qcircuit.py:130-137 `TN_check`. -/
def TN_check (c : Circuit) : Bool := c.gate.all (fun o => o.supportTN)

/-- qcircuit.py:111 = 114: `(psi_f.view(1,-1).conj() @ M @ psi_f.view(-1,1)).real.squeeze()`, for a
matrix `M` a single number. -/
def quadForm (psi M : Tensor ℂ) : Py ℝ := do
  let l ← (← psi.view [1, -1]).conj.matmul M
  let r ← l.matmul (← psi.view [-1, 1])
  .ok (r.squeeze.get []).re

/-- qcircuit.py:101-115 `cir_expectation`. -/
def cir_expectation (svd : SVDOracle) (c : Circuit) (init M : Tensor ℂ) (tn : Bool := true) :
    TNM ℝ := do
  let i0 ← (pyGet init.shape 0 : Py _)
  (raiseIf (i0 ≠ 1) .valueError : Py _)
  let i1 ← (pyGet init.shape 1 : Py _)
  (raiseIf (i1 ≠ 2 ^ c.nqubits) .valueError : Py _)
  let m0 ← (pyGet M.shape 0 : Py _)
  let m1 ← (pyGet M.shape 1 : Py _)
  (raiseIf (m0 ≠ m1) .valueError : Py _)
  if c.TN_check = true ∧ tn = true then
    let v ← (init.view [1, -1] : Py _)
    let mps ← StateVec2MPS svd v c.nqubits
    let mps ← c.TN_evolution svd mps
    let psi ← (MPS2StateVec mps : Py _)
    TNM.lift (quadForm psi M)
  else
    let u ← (c.U : Py _)
    let v ← (init.view [-1, 1] : Py _)
    let psi ← (u.matmul v : Py _)
    TNM.lift (quadForm psi M)

/-- qcircuit.py:153-154 `clear`: only the gate list is reset. -/
def clear (c : Circuit) : Circuit := { c with gate := [] }

/-- The builder methods qcircuit.py:158-254: construct the operation for `nqubits` and `add` it. -/
def addBuilt (c : Circuit) (mk : ℤ → Py Op) : Py Circuit := do
  .ok (c.add (← mk c.nqubits))

end Circuit

/-! ## parameter_shift -/

/-- Computations on the circuit held by a `parameter_shift` object: they may raise, call the SVD and
change the circuit; changes made before an exception persist. -/
def CM (α : Type) : Type :=
  Circuit × List (Tensor ℂ) → Py α × (Circuit × List (Tensor ℂ))

namespace CM
/-- return -/
def pure' {α : Type} (a : α) : CM α := fun s => (.ok a, s)
/-- sequencing -/
def bind' {α β : Type} (x : CM α) (f : α → CM β) : CM β := fun s =>
  match x s with
  | (.ok a, s') => f a s'
  | (.error e, s') => (.error e, s')
instance : Monad CM where
  pure := pure'
  bind := bind'
/-- a computation without effect on the circuit -/
def lift {α : Type} (x : Py α) : CM α := fun s => (x, s)
/-- a computation that reads the circuit and calls the SVD -/
def read {α : Type} (f : Circuit → TNM α) : CM α := fun s =>
  let r := f s.1 s.2
  (r.1, (s.1, r.2))
/-- `self.cir.gate[idx].params_update(p)`; if it raises the circuit is left as it was (Python may
have stored `p` already, a simplification). -/
def update (idx : ℕ) (p : List ℝ) : CM Unit := fun s =>
  match s.1.gate[idx]? with
  | none => (.error .indexError, s)
  | some o => match o.params_update p with
    | .error e => (.error e, s)
    | .ok o' => (.ok (), ({ s.1 with gate := s.1.gate.set idx o' }, s.2))
end CM

/-- A `parameter_shift` object without its circuit (qcircuit.py:272-275). -/
structure PShift where
  init_state : Tensor ℂ
  M : Tensor ℂ

namespace PShift

/-- `copy.deepcopy(self.cir.cir_params[idx])` and the test `len(p.shape)` of qcircuit.py:287-288,
384-385: KeyError for an absent key, AttributeError for None and for a Python list. -/
def readParams (c : Circuit) (idx : ℕ) : Py PV :=
  match c.cir_params idx with
  | none => .error .keyError
  | some none => .error .attributeError
  | some (some (.pylist _)) => .error .attributeError
  | some (some p) => .ok p

/-- One call of `self.cir.cir_expectation(self.init_state, self.M)`. -/
def expec (svd : SVDOracle) (ps : PShift) : CM ℝ :=
  CM.read (fun c => c.cir_expectation svd ps.init_state ps.M)

/-- qcircuit.py:289-296: the gradient of a single parameter. -/
def gradScalar (svd : SVDOracle) (ps : PShift) (idx : ℕ) (x : ℝ) : CM ℝ := do
  CM.update idx [x + 0.5 * Real.pi]
  let e1 ← ps.expec svd
  CM.update idx [x - 0.5 * Real.pi]
  let e2 ← ps.expec svd
  CM.update idx [x]
  pure (0.5 * (e1 - e2))

/-- `p[i] = p[i] + d` -/
def bump (p : List ℝ) (i : ℕ) (d : ℝ) : List ℝ := p.modify i (· + d)

/-- qcircuit.py:300-311: the loop over a one-dimensional parameter tensor; `p` is shifted and
restored in place. -/
def gradVec (svd : SVDOracle) (ps : PShift) (idx : ℕ) : List ℕ → List ℝ → CM (List ℝ)
  | [], _ => pure []
  | i :: is, p => do
    let p1 := bump p i (0.5 * Real.pi)
    CM.update idx p1
    let e1 ← ps.expec svd
    let p2 := bump p1 i (-(1.0 * Real.pi))
    CM.update idx p2
    let e2 ← ps.expec svd
    let p3 := bump p2 i (0.5 * Real.pi)
    CM.update idx p3
    let rest ← gradVec svd ps idx is p3
    pure (0.5 * (e1 - e2) :: rest)

/-- qcircuit.py:281-313: the gradient entries of the operation at position `idx`. -/
def gradAt (svd : SVDOracle) (ps : PShift) (idx : ℕ) : CM (List ℝ) := do
  let o ← CM.read (fun c => match c.gate[idx]? with
    | some o => TNM.lift (.ok o)
    | none => TNM.lift (.error .indexError))
  if o.numParams = 0 then pure []
  else do
    let p ← CM.read (fun c => TNM.lift (readParams c idx))
    match p with
    | .scalar x => do pure [← ps.gradScalar svd idx x]
    | .vec p => ps.gradVec svd idx (List.range p.length) p
    | .pylist _ => CM.lift (.error .attributeError)

/-- The loop qcircuit.py:281-313 over the listed positions. -/
def gradLoop (svd : SVDOracle) (ps : PShift) : List ℕ → CM (List ℝ)
  | [] => pure []
  | idx :: rest => do
    let g ← ps.gradAt svd idx
    let gs ← gradLoop svd ps rest
    pure (g ++ gs)

/-- qcircuit.py:279-316 `cal_params_grad`. -/
def cal_params_grad (svd : SVDOracle) (ps : PShift) : CM (List ℝ) := do
  let n ← CM.read (fun c => TNM.lift (.ok c.gate.length))
  let grads ← ps.gradLoop svd (List.range n)
  CM.read (fun c => TNM.lift (pyAssert (grads.length = c.cir_num_params)))
  pure grads

/-- The dictionary of saved states. -/
abbrev Saved := ℕ → Option (List (Tensor ℂ))

/-- qcircuit.py:334-343: forward evolution over the operations from position `idx` on. -/
def saveForward (svd : SVDOracle) (gates : List Op) : ℕ → List Op → List (Tensor ℂ) → Saved →
    TNM (List (Tensor ℂ) × Saved)
  | _, [], mps, d => pure (mps, d)
  | idx, o :: os, mps, d =>
    if o.supportTN = true then do
      let mps ← o.TN_operation svd mps
      let d := if idx ≠ gates.length - 1 ∧ (∃ nxt, gates[idx + 1]? = some nxt ∧ nxt.numParams ≠ 0)
        then Function.update d idx (some mps) else d
      saveForward svd gates (idx + 1) os mps d
    else TNM.lift (.error .valueError)

/-- qcircuit.py:355-366: backward evolution; the first argument counts down, `idx = k` for
argument `k + 1`.  `operation_dagger()` returning None makes `oper.supportTN` an AttributeError. -/
def saveBackward (svd : SVDOracle) (gates : List Op) : ℕ → List (Tensor ℂ) → Saved →
    TNM (List (Tensor ℂ) × Saved)
  | 0, mps, d => pure (mps, d)
  | idx + 1, mps, d => do
    let o ← (pyGet gates (idx : ℤ) : Py _)
    let od ← (o.operation_dagger : Py _)
    match od with
    | none => TNM.lift (.error .attributeError)
    | some o' =>
      if o'.supportTN = true then do
        let mps ← o'.TN_operation svd mps
        let d := if idx ≠ 0 ∧ (∃ prv, gates[idx - 1]? = some prv ∧ prv.numParams ≠ 0)
          then Function.update d (2 * gates.length - idx - 1) (some mps) else d
        saveBackward svd gates idx mps d
      else TNM.lift (.error .valueError)

/-- qcircuit.py:320-371 `save_mid_MPS`.  `cir.gate[num_gates-1]` of an empty circuit raises
IndexError. -/
def save_mid_MPS (svd : SVDOracle) (ps : PShift) (c : Circuit) (mOper : Op) :
    TNM (Saved × Tensor ℂ) := do
  let mps ← StateVec2MPS svd ps.init_state c.nqubits
  (raiseIf (mps.length ≠ c.nqubits) .valueError : Py _)
  let (mps, d) ← saveForward svd c.gate 0 c.gate mps (fun _ => none)
  let svf ← (MPS2StateVec mps : Py _)
  let mps ← mOper.TN_operation svd mps
  let last ← (pyGet c.gate ((c.gate.length : ℤ) - 1) : Py _)
  let d := if last.numParams ≠ 0 then Function.update d (c.gate.length - 1) (some mps) else d
  let (_, d) ← saveBackward svd c.gate c.gate.length mps d
  pure (d, svf)

/-- `save_dict[k]`; a negative key is never present. -/
def savedGet (d : Saved) (k : ℤ) : Py (List (Tensor ℂ)) :=
  if k < 0 then .error .keyError else
  match d k.toNat with
  | some m => .ok m
  | none => .error .keyError

/-- qcircuit.py:390-402 = 414-425: the overlap with the saved state after the shifted operation. -/
def overlap (svd : SVDOracle) (initMPS : List (Tensor ℂ)) (d : Saved) (idx : ℕ) : CM ℝ :=
  CM.read (fun c => do
    let o ← (pyGet c.gate (idx : ℤ) : Py _)
    let mps ← (if idx = 0 then .ok initMPS else savedGet d ((idx : ℤ) - 1) : Py _)
    let mps ← o.TN_operation svd mps
    let psi1 ← (MPS2StateVec mps : Py _)
    let m2 ← (savedGet d (2 * (c.gate.length : ℤ) - (idx : ℤ) - 2) : Py _)
    let psi2 ← (MPS2StateVec m2 : Py _)
    let v ← (psi1.view [-1, 1] : Py _)
    let t ← (psi2.conj.matmul v : Py _)
    TNM.lift (.ok (-1.0 * (t.squeeze.get []).re)))

/-- qcircuit.py:386-407: one scalar parameter. -/
def grad2Scalar (svd : SVDOracle) (initMPS : List (Tensor ℂ)) (d : Saved) (idx : ℕ) (x : ℝ) :
    CM ℝ := do
  CM.update idx [x - Real.pi]
  let e ← overlap svd initMPS d idx
  CM.update idx [x - Real.pi + Real.pi]
  pure e

/-- qcircuit.py:409-431: a one-dimensional parameter tensor. -/
def grad2Vec (svd : SVDOracle) (initMPS : List (Tensor ℂ)) (d : Saved) (idx : ℕ) :
    List ℕ → List ℝ → CM (List ℝ)
  | [], _ => pure []
  | i :: is, p => do
    let p1 := bump p i (-Real.pi)
    CM.update idx p1
    let e ← overlap svd initMPS d idx
    let p2 := bump p1 i Real.pi
    CM.update idx p2
    let rest ← grad2Vec svd initMPS d idx is p2
    pure (e :: rest)

/-- qcircuit.py:380-433: the entries of the operation at position `idx`. -/
def grad2At (svd : SVDOracle) (initMPS : List (Tensor ℂ)) (d : Saved) (idx : ℕ) :
    CM (List ℝ) := do
  let o ← CM.read (fun c => match c.gate[idx]? with
    | some o => TNM.lift (.ok o)
    | none => TNM.lift (.error .indexError))
  if o.numParams = 0 then pure []
  else do
    let p ← CM.read (fun c => TNM.lift (readParams c idx))
    match p with
    | .scalar x => do pure [← grad2Scalar svd initMPS d idx x]
    | .vec p => grad2Vec svd initMPS d idx (List.range p.length) p
    | .pylist _ => CM.lift (.error .attributeError)

/-- The loop qcircuit.py:380-433. -/
def grad2Loop (svd : SVDOracle) (initMPS : List (Tensor ℂ)) (d : Saved) :
    List ℕ → CM (List ℝ)
  | [] => pure []
  | idx :: rest => do
    let g ← grad2At svd initMPS d idx
    let gs ← grad2Loop svd initMPS d rest
    pure (g ++ gs)

/-- qcircuit.py:375-436 `cal_params_grad2`. -/
def cal_params_grad2 (svd : SVDOracle) (ps : PShift) (d : Saved) : CM (List ℝ) := do
  let n ← CM.read (fun c => TNM.lift (.ok c.gate.length))
  let initMPS ← CM.read (fun c => StateVec2MPS svd ps.init_state c.nqubits)
  let grads ← grad2Loop svd initMPS d (List.range n)
  CM.read (fun c => TNM.lift (pyAssert (grads.length = c.cir_num_params)))
  pure grads

end PShift

end

end QTN
