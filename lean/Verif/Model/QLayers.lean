import Verif.Model.QOperator

/-!
# deepquantum/layers/qlayers.py

A layer is a record of the attributes that matter (`label` is in `Model/Info.lean`).  Parameters are exact
reals; the conversion of a Python list of parameters to a tensor is the identity here.
-/

namespace QTN

open Complex (I)

noncomputable section

/-! ## Single-qubit layers -/

/-- The classes derived from `SingleGateLayer`. -/
inductive LayerCls
  | xyz | zyx | yzy | xzx | xz | zx | h
  deriving DecidableEq

/-- Number of parameters per wire (the factors 3 and 2 of the constructors' checks). -/
def LayerCls.arity : LayerCls → ℕ
  | .xyz | .zyx | .yzy | .xzx => 3
  | .xz | .zx => 2
  | .h => 0

/-- A single-qubit layer object. -/
structure SLayer where
  cls : LayerCls
  nqubits : ℤ
  wires : List ℤ
  params : List ℝ

/-- The constructors qlayers.py:116-131 (XYZ), 189-204 (ZYX), 265-280 (YZY), 376-391 (XZX),
455-470 (XZ), 527-542 (ZX), 595-604 (H; no parameters). -/
def mkSLayer (cls : LayerCls) (N : ℤ) (wires : List ℤ) (params : List ℝ) : Py SLayer := do
  raiseIf (cls.arity * wires.length ≠ params.length) .valueError
  raiseIf ((wires.length : ℤ) > N) .valueError
  .ok ⟨cls, N, wires, params⟩

/-- `c*I - 1j*s*P` with `c = cos(0.5*θ)`, `s = sin(0.5*θ)`, e.g. qlayers.py:149-151. -/
def layerRot (P : Tensor ℂ) (θ : ℝ) : Tensor ℂ :=
  Tensor.subT (Tensor.smul ((Real.cos (0.5 * θ) : ℝ) : ℂ) (Tensor.eye 2))
    (Tensor.smul (I * ((Real.sin (0.5 * θ) : ℝ) : ℂ)) P)

namespace SingleLayer

/-- The loop of every `_cal_single_gates`: a list of `nqubits` identities in which the entry of the
`i`-th wire is replaced by `wireMat i`; for a repeated wire the last assignment wins. -/
def calGates (nqubits : ℤ) (wires : List ℤ) (wireMat : ℕ → Py (Tensor ℂ)) : Py (List (Tensor ℂ)) :=
  (wires.zipIdx).foldlM (fun lst (wi : ℤ × ℕ) => do
    pySet lst wi.1 (← wireMat wi.2)) (pyRep (Tensor.eye 2) nqubits)

/-- qlayers.py:37-48 `SingleGateLayer.TN_operation`; `gates` is the result of the subclass's
`_cal_single_gates`. -/
def TN_operation (gates : Py (List (Tensor ℂ))) (wires : List ℤ) (mps : List (Tensor ℂ)) :
    Py (List (Tensor ℂ)) := do
  let lst ← gates
  wires.foldlM (fun mps q => do
    pySet mps q (← Tensor.einsum_ab_bcd (← pyGet lst q) (← pyGet mps q))) mps

/-- qlayers.py:50-69 `SingleGateLayer.TN_contract`. -/
def TN_contract (gates : Py (List (Tensor ℂ))) (nqubits : ℤ) (wires : List ℤ) (T : Tensor ℂ)
    (batch : Bool) : Py (Tensor ℂ) := do
  let lst ← gates
  if batch = false then
    wires.foldlM (fun T q => do Gate.contract1 (← pyGet lst q) T nqubits q) T
  else
    wires.foldlM (fun T q => do
      Gate.contract1 (← pyGet lst q) T (nqubits + 1) (q + 1)) T

end SingleLayer

namespace SLayer

/-- `num_params` (lines 130, 203, 279, 390, 469, 541, 603). -/
def numParams (l : SLayer) : ℕ := l.params.length

/-- Three-parameter product `m3 @ m2 @ m1`, `mk` from parameter `3*i+k-1`. -/
def prod3 (p : List ℝ) (i : ℕ) (P1 P2 P3 : Tensor ℂ) : Py (Tensor ℂ) := do
  let m1 := layerRot P1 (← pyGet p ((3 * i + 0 : ℕ) : ℤ))
  let m2 := layerRot P2 (← pyGet p ((3 * i + 1 : ℕ) : ℤ))
  let m3 := layerRot P3 (← pyGet p ((3 * i + 2 : ℕ) : ℤ))
  (← m3.matmul m2).matmul m1

/-- Two-parameter product `m2 @ m1`. -/
def prod2 (p : List ℝ) (i : ℕ) (P1 P2 : Tensor ℂ) : Py (Tensor ℂ) := do
  let m1 := layerRot P1 (← pyGet p ((2 * i + 0 : ℕ) : ℤ))
  let m2 := layerRot P2 (← pyGet p ((2 * i + 1 : ℕ) : ℤ))
  m2.matmul m1

/-- The matrix assigned to the `i`-th wire: qlayers.py:144-161 (XYZ), 217-234 (ZYX), 299-314 (YZY),
404-420 (XZX), 480-489 (XZ), 552-563 (ZX), 608-612 (H). -/
def wireMat (l : SLayer) (i : ℕ) : Py (Tensor ℂ) :=
  match l.cls with
  | .xyz => prod3 l.params i pauliXMat pauliYMat pauliZMat
  | .zyx => prod3 l.params i pauliZMat pauliYMat pauliXMat
  | .yzy => prod3 l.params i pauliYMat pauliZMat pauliYMat
  | .xzx => prod3 l.params i pauliXMat pauliZMat pauliXMat
  | .xz => prod2 l.params i pauliXMat pauliZMat
  | .zx => prod2 l.params i pauliZMat pauliXMat
  | .h => .ok hadamardMat

/-- `_cal_single_gates` (line ranges as for `wireMat`): the list of 2×2 matrices, identity on the
wires not listed. -/
def calSingleGates (l : SLayer) : Py (List (Tensor ℂ)) :=
  SingleLayer.calGates l.nqubits l.wires l.wireMat

/-- `U_expand`: qlayers.py:165-167 and the same lines of the other classes. -/
def U_expand (l : SLayer) : Py (Tensor ℂ) := do multi_kron (← l.calSingleGates)

/-- `TN_operation`, inherited from `SingleGateLayer`. -/
def TN_operation (l : SLayer) (mps : List (Tensor ℂ)) : Py (List (Tensor ℂ)) :=
  SingleLayer.TN_operation l.calSingleGates l.wires mps

/-- `TN_contract`, inherited from `SingleGateLayer`. -/
def TN_contract (l : SLayer) (T : Tensor ℂ) (batch : Bool) : Py (Tensor ℂ) :=
  SingleLayer.TN_contract l.calSingleGates l.nqubits l.wires T batch

/-- Exchange of entries `a` and `b` of a parameter list (qlayers.py:172-174). -/
def swapEntries (p : List ℝ) (a b : ℕ) : Py (List ℝ) := do
  let temp ← pyGet p (a : ℤ)
  let p ← pySet p (a : ℤ) (← pyGet p (b : ℤ))
  pySet p (b : ℤ) temp

/-- The parameter tensor of the adjoint layer: `-1*params` with entries `k*i` and `k*i+k-1`
exchanged for every wire (qlayers.py:170-174 and the same lines of the other classes). -/
def daggerParams (l : SLayer) (k : ℕ) : Py (List ℝ) :=
  (List.range l.wires.length).foldlM (fun p i => swapEntries p (k * i) (k * i + (k - 1)))
    (l.params.map (fun x => -1 * x))

/-- `operation_dagger`: qlayers.py:169-175 (XYZ → ZYX), 242-248 (ZYX → XYZ), 348-354 (YZY),
428-434 (XZX), 497-503 (XZ → ZX), 571-577 (ZX → XZ), 619-620 (H → self). -/
def operation_dagger (l : SLayer) : Py SLayer :=
  match l.cls with
  | .xyz => do mkSLayer .zyx l.nqubits l.wires (← l.daggerParams 3)
  | .zyx => do mkSLayer .xyz l.nqubits l.wires (← l.daggerParams 3)
  | .yzy => do mkSLayer .yzy l.nqubits l.wires (← l.daggerParams 3)
  | .xzx => do mkSLayer .xzx l.nqubits l.wires (← l.daggerParams 3)
  | .xz => do mkSLayer .zx l.nqubits l.wires (← l.daggerParams 2)
  | .zx => do mkSLayer .xz l.nqubits l.wires (← l.daggerParams 2)
  | .h => .ok l

/-- `params_update`: qlayers.py:181-183 and the same lines of the other classes: no length check; H
ignores the call (626-627). -/
def params_update (l : SLayer) (p : List ℝ) : SLayer :=
  match l.cls with
  | .h => l
  | _ => { l with params := p }

end SLayer

/-! ## CNOT rings -/

/-- `ring_of_cnot`, `ring_of_cnot_dagger`, `ring_of_cnot2`. -/
inductive RingKind
  | ring | dagger | ring2
  deriving DecidableEq

/-- A CNOT ring object. -/
structure Ring where
  kind : RingKind
  nqubits : ℤ
  wires : List ℤ

/-- The constructors qlayers.py:641-653, 794-806, 901-912. -/
def mkRing (k : RingKind) (N : ℤ) (wires : List ℤ) : Py Ring := do
  raiseIf ((wires.length : ℤ) > N) .valueError
  raiseIf (wires.length < 2) .valueError
  .ok ⟨k, N, wires⟩

/-- `cnot(N,[a,b]).U_expand()` -/
def cnotU (N a b : ℤ) : Py (Tensor ℂ) := (mkCnot N (.list [a, b])).U_expand

namespace Ring

/-- `supportTN`: lines 653, 806 True; 912 False. -/
def supportTN (r : Ring) : Bool :=
  match r.kind with
  | .ring | .dagger => true
  | .ring2 => false

/-- qlayers.py:655-666 (`ring_of_cnot`), 808-821 (`ring_of_cnot_dagger`: factors on the other
side). -/
def fusion (k : RingKind) (N : ℤ) : Py (Tensor ℂ) := do
  raiseIf (N < 3) .valueError
  let rst ← cnotU 2 0 1
  (pyRange2 1 N).foldlM (fun rst i => do
    let cur ← cnotU (min (2 + i) N) i ((i + 1) % N)
    match k with
    | .dagger =>
      if i = N - 1 then rst.matmul cur else (rst.kron (Tensor.eye 2)).matmul cur
    | _ => if i = N - 1 then cur.matmul rst else cur.matmul (rst.kron (Tensor.eye 2))) rst

/-- qlayers.py:915-926 (`ring_of_cnot2`). -/
def fusion2 (N : ℤ) : Py (Tensor ℂ) := do
  raiseIf (N < 3) .valueError
  let rst ← cnotU 3 0 2
  (pyRange2 1 N).foldlM (fun rst i => do
    let cur ← cnotU (min (3 + i) N) i ((i + 2) % N)
    if i = N - 2 ∨ i = N - 1 then cur.matmul rst
    else cur.matmul (rst.kron (Tensor.eye 2))) rst

/-- The generic loop of `U_expand`: qlayers.py:676-681, 831-833, 938-941; `d` is the offset of the
target. -/
def generic (r : Ring) (d : ℕ) : Py (Tensor ℂ) :=
  (List.range r.wires.length).foldlM (fun rst (i : ℕ) => do
    let c ← pyGet r.wires (i : ℤ)
    let t ← pyGet r.wires (((i + d) % r.wires.length : ℕ) : ℤ)
    let u ← cnotU r.nqubits c t
    match r.kind with
    | .dagger => rst.matmul u
    | _ => u.matmul rst) (Tensor.eye (2 ^ r.nqubits.toNat))

/-- `U_expand`: qlayers.py:668-683, 823-835, 929-943. -/
def U_expand (r : Ring) : Py (Tensor ℂ) := do
  if r.wires.length = 2 then
    cnotU r.nqubits (← pyGet r.wires 0) (← pyGet r.wires 1)
  else if r.wires = pyRange r.nqubits then
    match r.kind with
    | .ring2 => fusion2 r.nqubits
    | k => fusion k r.nqubits
  else
    match r.kind with
    | .ring2 => r.generic 2
    | _ => r.generic 1

/-- `cnot(N,[a,b]).TN_operation(MPS)` -/
def cnotCall (svd : SVDOracle) (N a b : ℤ) (mps : List (Tensor ℂ)) : TNM (List (Tensor ℂ)) :=
  (mkCnot N (.list [a, b])).TN_operation svd mps

/-- `SWAP(N,[a,b]).TN_operation(MPS)` -/
def swapCall' (svd : SVDOracle) (N a b : ℤ) (mps : List (Tensor ℂ)) : TNM (List (Tensor ℂ)) :=
  (mkSwap N (.list [a, b])).TN_operation svd mps

/-- qlayers.py:709-744 = 848-854: the last CNOT of the ring through a chain of SWAPs. -/
def wrapCnot (svd : SVDOracle) (N : ℤ) (L : ℤ) (mps : List (Tensor ℂ)) :
    TNM (List (Tensor ℂ)) := do
  let mps ← (pyRange (L - 1)).foldlM (fun mps i =>
    if i ≠ L - 2 then swapCall' svd N i (i + 1) mps else cnotCall svd N (i + 1) i mps) mps
  (pyRangeDown (L - 3) (-1)).foldlM (fun mps i => swapCall' svd N i (i + 1) mps) mps

/-- `TN_operation`: qlayers.py:685-744 (`ring_of_cnot`), 837-859 (`ring_of_cnot_dagger`);
`ring_of_cnot2` has no such method (AttributeError). -/
def TN_operation (svd : SVDOracle) (r : Ring) (mps : List (Tensor ℂ)) :
    TNM (List (Tensor ℂ)) := do
  let L : ℤ := r.wires.length
  match r.kind with
  | .ring =>
    (raiseIf (r.wires ≠ pyRange r.nqubits) .valueError : Py _)
    let mps ← (pyRange (L - 1)).foldlM (fun mps i => cnotCall svd r.nqubits i (i + 1) mps) mps
    if r.nqubits = 2 then pure mps
    else wrapCnot svd r.nqubits L mps
  | .dagger =>
    (raiseIf (r.wires ≠ pyRange r.nqubits) .valueError : Py _)
    if r.nqubits = 2 then cnotCall svd 2 0 1 mps
    else
      let mps ← wrapCnot svd r.nqubits L mps
      (pyRangeDown (L - 2) (-1)).foldlM (fun mps i => cnotCall svd r.nqubits i (i + 1) mps) mps
  | .ring2 => TNM.lift (.error .attributeError)

/-- `cnot(N,[a,b]).TN_contract(T, batch)` -/
def cnotContract (N a b : ℤ) (T : Tensor ℂ) (batch : Bool) : Py (Tensor ℂ) :=
  (mkCnot N (.list [a, b])).TN_contract T batch

/-- `TN_contract`: qlayers.py:746-764, 862-875; `ring_of_cnot2` has no such method. -/
def TN_contract (r : Ring) (T : Tensor ℂ) (batch : Bool) : Py (Tensor ℂ) := do
  let L := r.wires.length
  let step (T : Tensor ℂ) (i : ℕ) : Py (Tensor ℂ) := do
    let c ← pyGet r.wires (i : ℤ)
    let t ← pyGet r.wires (((i + 1) % L : ℕ) : ℤ)
    cnotContract r.nqubits c t T batch
  match r.kind with
  | .ring =>
    raiseIf (r.wires ≠ pyRange r.nqubits) .valueError
    if r.nqubits = 2 then
      cnotContract 2 (← pyGet r.wires 0) (← pyGet r.wires 1) T batch
    else (List.range L).foldlM step T
  | .dagger =>
    raiseIf (r.wires ≠ pyRange r.nqubits) .valueError
    if r.nqubits = 2 then
      cnotContract 2 (← pyGet r.wires 0) (← pyGet r.wires 1) T batch
    else (List.range L).reverse.foldlM step T
  | .ring2 => .error .attributeError

/-- `operation_dagger`: qlayers.py:771-772, 878-879; `ring_of_cnot2` (945-946) returns None. -/
def operation_dagger (r : Ring) : Py (Option Ring) :=
  match r.kind with
  | .ring => do .ok (some (← mkRing .dagger r.nqubits r.wires))
  | .dagger => do .ok (some (← mkRing .ring r.nqubits r.wires))
  | .ring2 => .ok none

end Ring

/-! ## BasicEntangleLayer -/

/-- A `BasicEntangleLayer` object.  `pyList` records whether `params` is still the Python list the
user passed (this class does not convert it, and `parameter_shift` needs a tensor). -/
structure Basic where
  nqubits : ℤ
  wires : List ℤ
  params : List ℝ
  pyList : Bool
  reps : ℤ
  part1 : List SLayer
  part2 : List Ring

/-- qlayers.py:992-995 = 1017-1021: the two part lists, from slices of `params`. -/
def basicParts (N : ℤ) (wires : List ℤ) (params : List ℝ) (reps : ℤ) :
    Py (List SLayer × List Ring) := do
  let p1 ← (List.range reps.toNat).mapM (fun i =>
    mkSLayer .yzy N wires ((params.drop (i * (3 * wires.length))).take (3 * wires.length)))
  let p2 ← (List.range reps.toNat).mapM (fun _ => mkRing .ring N wires)
  .ok (p1, p2)

/-- qlayers.py:974-997 (`repeat` is called `reps`). -/
def mkBasic (N : ℤ) (wires : List ℤ) (params : List ℝ) (pyList : Bool) (reps : ℤ) : Py Basic := do
  raiseIf (3 * (wires.length : ℤ) * reps ≠ params.length) .valueError
  raiseIf ((wires.length : ℤ) > N) .valueError
  raiseIf (wires.length < 2) .valueError
  raiseIf (reps < 1) .valueError
  let (p1, p2) ← basicParts N wires params reps
  .ok ⟨N, wires, params, pyList, reps, p1, p2⟩

namespace Basic

/-- `num_params` (line 987, 1013). -/
def numParams (b : Basic) : ℕ := b.params.length

/-- qlayers.py:999-1005 `U_expand`. -/
def U_expand (b : Basic) : Py (Tensor ℂ) := do
  let cnotRing ← (← pyGet b.part2 0).U_expand
  (List.range b.reps.toNat).foldlM (fun rst (i : ℕ) => do
    let u ← (← pyGet b.part1 (i : ℤ)).U_expand
    (← cnotRing.matmul u).matmul rst) (Tensor.eye (2 ^ b.nqubits.toNat))

/-- qlayers.py:1014-1021 `params_update`: the slices must have the right length (YZYLayer's
constructor checks); surplus parameters are ignored.  On an exception the Python object is left
with empty part lists; here the call has no result. -/
def params_update (b : Basic) (p : List ℝ) (pyList : Bool) : Py Basic := do
  let (p1, p2) ← basicParts b.nqubits b.wires p b.reps
  .ok { b with params := p, pyList := pyList, part1 := p1, part2 := p2 }

end Basic

end

end QTN
