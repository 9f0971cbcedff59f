import Verif.Model.QTensorNetwork
import Mathlib.Analysis.SpecialFunctions.Trigonometric.Basic

/-!
# deepquantum/gates/qoperator.py

A gate object is a record of its attributes that matter (`label`, `num_wires`, `self_inverse`,
`diagonal` are not modelled).  Parameters are exact reals; a scalar parameter is a one-element list.
`torch.tensor(list)` and `+ torch.tensor(0.0)` conversions are identities here.
-/

namespace QTN

open Complex (I)

noncomputable section

/-- The `wires` attribute: an integer (single-qubit gates, or the default `-1`) or a list. -/
inductive Wires
  | int (i : ℤ)
  | list (l : List ℤ)
  deriving DecidableEq

/-- Using `wires` where the source compares it with integers: a list raises TypeError. -/
def Wires.asInt : Wires → Py ℤ
  | .int i => .ok i
  | .list _ => .error .typeError

/-- Using `wires` where the source subscripts it: an integer raises TypeError. -/
def Wires.asList : Wires → Py (List ℤ)
  | .int _ => .error .typeError
  | .list l => .ok l

/-- The gate classes of qoperator.py. -/
inductive GateCls
  | hadamard | pauliX | pauliY | pauliZ | rx | ry | rz | u1 | u3
  | rxx | ryy | rzz | cnot | cz | cphase | cu3 | swap | toffoli | mcnot
  deriving DecidableEq

/-- A gate object. `uMatrix` is used by `cu3` only. -/
structure Gate where
  cls : GateCls
  nqubits : ℤ
  wires : Wires
  params : List ℝ
  matrix : Tensor ℂ
  uMatrix : Tensor ℂ

/-! ## Static helpers of `Operator` and `Operation` -/

/-- qoperator.py:16-26 `Operator.gate_expand_1toN`. -/
def gate_expand_1toN (gate : Tensor ℂ) (N index : ℤ) : Py (Tensor ℂ) := do
  raiseIf (N < 1) .valueError
  raiseIf (index < 0 ∨ index > N - 1) .valueError
  let lst1 := pyRep (Tensor.eye 2) N
  let lst1 ← pySet lst1 index gate
  multi_kron lst1

/-- `torch.tensor([[1,0],[0,0]])` -/
def zero_zero : Tensor ℂ := Tensor.ofRows [[1, 0], [0, 0]]
/-- `torch.tensor([[0,0],[0,1]])` -/
def one_one : Tensor ℂ := Tensor.ofRows [[0, 0], [0, 1]]
/-- `torch.tensor([[0,1],[0,0]])` -/
def zero_one : Tensor ℂ := Tensor.ofRows [[0, 1], [0, 0]]
/-- `torch.tensor([[0,0],[1,0]])` -/
def one_zero : Tensor ℂ := Tensor.ofRows [[0, 0], [1, 0]]

/-- qoperator.py:33-59 `Operation.two_qubit_control_gate`. -/
def two_qubit_control_gate (U : Tensor ℂ) (N control target : ℤ) : Py (Tensor ℂ) := do
  raiseIf (N < 1) .valueError
  raiseIf (max control target > N - 1) .valueError
  raiseIf (min control target < 0) .valueError
  raiseIf (control = target) .valueError
  let lst1 ← pySet (pyRep (Tensor.eye 2) N) control zero_zero
  let lst2 ← pySet (pyRep (Tensor.eye 2) N) control one_one
  let lst2 ← pySet lst2 target U
  (← multi_kron lst1).add (← multi_kron lst2)

/-- Python `max(l)`: ValueError on an empty list. -/
def pyMax : List ℤ → Py ℤ
  | [] => .error .valueError
  | x :: xs => .ok (xs.foldl max x)

/-- Python `min(l)`: ValueError on an empty list. -/
def pyMin : List ℤ → Py ℤ
  | [] => .error .valueError
  | x :: xs => .ok (xs.foldl min x)

/-- qoperator.py:64-96 `Operation.multi_control_gate`. -/
def multi_control_gate (U : Tensor ℂ) (N : ℤ) (controls : List ℤ) (target : ℤ) :
    Py (Tensor ℂ) := do
  raiseIf (N < 1) .valueError
  raiseIf (max (← pyMax controls) target > N - 1) .valueError
  raiseIf (min (← pyMin controls) target < 0) .valueError
  raiseIf (∃ each ∈ controls, each = target) .valueError
  let lst1 ← controls.foldlM (fun l each => pySet l each one_one) (pyRep (Tensor.eye 2) N)
  let lst1 ← pySet lst1 target U
  let lst2 := pyRep (Tensor.eye 2) N
  let lst3 ← controls.foldlM (fun l each => pySet l each one_one) (pyRep (Tensor.eye 2) N)
  (← (← multi_kron lst2).sub (← multi_kron lst3)).add (← multi_kron lst1)

/-! ## Matrices -/

/-- qoperator.py:189 -/
def hadamardMat : Tensor ℂ :=
  Tensor.smul ((Real.sqrt 0.5 : ℝ) : ℂ) (Tensor.ofRows [[1, 1], [1, -1]])
/-- qoperator.py:228 -/
def pauliXMat : Tensor ℂ := Tensor.ofRows [[0, 1], [1, 0]]
/-- qoperator.py:266 -/
def pauliYMat : Tensor ℂ := Tensor.ofRows [[0, -I], [I, 0]]
/-- qoperator.py:305 -/
def pauliZMat : Tensor ℂ := Tensor.ofRows [[1, 0], [0, -1]]
/-- qoperator.py:348-349, 373-374 (rx), 399-400, 423-424 (ry), 449-450, 472-473 (rz):
`cos(θ/2) I - 1j sin(θ/2) P`. -/
def rotMat (P : Tensor ℂ) (θ : ℝ) : Tensor ℂ :=
  Tensor.subT (Tensor.smul ((Real.cos (θ / 2) : ℝ) : ℂ) (Tensor.eye 2))
    (Tensor.smul (I * ((Real.sin (θ / 2) : ℝ) : ℂ)) P)
/-- qoperator.py:500-503: u1 in the constructor. -/
def u1Mat (θ : ℝ) : Tensor ℂ :=
  let c : ℂ := ((Real.cos (0.5 * θ) : ℝ) : ℂ)
  let s : ℂ := ((Real.sin (0.5 * θ) : ℝ) : ℂ)
  let e := c + I * s
  Tensor.smul e (Tensor.subT (Tensor.smul c (Tensor.eye 2))
    (Tensor.smul (I * s) (Tensor.ofRows [[1, 0], [0, -1]])))
/-- `exp_itheta` of qoperator.py:528, 1393, 1409, 1529. -/
def expI (θ : ℝ) : ℂ := ((Real.cos θ : ℝ) : ℂ) + I * ((Real.sin θ : ℝ) : ℂ)
/-- qoperator.py:529 (u1 after an update) and 1410 (the phase gate of cphase). -/
def phaseMat (θ : ℝ) : Tensor ℂ := Tensor.ofRows [[1, 0], [0, expI θ]]
/-- qoperator.py:554-562 = 590-598 = 1553-1561 = 1689-1697:
`Rz(φ) Rx(-π/2) Rz(θ) Rx(π/2) Rz(λ)` from `[θ, φ, λ]`; too short a list raises IndexError. -/
def u3Mat (p : List ℝ) : Py (Tensor ℂ) := do
  let theta ← pyGet p 0
  let phi ← pyGet p 1
  let lambd ← pyGet p 2
  (← (← (← (rotMat pauliZMat phi).matmul (rotMat pauliXMat (-0.5 * Real.pi))).matmul
    (rotMat pauliZMat theta)).matmul (rotMat pauliXMat (0.5 * Real.pi))).matmul
    (rotMat pauliZMat lambd)
/-- qoperator.py:621-622, 725-726 (rxx), 755-756, 861-862 (ryy), 891-892, 995-996 (rzz). -/
def rot2Mat (P : Tensor ℂ) (θ : ℝ) : Tensor ℂ :=
  Tensor.subT (Tensor.smul ((Real.cos (θ / 2) : ℝ) : ℂ) (Tensor.eye 4))
    (Tensor.smul (I * ((Real.sin (θ / 2) : ℝ) : ℂ)) (Tensor.kron P P))
/-- qoperator.py:1023-1026 -/
def cnotMat : Tensor ℂ :=
  Tensor.ofRows [[1, 0, 0, 0], [0, 1, 0, 0], [0, 0, 0, 1], [0, 0, 1, 0]]
/-- qoperator.py:1242-1245 -/
def czMat : Tensor ℂ :=
  Tensor.ofRows [[1, 0, 0, 0], [0, 1, 0, 0], [0, 0, 1, 0], [0, 0, 0, -1]]
/-- qoperator.py:1393-1402: cphase in the constructor, `eye + (e-1) * mt`. -/
def cphaseMat (θ : ℝ) : Tensor ℂ :=
  Tensor.addT (Tensor.eye 4) (Tensor.smul (expI θ - 1)
    (Tensor.ofRows [[0, 0, 0, 0], [0, 0, 0, 0], [0, 0, 0, 0], [0, 0, 0, 1]]))
/-- qoperator.py:1529-1533: cphase after an update. -/
def cphaseMatUpd (θ : ℝ) : Tensor ℂ :=
  Tensor.ofRows [[1, 0, 0, 0], [0, 1, 0, 0], [0, 0, 1, 0], [0, 0, 0, expI θ]]
/-- qoperator.py:1725-1728 -/
def swapMat : Tensor ℂ :=
  Tensor.ofRows [[1, 0, 0, 0], [0, 0, 1, 0], [0, 1, 0, 0], [0, 0, 0, 1]]
/-- qoperator.py:1900-1907 -/
def toffoliMat : Tensor ℂ :=
  Tensor.ofRows [[1, 0, 0, 0, 0, 0, 0, 0], [0, 1, 0, 0, 0, 0, 0, 0], [0, 0, 1, 0, 0, 0, 0, 0],
    [0, 0, 0, 1, 0, 0, 0, 0], [0, 0, 0, 0, 1, 0, 0, 0], [0, 0, 0, 0, 0, 1, 0, 0],
    [0, 0, 0, 0, 0, 0, 0, 1], [0, 0, 0, 0, 0, 0, 1, 0]]

/-- placeholder for the attributes a class does not have -/
def noMat : Tensor ℂ := Tensor.zeros []

/-! ## Constructors -/

/-- qoperator.py:181-191 -/
def mkHadamard (N : ℤ) (w : Wires) : Gate := ⟨.hadamard, N, w, [], hadamardMat, noMat⟩
/-- qoperator.py:220-230 -/
def mkPauliX (N : ℤ) (w : Wires) : Gate := ⟨.pauliX, N, w, [], pauliXMat, noMat⟩
/-- qoperator.py:258-268 -/
def mkPauliY (N : ℤ) (w : Wires) : Gate := ⟨.pauliY, N, w, [], pauliYMat, noMat⟩
/-- qoperator.py:297-307 -/
def mkPauliZ (N : ℤ) (w : Wires) : Gate := ⟨.pauliZ, N, w, [], pauliZMat, noMat⟩
/-- qoperator.py:337-351 -/
def mkRx (θ : ℝ) (N : ℤ) (w : Wires) : Gate := ⟨.rx, N, w, [θ], rotMat pauliXMat θ, noMat⟩
/-- qoperator.py:389-402 -/
def mkRy (θ : ℝ) (N : ℤ) (w : Wires) : Gate := ⟨.ry, N, w, [θ], rotMat pauliYMat θ, noMat⟩
/-- qoperator.py:439-452 -/
def mkRz (θ : ℝ) (N : ℤ) (w : Wires) : Gate := ⟨.rz, N, w, [θ], rotMat pauliZMat θ, noMat⟩
/-- qoperator.py:486-506 -/
def mkU1 (θ : ℝ) (N : ℤ) (w : Wires) : Gate := ⟨.u1, N, w, [θ], u1Mat θ, noMat⟩
/-- qoperator.py:542-565 -/
def mkU3 (p : List ℝ) (N : ℤ) (w : Wires) : Py Gate := do
  .ok ⟨.u3, N, w, p, ← u3Mat p, noMat⟩
/-- qoperator.py:611-624 -/
def mkRxx (θ : ℝ) (N : ℤ) (w : Wires) : Gate := ⟨.rxx, N, w, [θ], rot2Mat pauliXMat θ, noMat⟩
/-- qoperator.py:744-758 -/
def mkRyy (θ : ℝ) (N : ℤ) (w : Wires) : Gate := ⟨.ryy, N, w, [θ], rot2Mat pauliYMat θ, noMat⟩
/-- qoperator.py:880-894 -/
def mkRzz (θ : ℝ) (N : ℤ) (w : Wires) : Gate := ⟨.rzz, N, w, [θ], rot2Mat pauliZMat θ, noMat⟩
/-- qoperator.py:1014-1028 -/
def mkCnot (N : ℤ) (w : Wires) : Gate := ⟨.cnot, N, w, [], cnotMat, noMat⟩
/-- qoperator.py:1233-1247 -/
def mkCz (N : ℤ) (w : Wires) : Gate := ⟨.cz, N, w, [], czMat, noMat⟩
/-- qoperator.py:1381-1405 -/
def mkCphase (θ : ℝ) (N : ℤ) (w : Wires) : Gate := ⟨.cphase, N, w, [θ], cphaseMat θ, noMat⟩
/-- qoperator.py:1539-1565 -/
def mkCu3 (p : List ℝ) (N : ℤ) (w : Wires) : Py Gate := do
  let u ← u3Mat p
  .ok ⟨.cu3, N, w, p, ← two_qubit_control_gate u 2 0 1, u⟩
/-- qoperator.py:1716-1730 -/
def mkSwap (N : ℤ) (w : Wires) : Gate := ⟨.swap, N, w, [], swapMat, noMat⟩
/-- qoperator.py:1885-1909: a wire list must have length 3; `len` of an integer other than the
default `-1` raises TypeError. -/
def mkToffoli (N : ℤ) (w : Wires) : Py Gate := do
  if w ≠ .int (-1) then
    let l ← w.asList
    raiseIf (l.length ≠ 3) .valueError
  .ok ⟨.toffoli, N, w, [], toffoliMat, noMat⟩
/-- qoperator.py:2131-2144: `len(wires)` raises TypeError for an integer, `wires[-1]` IndexError for
an empty list. -/
def mkMcnot (N : ℤ) (w : Wires) : Py Gate := do
  let l ← w.asList
  let _ ← pyGet l (-1)
  .ok ⟨.mcnot, N, w, [], noMat, noMat⟩

namespace Gate

/-- `num_params` of each class. -/
def numParams (g : Gate) : ℕ :=
  match g.cls with
  | .rx | .ry | .rz | .u1 | .rxx | .ryy | .rzz | .cphase => 1
  | .u3 | .cu3 => 3
  | _ => 0

/-- `supportTN` of each class (only `multi_control_cnot`, line 2143, is False). -/
def supportTN (g : Gate) : Bool :=
  match g.cls with
  | .mcnot => false
  | _ => true

/-- The guard `self.nqubits != -1 and self.wires != -1` of every method (ValueError otherwise). -/
def guard (g : Gate) : Py Unit := raiseIf (g.nqubits = -1 ∨ g.wires = .int (-1)) .valueError

/-! ## U_expand -/

/-- qoperator.py:627-642 (rxx), 761-776 (ryy), 897-912 (rzz).  The bound check tests `wires[0]`
twice, so a too large `wires[1]` is caught only by the list assignment (IndexError). -/
def rot2_U_expand (g : Gate) (P : Tensor ℂ) : Py (Tensor ℂ) := do
  g.guard
  raiseIf (g.nqubits < 1) .valueError
  let w ← g.wires.asList
  let w0 ← pyGet w 0
  let w1 ← pyGet w 1
  raiseIf (w0 < 0 ∨ w0 > g.nqubits - 1 ∨ w1 < 0 ∨ w0 > g.nqubits - 1) .valueError
  raiseIf (w0 = w1) .valueError
  let theta ← pyGet g.params 0
  let lst1 := pyRep (Tensor.eye 2) g.nqubits
  let lst2 ← pySet (pyRep (Tensor.eye 2) g.nqubits) w0 P
  let lst2 ← pySet lst2 w1 P
  ((← multi_kron lst1).smul ((Real.cos (theta / 2) : ℝ) : ℂ)).sub
    ((← multi_kron lst2).smul (I * ((Real.sin (theta / 2) : ℝ) : ℂ)))

/-- qoperator.py:1732-1760 `SWAP.U_expand`: no check of the wires. -/
def swap_U_expand (g : Gate) : Py (Tensor ℂ) := do
  g.guard
  let w ← g.wires.asList
  let q1 ← pyGet w 0
  let q2 ← pyGet w 1
  let mk (a b : Tensor ℂ) : Py (Tensor ℂ) := do
    let l ← pySet (pyRep (Tensor.eye 2) g.nqubits) q1 a
    multi_kron (← pySet l q2 b)
  (← (← (← mk zero_zero zero_zero).add (← mk one_zero zero_one)).add
    (← mk zero_one one_zero)).add (← mk one_one one_one)

/-- qoperator.py:1031-1038 (cnot), 1250-1257 (cz), 1407-1415 (cphase), 1567-1573 (cu3). -/
def ctrl_U_expand (g : Gate) (U : Tensor ℂ) : Py (Tensor ℂ) := do
  g.guard
  let w ← g.wires.asList
  let control ← pyGet w 0
  let target ← pyGet w 1
  two_qubit_control_gate U g.nqubits control target

/-- qoperator.py:1912-1919 (toffoli), 2147-2152 (multi_control_cnot): all wires but the last are
controls. -/
def mc_U_expand (g : Gate) : Py (Tensor ℂ) := do
  g.guard
  let w ← g.wires.asList
  let target ← pyGet w (-1)
  multi_control_gate pauliXMat g.nqubits w.dropLast target

/-- qoperator.py:194-198, 233-237, 271-276, 310-314, 354-358, 405-409, 455-459, 508-512, 567-571:
`U_expand` of the single-qubit gates. -/
def single_U_expand (g : Gate) : Py (Tensor ℂ) := do
  g.guard
  let i ← g.wires.asInt
  gate_expand_1toN g.matrix g.nqubits i

/-- `U_expand()` by class. -/
def U_expand (g : Gate) : Py (Tensor ℂ) :=
  match g.cls with
  | .hadamard | .pauliX | .pauliY | .pauliZ | .rx | .ry | .rz | .u1 | .u3 => g.single_U_expand
  | .rxx => g.rot2_U_expand pauliXMat
  | .ryy => g.rot2_U_expand pauliYMat
  | .rzz => g.rot2_U_expand pauliZMat
  | .cnot => g.ctrl_U_expand pauliXMat
  | .cz => g.ctrl_U_expand pauliZMat
  | .cphase => do
    -- the guard precedes the use of the parameter (line 1408)
    g.guard
    let theta ← pyGet g.params 0
    g.ctrl_U_expand (phaseMat theta)
  | .cu3 => g.ctrl_U_expand g.uMatrix
  | .swap => g.swap_U_expand
  | .toffoli | .mcnot => g.mc_U_expand

/-! ## params_update -/

/-- `params_update(p)` by class: qoperator.py:371-374, 421-424, 470-473, 524-529, 584-598, 723-726,
859-862, 993-996, 1526-1533, 1684-1698; parameterless gates ignore the call.  The argument is a
list; classes with one scalar parameter use its single element (any other length: TypeError, a
simplification of torch's broadcasting behaviour). -/
def params_update (g : Gate) (p : List ℝ) : Py Gate :=
  let scalar (f : ℝ → Tensor ℂ) : Py Gate :=
    match p with
    | [θ] => .ok { g with params := p, matrix := f θ }
    | _ => .error .typeError
  match g.cls with
  | .rx => scalar (rotMat pauliXMat)
  | .ry => scalar (rotMat pauliYMat)
  | .rz => scalar (rotMat pauliZMat)
  | .u1 => scalar phaseMat
  | .u3 => do .ok { g with params := p, matrix := ← u3Mat p }
  | .rxx => scalar (rot2Mat pauliXMat)
  | .ryy => scalar (rot2Mat pauliYMat)
  | .rzz => scalar (rot2Mat pauliZMat)
  | .cphase => scalar cphaseMatUpd
  | .cu3 => do
    let u ← u3Mat p
    .ok { g with params := p, uMatrix := u, matrix := ← two_qubit_control_gate u 2 0 1 }
  | _ => .ok g

/-! ## operation_dagger -/

/-- `operation_dagger()` by class: qoperator.py:200, 239, 278, 316 (self), 361, 412, 461, 515 (negated
angle), 574-576 (u3: `[-θ,-λ,-φ]`), 715, 850, 985, 1207, 1359, 1518, 1675-1677, 1854, 2107, 2154. -/
def operation_dagger (g : Gate) : Py Gate :=
  let neg (f : ℝ → ℤ → Wires → Gate) : Py Gate := do
    let theta ← pyGet g.params 0
    .ok (f (-1 * theta) g.nqubits g.wires)
  let neg3 (f : List ℝ → ℤ → Wires → Py Gate) : Py Gate := do
    let theta ← pyGet g.params 0
    let phi ← pyGet g.params 1
    let lambd ← pyGet g.params 2
    f [-theta, -lambd, -phi] g.nqubits g.wires
  match g.cls with
  | .rx => neg mkRx
  | .ry => neg mkRy
  | .rz => neg mkRz
  | .u1 => neg mkU1
  | .u3 => neg3 mkU3
  | .rxx => neg mkRxx
  | .ryy => neg mkRyy
  | .rzz => neg mkRzz
  | .cphase => neg mkCphase
  | .cu3 => neg3 mkCu3
  | _ => .ok g

/-! ## TN_contract -/

/-- `list(range(n))` with two entries exchanged as in qoperator.py:131-133, 140-142. -/
def singlePerm (n w last : ℤ) : Py (List ℤ) := do
  let p := pyRange n
  let p ← pySet p w last
  pySet p last w

/-- The common body of qoperator.py:131-138 and 140-147: contraction of a 2×2 matrix with dimension
`w` of a tensor with `n` dimensions. -/
def contract1 (m T : Tensor ℂ) (n w : ℤ) : Py (Tensor ℂ) := do
  let p ← singlePerm n w (n - 1)
  let T ← (← T.permute p).unsqueeze (-1)
  let T ← (← m.matmul T).squeezeDim (-1)
  T.permute p

/-- qoperator.py:127-147 `SingleGateOperation.TN_contract`. -/
def single_TN_contract (g : Gate) (T : Tensor ℂ) (batch : Bool) : Py (Tensor ℂ) := do
  g.guard
  let i ← g.wires.asInt
  if batch = false then contract1 g.matrix T g.nqubits i
  else contract1 g.matrix T (g.nqubits + 1) (i + 1)

/-- qoperator.py:653-681 and 684-712 (and the same lines in ryy, rzz, cnot, cz, cphase, cu3): the
contraction of a 4×4 matrix with dimensions `c`, `t` of a tensor with `n` dimensions; `out` is the
shape of the `view` after the product. -/
def contract2 (m T : Tensor ℂ) (n c t : ℤ) (outShape : List ℕ → List ℤ) : Py (Tensor ℂ) := do
  let p := pyRange n
  let p ← pyRemove p c
  let p ← pyRemove p t
  let p := p ++ [c, t]
  let T ← T.permute p
  let s := T.shape
  let sm2 ← pyGet s (-2)
  let sm1 ← pyGet s (-1)
  let s ← pySet s (-2) (sm2 * sm1)
  let s ← pySet s (-1) 1
  let T ← T.view (s.map (fun d : ℕ => (d : ℤ)))
  let T ← m.matmul T
  let T ← T.view (outShape s)
  let p ← pyPop (pyRange n)
  let p ← pyPop p
  let p := if c < t then pyInsert (pyInsert p c (n - 2)) t (n - 1)
    else pyInsert (pyInsert p t (n - 1)) c (n - 2)
  T.permute p

/-- qoperator.py:644-712 (rxx), 780-848, 914-982, 1136-1204 (cnot), 1288-1355 (cz), 1446-1513
(cphase), 1605-1672 (cu3): `TN_contract` of the two-qubit gates other than SWAP. -/
def two_TN_contract (g : Gate) (T : Tensor ℂ) (batch : Bool) : Py (Tensor ℂ) := do
  g.guard
  let w ← g.wires.asList
  let c ← pyGet w 0
  let t ← pyGet w 1
  pyAssert (c ≠ t)
  if batch = false then
    pyAssert ((T.rank : ℤ) = g.nqubits)
    contract2 g.matrix T g.nqubits c t (fun _ => pyRep 2 g.nqubits)
  else
    pyAssert ((T.rank : ℤ) = g.nqubits + 1)
    contract2 g.matrix T (g.nqubits + 1) (c + 1) (t + 1)
      (fun s => (s.getD 0 0 : ℤ) :: pyRep 2 g.nqubits)

/-- qoperator.py:1801-1851 `SWAP.TN_contract`. -/
def swap_TN_contract (g : Gate) (T : Tensor ℂ) (batch : Bool) : Py (Tensor ℂ) := do
  g.guard
  let w ← g.wires.asList
  let c ← pyGet w 0
  let t ← pyGet w 1
  pyAssert (c ≠ t)
  if batch = false then
    pyAssert ((T.rank : ℤ) = g.nqubits)
    let p ← pySet (pyRange g.nqubits) c t
    let p ← pySet p t c
    T.permute p
  else
    pyAssert ((T.rank : ℤ) = g.nqubits + 1)
    let p ← pySet (pyRange (g.nqubits + 1)) (c + 1) (t + 1)
    let p ← pySet p (t + 1) (c + 1)
    T.permute p

/-- qoperator.py:2005-2053 and 2057-2105: the contraction of an 8×8 matrix with dimensions `c1`,
`c2`, `t`.  The six-way case distinction on the order of the wires is the source's; the
fall-through (no branch taken) leaves the shortened permutation. -/
def contract3 (m T : Tensor ℂ) (n c1 c2 t : ℤ) (outShape : List ℕ → List ℤ) : Py (Tensor ℂ) := do
  let p := pyRange n
  let p ← pyRemove p c1
  let p ← pyRemove p c2
  let p ← pyRemove p t
  let p := p ++ [c1, c2, t]
  let T ← T.permute p
  let s := T.shape
  let sm3 ← pyGet s (-3)
  let sm2 ← pyGet s (-2)
  let sm1 ← pyGet s (-1)
  let s ← pySet s (-3) (sm3 * sm2 * sm1)
  let s ← pySet s (-2) 1
  let s ← pySet s (-1) 1
  let T ← T.view (s.map (fun d : ℕ => (d : ℤ)))
  let T ← T.squeezeDim (-1)
  let T ← m.matmul T
  let T ← T.view (outShape s)
  let p ← pyPop (pyRange n)
  let p ← pyPop p
  let p ← pyPop p
  let ins (p : List ℤ) (a x b y d z : ℤ) : List ℤ := pyInsert (pyInsert (pyInsert p a x) b y) d z
  let p :=
    if c1 < c2 ∧ c2 < t then ins p c1 (n - 3) c2 (n - 2) t (n - 1)
    else if c1 < t ∧ t < c2 then ins p c1 (n - 3) t (n - 1) c2 (n - 2)
    else if c2 < t ∧ t < c1 then ins p c2 (n - 2) t (n - 1) c1 (n - 3)
    else if c2 < c1 ∧ c1 < t then ins p c2 (n - 2) c1 (n - 3) t (n - 1)
    else if t < c1 ∧ c1 < c2 then ins p t (n - 1) c1 (n - 3) c2 (n - 2)
    else if t < c2 ∧ c2 < c1 then ins p t (n - 1) c2 (n - 2) c1 (n - 3)
    else p
  T.permute p

/-- qoperator.py:1994-2105 `toffoli.TN_contract`. -/
def toffoli_TN_contract (g : Gate) (T : Tensor ℂ) (batch : Bool) : Py (Tensor ℂ) := do
  g.guard
  let w ← g.wires.asList
  let c1 ← pyGet w 0
  let c2 ← pyGet w 1
  let t ← pyGet w 2
  pyAssert (c1 ≠ t ∧ c2 ≠ t ∧ c1 ≠ c2)
  if batch = false then
    pyAssert ((T.rank : ℤ) = g.nqubits)
    contract3 g.matrix T g.nqubits c1 c2 t (fun _ => pyRep 2 g.nqubits)
  else
    pyAssert ((T.rank : ℤ) = g.nqubits + 1)
    contract3 g.matrix T (g.nqubits + 1) (c1 + 1) (c2 + 1) (t + 1)
      (fun s => (s.getD 0 0 : ℤ) :: pyRep 2 g.nqubits)

/-- `TN_contract(T, batch_mod)` by class; `multi_control_cnot` has no such method. -/
def TN_contract (g : Gate) (T : Tensor ℂ) (batch : Bool) : Py (Tensor ℂ) :=
  match g.cls with
  | .hadamard | .pauliX | .pauliY | .pauliZ | .rx | .ry | .rz | .u1 | .u3 =>
    g.single_TN_contract T batch
  | .rxx | .ryy | .rzz | .cnot | .cz | .cphase | .cu3 => g.two_TN_contract T batch
  | .swap => g.swap_TN_contract T batch
  | .toffoli => g.toffoli_TN_contract T batch
  | .mcnot => .error .attributeError

/-! ## TN_operation -/

/-- qoperator.py:1051-1059 = 1100-1108 = 1270-1279 = 1428-1437 = 1586-1595 = 1774-1778 = 1787-1791:
merge two neighbouring sites and apply the 4×4 matrix `G`. -/
def mergeTwo (A B G : Tensor ℂ) : Py (Tensor ℂ) := do
  let temp ← (← (← A.unsqueeze 1).matmul (← B.unsqueeze 0)).permute [2, 3, 0, 1]
  let s := temp.shape
  let s0 := s.getD 0 0
  let s1 := s.getD 1 0
  let s2 := s.getD 2 0
  let s3 := s.getD 3 0
  let temp ← temp.view [(s0 : ℤ), (s1 : ℤ), ((s2 * s3 : ℕ) : ℤ), 1]
  let temp ← G.matmul temp
  let temp ← temp.view [(s0 : ℤ), (s1 : ℤ), (s2 : ℤ), (s3 : ℤ)]
  temp.permute [2, 3, 0, 1]

/-- The two-site update at positions `i`, `i+1` (lines as for `mergeTwo` plus the assignment after
it). -/
def applyTwo (svd : SVDOracle) (G : Tensor ℂ) (mps : List (Tensor ℂ)) (i : ℤ) :
    TNM (List (Tensor ℂ)) := do
  let A ← (pyGet mps i : Py _)
  let B ← (pyGet mps (i + 1) : Py _)
  let temp ← (mergeTwo A B G : Py _)
  let (a, b) ← TensorDecompAfterTwoQbitGate svd temp
  let mps ← (pySet mps i a : Py _)
  (pySet mps (i + 1) b : Py _)

/-- qoperator.py:1763-1799 `SWAP.TN_operation` for a wire list (matrix as stored). -/
def swapTN (svd : SVDOracle) (m : Tensor ℂ) (w : List ℤ) (mps : List (Tensor ℂ)) :
    TNM (List (Tensor ℂ)) := do
  (raiseIf (w.length ≠ 2) .valueError : Py _)
  let up ← (pyMin w : Py _)
  let down ← (pyMax w : Py _)
  let mps ← (pyRange2 up down).foldlM (fun mps i => applyTwo svd m mps i) mps
  (pyRangeDown (down - 1) up).foldlM (fun mps i => applyTwo svd m mps (i - 1)) mps

/-- qoperator.py:1763-1799 -/
def swap_TN_operation (svd : SVDOracle) (g : Gate) (mps : List (Tensor ℂ)) :
    TNM (List (Tensor ℂ)) := do
  (g.guard : Py _)
  let w ← (g.wires.asList : Py _)
  swapTN svd g.matrix w mps

/-- `SWAP(N,[i,j]).TN_operation(MPS)` as called inside the other gates. -/
def swapCall (svd : SVDOracle) (N i j : ℤ) (mps : List (Tensor ℂ)) : TNM (List (Tensor ℂ)) :=
  swap_TN_operation svd (mkSwap N (.list [i, j])) mps

/-- qoperator.py:1040-1133 `cnot.TN_operation`. -/
def cnot_TN_operation (svd : SVDOracle) (g : Gate) (mps : List (Tensor ℂ)) :
    TNM (List (Tensor ℂ)) := do
  (g.guard : Py _)
  let w ← (g.wires.asList : Py _)
  let up ← (pyMin w : Py _)
  let down ← (pyMax w : Py _)
  let w0 ← (pyGet w 0 : Py _)
  if up + 1 = down then
    let G ← (if w0 = up then .ok cnotMat else (mkCnot 2 (.list [1, 0])).U_expand : Py _)
    applyTwo svd G mps up
  else
    let mps ← (pyRange2 up (down - 1)).foldlM (fun mps i => swapCall svd g.nqubits i (i + 1) mps) mps
    let G ← (if w0 = up then .ok cnotMat else (mkCnot 2 (.list [1, 0])).U_expand : Py _)
    let mps ← applyTwo svd G mps (down - 1)
    (pyRangeDown (down - 1) up).foldlM (fun mps i => swapCall svd g.nqubits (i - 1) i mps) mps

/-- qoperator.py:1259-1286 (cz), 1417-1444 (cphase), 1575-1602 (cu3): `Grev` is the reversed
4×4 matrix, computed only if the control is the lower wire. -/
def ctrl_TN_operation (svd : SVDOracle) (g : Gate) (Grev : Py (Tensor ℂ))
    (mps : List (Tensor ℂ)) : TNM (List (Tensor ℂ)) := do
  (g.guard : Py _)
  let w ← (g.wires.asList : Py _)
  (raiseIf (w.length ≠ 2) .valueError : Py _)
  let up ← (pyMin w : Py _)
  let down ← (pyMax w : Py _)
  let w0 ← (pyGet w 0 : Py _)
  let mps ← (pyRange2 up (down - 1)).foldlM (fun mps i => swapCall svd g.nqubits i (i + 1) mps) mps
  let G ← (if w0 = up then .ok g.matrix else Grev : Py _)
  let mps ← applyTwo svd G mps (down - 1)
  (pyRangeDown (down - 1) up).foldlM (fun mps i => swapCall svd g.nqubits (i - 1) i mps) mps

/-- qoperator.py:1952-1964: merge three neighbouring sites and apply the 8×8 matrix `G`. -/
def mergeThree (A B C G : Tensor ℂ) : Py (Tensor ℂ) := do
  let a ← (← A.unsqueeze 1).unsqueeze 1
  let b ← (← B.unsqueeze 1).unsqueeze 0
  let c ← (← C.unsqueeze 0).unsqueeze 0
  let temp ← (← (← a.matmul b).matmul c).permute [3, 4, 0, 1, 2]
  let s := temp.shape
  let s0 := s.getD 0 0
  let s1 := s.getD 1 0
  let s2 := s.getD 2 0
  let s3 := s.getD 3 0
  let s4 := s.getD 4 0
  let temp ← temp.view [(s0 : ℤ), (s1 : ℤ), ((s2 * s3 * s4 : ℕ) : ℤ), 1]
  let temp ← G.matmul temp
  let temp ← temp.view [(s0 : ℤ), (s1 : ℤ), (s2 : ℤ), (s3 : ℤ), (s4 : ℤ)]
  temp.permute [2, 3, 4, 0, 1]

/-- The three-site update at positions `i-1`, `i`, `i+1` (qoperator.py:1952-1966). -/
def applyThree (svd : SVDOracle) (G : Tensor ℂ) (mps : List (Tensor ℂ)) (i : ℤ) :
    TNM (List (Tensor ℂ)) := do
  let A ← (pyGet mps (i - 1) : Py _)
  let B ← (pyGet mps i : Py _)
  let C ← (pyGet mps (i + 1) : Py _)
  let temp ← (mergeThree A B C G : Py _)
  let (a, b, c) ← TensorDecompAfterThreeQbitGate svd temp
  let mps ← (pySet mps (i - 1) a : Py _)
  let mps ← (pySet mps i b : Py _)
  (pySet mps (i + 1) c : Py _)

/-- qoperator.py:1957-1962: the 8×8 matrix for the position of the target among the sorted
wires. -/
def toffoliG (w2 mid down : ℤ) : Py (Tensor ℂ) :=
  if down = w2 then .ok toffoliMat
  else if mid = w2 then do (← mkToffoli 3 (.list [0, 2, 1])).U_expand
  else do (← mkToffoli 3 (.list [1, 2, 0])).U_expand

/-- qoperator.py:1921-1991 `toffoli.TN_operation`. -/
def toffoli_TN_operation (svd : SVDOracle) (g : Gate) (mps : List (Tensor ℂ)) :
    TNM (List (Tensor ℂ)) := do
  (g.guard : Py _)
  let w ← (g.wires.asList : Py _)
  let sw := w.mergeSort (· ≤ ·)
  let up ← (pyGet sw 0 : Py _)
  let mid ← (pyGet sw 1 : Py _)
  let down ← (pyGet sw 2 : Py _)
  let mps ← (pyRange2 up (mid - 1)).foldlM (fun mps i => swapCall svd g.nqubits i (i + 1) mps) mps
  let mps ← (pyRangeDown down (mid + 1)).foldlM
    (fun mps i => swapCall svd g.nqubits (i - 1) i mps) mps
  let w2 ← (pyGet w 2 : Py _)
  let G ← (toffoliG w2 mid down : Py _)
  let mps ← applyThree svd G mps mid
  let mps ← (pyRangeDown (mid - 1) up).foldlM
    (fun mps i => swapCall svd g.nqubits (i - 1) i mps) mps
  (pyRange2 (mid + 1) down).foldlM (fun mps i => swapCall svd g.nqubits i (i + 1) mps) mps

/-- qoperator.py:115-124 `SingleGateOperation.TN_operation`. -/
def single_TN_operation (g : Gate) (mps : List (Tensor ℂ)) : Py (List (Tensor ℂ)) := do
  g.guard
  let i ← g.wires.asInt
  let t ← pyGet mps i
  pySet mps i (← Tensor.einsum_ab_bcd g.matrix t)

/-- `TN_operation(MPS)` by class; rxx, ryy, rzz and multi_control_cnot have no such method
(AttributeError). -/
def TN_operation (svd : SVDOracle) (g : Gate) (mps : List (Tensor ℂ)) : TNM (List (Tensor ℂ)) :=
  match g.cls with
  | .hadamard | .pauliX | .pauliY | .pauliZ | .rx | .ry | .rz | .u1 | .u3 =>
    TNM.lift (g.single_TN_operation mps)
  | .rxx | .ryy | .rzz | .mcnot => TNM.lift (.error .attributeError)
  | .cnot => g.cnot_TN_operation svd mps
  | .cz => g.ctrl_TN_operation svd ((mkCz 2 (.list [1, 0])).U_expand) mps
  | .cphase => g.ctrl_TN_operation svd
      (do (mkCphase (← pyGet g.params 0) 2 (.list [1, 0])).U_expand) mps
  | .cu3 => g.ctrl_TN_operation svd (two_qubit_control_gate g.uMatrix 2 1 0) mps
  | .swap => g.swap_TN_operation svd mps
  | .toffoli => g.toffoli_TN_operation svd mps

end Gate

end

end QTN
