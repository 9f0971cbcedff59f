import Verif.Model.Round
import Verif.BuildLayer

/-!
# deepquantum/layers/qlayers.py and the matrix of circuits with layers in rounded arithmetic

The constructors and the loop `_cal_single_gates` do no arithmetic and are those of `Model/QLayers.lean`.
The same simplifications as in `Model/Round.lean`.
-/

namespace QTN

open Complex (I)

noncomputable section

namespace Arith

variable (A : Arith)

/-- `c*I - 1j*s*P` with `c = cos(0.5*θ)`, `s = sin(0.5*θ)`, e.g. qlayers.py:301-303. -/
def layerRot (P : Tensor ℂ) (θ : ℝ) : Py (Tensor ℂ) :=
  let x := A.fl (0.5 * θ)
  A.subT (A.smulT (real (A.cosR x)) (Tensor.eye 2)) (A.smulT (A.mul I (real (A.sinR x))) P)

/-- Three-parameter product `m3 @ m2 @ m1`, e.g. qlayers.py:301-313. -/
def prod3 (p : List ℝ) (i : ℕ) (P1 P2 P3 : Tensor ℂ) : Py (Tensor ℂ) := do
  let m1 ← A.layerRot P1 (← pyGet p ((3 * i + 0 : ℕ) : ℤ))
  let m2 ← A.layerRot P2 (← pyGet p ((3 * i + 1 : ℕ) : ℤ))
  let m3 ← A.layerRot P3 (← pyGet p ((3 * i + 2 : ℕ) : ℤ))
  A.matmul (← A.matmul m3 m2) m1

/-- Two-parameter product `m2 @ m1`, e.g. qlayers.py:480-489. -/
def prod2 (p : List ℝ) (i : ℕ) (P1 P2 : Tensor ℂ) : Py (Tensor ℂ) := do
  let m1 ← A.layerRot P1 (← pyGet p ((2 * i + 0 : ℕ) : ℤ))
  let m2 ← A.layerRot P2 (← pyGet p ((2 * i + 1 : ℕ) : ℤ))
  A.matmul m2 m1

/-- The matrix assigned to the `i`-th wire: qlayers.py:144-161 (XYZ), 217-234 (ZYX), 299-314 (YZY),
404-420 (XZX), 480-489 (XZ), 552-563 (ZX), 608-612 (H). -/
def wireMat (l : SLayer) (i : ℕ) : Py (Tensor ℂ) :=
  match l.cls with
  | .xyz => A.prod3 l.params i pauliXMat pauliYMat pauliZMat
  | .zyx => A.prod3 l.params i pauliZMat pauliYMat pauliXMat
  | .yzy => A.prod3 l.params i pauliYMat pauliZMat pauliYMat
  | .xzx => A.prod3 l.params i pauliXMat pauliZMat pauliXMat
  | .xz => A.prod2 l.params i pauliXMat pauliZMat
  | .zx => A.prod2 l.params i pauliZMat pauliXMat
  | .h => .ok A.hadamardMat

/-- `U_expand` of a single-qubit layer: qlayers.py:165-167 and the same lines of the other classes. -/
def layerU (l : SLayer) : Py (Tensor ℂ) := do
  A.multi_kron (← SingleLayer.calGates l.nqubits l.wires (A.wireMat l))

/-- `cnot(N,[a,b]).U_expand()` -/
def cnotU (N a b : ℤ) : Py (Tensor ℂ) := A.U_expand (mkCnot N (.list [a, b]))

/-- qlayers.py:655-666 (`ring_of_cnot`), 808-821 (`ring_of_cnot_dagger`). -/
def fusion (k : RingKind) (N : ℤ) : Py (Tensor ℂ) := do
  raiseIf (N < 3) .valueError
  let rst ← A.cnotU 2 0 1
  (pyRange2 1 N).foldlM (fun rst i => do
    let cur ← A.cnotU (min (2 + i) N) i ((i + 1) % N)
    match k with
    | .dagger =>
      if i = N - 1 then A.matmul rst cur else A.matmul (A.kron rst (Tensor.eye 2)) cur
    | _ => if i = N - 1 then A.matmul cur rst else A.matmul cur (A.kron rst (Tensor.eye 2))) rst

/-- qlayers.py:915-926 (`ring_of_cnot2`). -/
def fusion2 (N : ℤ) : Py (Tensor ℂ) := do
  raiseIf (N < 3) .valueError
  let rst ← A.cnotU 3 0 2
  (pyRange2 1 N).foldlM (fun rst i => do
    let cur ← A.cnotU (min (3 + i) N) i ((i + 2) % N)
    if i = N - 2 ∨ i = N - 1 then A.matmul cur rst
    else A.matmul cur (A.kron rst (Tensor.eye 2))) rst

/-- The generic loop of `U_expand`: qlayers.py:676-681, 831-833, 938-941. -/
def genericRing (r : Ring) (d : ℕ) : Py (Tensor ℂ) :=
  (List.range r.wires.length).foldlM (fun rst (i : ℕ) => do
    let c ← pyGet r.wires (i : ℤ)
    let t ← pyGet r.wires (((i + d) % r.wires.length : ℕ) : ℤ)
    let u ← A.cnotU r.nqubits c t
    match r.kind with
    | .dagger => A.matmul rst u
    | _ => A.matmul u rst) (Tensor.eye (2 ^ r.nqubits.toNat))

/-- `U_expand` of a ring: qlayers.py:668-683, 823-835, 929-943. -/
def ringU (r : Ring) : Py (Tensor ℂ) := do
  if r.wires.length = 2 then
    A.cnotU r.nqubits (← pyGet r.wires 0) (← pyGet r.wires 1)
  else if r.wires = pyRange r.nqubits then
    match r.kind with
    | .ring2 => A.fusion2 r.nqubits
    | k => A.fusion k r.nqubits
  else
    match r.kind with
    | .ring2 => A.genericRing r 2
    | _ => A.genericRing r 1

/-- `BasicEntangleLayer.U_expand`: qlayers.py:999-1005. -/
def basicU (b : Basic) : Py (Tensor ℂ) := do
  let cnotRing ← A.ringU (← pyGet b.part2 0)
  (List.range b.reps.toNat).foldlM (fun rst (i : ℕ) => do
    let u ← A.layerU (← pyGet b.part1 (i : ℤ))
    A.matmul (← A.matmul cnotRing u) rst) (Tensor.eye (2 ^ b.nqubits.toNat))

/-- `U_expand()` of anything that can be added to a circuit. -/
def opU : Op → Py (Tensor ℂ)
  | .gate g => A.U_expand g
  | .single l => A.layerU l
  | .ring r => A.ringU r
  | .basic b => A.basicU b

/-- The constructor calls of `buildItem`.  The layers convert their parameters to a tensor, e.g.
qlayers.py:125-127; `BasicEntangleLayer` leaves this to the layers it consists of, which is the same. -/
def buildItem {N : ℕ} : Spec.Item N → Py Op
  | .gate ins => do .ok (.gate (← A.build ins))
  | .layer k ws p => do .ok (.single (← mkSLayer (layerCls k) N (wires ws) (p.map A.fl)))
  | .hlayer ws => do .ok (.single (← mkSLayer .h N (wires ws) []))
  | .ring ws => do .ok (.ring (← mkRing .ring N (wires ws)))
  | .ringDag ws => do .ok (.ring (← mkRing .dagger N (wires ws)))
  | .ring2 ws => do .ok (.ring (← mkRing .ring2 N (wires ws)))
  | .basic ws p reps => do .ok (.basic (← mkBasic N (wires ws) (p.map A.fl) false reps))

/-- qcircuit.py:51-62 `U` of a circuit of gates and layers. -/
def itemsU (N : ℕ) (ops : List Op) : Py (Tensor ℂ) :=
  ops.foldlM (fun acc o => do A.matmul (← A.opU o) acc) (Tensor.eye (2 ^ N))

/-- `cir.U() @ state` -/
def runItems (N : ℕ) (ops : List Op) (state : Tensor ℂ) : Py (Tensor ℂ) := do
  A.matmul (← A.itemsU N ops) state

end Arith

end

end QTN
