import Verif.Model.Objects

/-!
# The `info()` methods of qoperator.py and qlayers.py

The dictionary returned by `info()`, with the `label` attribute of the classes.  The entries of the wire lists are
`Wires`, because a single-qubit gate puts its attribute `wires` into a list whatever it is.
-/

namespace QTN

noncomputable section

/-- The dictionary `{'label', 'contral_lst', 'target_lst', 'params'}`; `params` may be None. -/
structure Info where
  label : String
  contral_lst : List Wires
  target_lst : List Wires
  params : Option PV

namespace Gate

/-- The attribute `label`: qoperator.py:182, 221, 259, 298, 338, 390, 440, 487, 543, 612, 746, 882, 1016, 1235,
1383, 1541, 1718, 1887, 2136. -/
def label (g : Gate) : Py String :=
  match g.cls with
  | .hadamard => .ok "Hadamard"
  | .pauliX => .ok "PauliX"
  | .pauliY => .ok "PauliY"
  | .pauliZ => .ok "PauliZ"
  | .rx => .ok "Rx"
  | .ry => .ok "Ry"
  | .rz => .ok "Rz"
  | .u1 => .ok "u1"
  | .u3 => .ok "u3"
  | .rxx => .ok "Rxx"
  | .ryy => .ok "Ryy"
  | .rzz => .ok "Rzz"
  | .cnot => .ok "cnot"
  | .cz => .ok "cz"
  | .cphase => .ok "cphase"
  | .cu3 => .ok "cu3"
  | .swap => .ok "SWAP"
  | .toffoli => .ok "toffoli"
  | .mcnot => do .ok (toString ((← g.wires.asList).length - 1) ++ "_control_cnot")

/-- `info`: qoperator.py:203-206, 242-245, 281-284, 320-323 (no parameters), 366-369, 416-419, 465-468, 519-522,
579-582 (one wire), 718-721, 854-857, 988-991 (rotations of two qubits), 1210-1213, 1362-1365 (cnot, cz),
1521-1524, 1679-1682 (cphase, cu3), 1857-1860 (SWAP), 2110-2113, 2157-2160 (toffoli, multi_control_cnot).  For the
default `wires=-1` a toffoli gate has no attribute `control_lst`. -/
def info (g : Gate) : Py Info := do
  let label ← g.label
  match g.cls with
  | .hadamard | .pauliX | .pauliY | .pauliZ => .ok ⟨label, [], [g.wires], none⟩
  | .rx | .ry | .rz | .u1 | .u3 => .ok ⟨label, [], [g.wires], some (Op.gate g).params⟩
  | .rxx | .ryy | .rzz => .ok ⟨label, [], (← g.wires.asList).map .int, some (Op.gate g).params⟩
  | .cnot | .cz => do
    let w ← g.wires.asList
    .ok ⟨label, [.int (← pyGet w 0)], [.int (← pyGet w 1)], none⟩
  | .cphase | .cu3 => do
    let w ← g.wires.asList
    .ok ⟨label, [.int (← pyGet w 0)], [.int (← pyGet w 1)], some (Op.gate g).params⟩
  | .swap => .ok ⟨label, [], (← g.wires.asList).map .int, none⟩
  | .toffoli =>
    match g.wires with
    | .int _ => .error .attributeError
    | .list w => do .ok ⟨label, [.int (← pyGet w 0), .int (← pyGet w 1)], [.int (← pyGet w 2)], none⟩
  | .mcnot => do
    let w ← g.wires.asList
    .ok ⟨label, (w.take (w.length - 1)).map .int, [.int (← pyGet w (-1))], none⟩

end Gate

/-- The attribute `label`: qlayers.py:121, 194, 270, 381, 460, 532, 599. -/
def LayerCls.label : LayerCls → String
  | .xyz => "XYZLayer"
  | .zyx => "ZYXLayer"
  | .yzy => "YZYLayer"
  | .xzx => "XZXLayer"
  | .xz => "XZLayer"
  | .zx => "ZXLayer"
  | .h => "HadamardLayer"

/-- `info`: qlayers.py:177-179, 250-252, 356-358, 436-438, 505-507, 579-581 and, without parameters, 622-624. -/
def SLayer.info (l : SLayer) : Info :=
  ⟨l.cls.label, [], l.wires.map .int, if l.cls = .h then none else some (Op.single l).params⟩

namespace Ring

/-- The attribute `label`: qlayers.py:648, 801, 907. -/
def label (r : Ring) : String :=
  match r.kind with
  | .ring => "ring_of_cnot_Layer"
  | .dagger => "ring_of_cnot_dagger"
  | .ring2 => "ring_of_cnot2_Layer"

/-- The number added to `i` in qlayers.py:777, 884 (1) and 950 (2). -/
def infoOffset (r : Ring) : ℕ :=
  match r.kind with
  | .ring | .dagger => 1
  | .ring2 => 2

/-- `info`: qlayers.py:775-782, 882-889, 948-955. -/
def info (r : Ring) : Py Info := do
  let L := r.wires.length
  let target_lst ← (List.range L).mapM (fun i => pyGet r.wires (((i + r.infoOffset) % L : ℕ) : ℤ))
  if L = 2 then
    .ok ⟨r.label, [.int (← pyGet r.wires 0)], [.int (← pyGet r.wires 1)], none⟩
  else
    .ok ⟨r.label, r.wires.map .int, target_lst.map .int, none⟩

end Ring

/-- `info`: qlayers.py:1010-1012; label: line 984. -/
def Basic.info (b : Basic) : Info :=
  ⟨"BasicEntangleLayer", [], b.wires.map .int, some (Op.basic b).params⟩

/-- `info()` -/
def Op.info : Op → Py Info
  | .gate g => g.info
  | .single l => .ok l.info
  | .ring r => r.info
  | .basic b => .ok b.info

/-- `info()`; `PauliEncoding` and its base classes define no such method. -/
def Obj.info : Obj → Py Info
  | .op o => o.info
  | .enc _ => .error .attributeError

/-- qcircuit.py:504-505, test_torchscript.py:90: the labels of the operations of a circuit. -/
def Circuit.labels (c : Circuit) : Py (List String) :=
  c.gate.mapM (fun o => do .ok (← o.info).label)

end

end QTN
