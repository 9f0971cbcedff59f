import Verif.SpecLayer
import Verif.Build
import Verif.Model.QCircuit

/-! # Constructor calls for the specified layers -/

namespace QTN

open Spec

/-- The class of a rotation layer. -/
def layerCls : LayerKind → LayerCls
  | .xyz => .xyz
  | .zyx => .zyx
  | .yzy => .yzy
  | .xzx => .xzx
  | .xz => .xz
  | .zx => .zx

/-- The wire numbers of a list of qubits. -/
abbrev wires {N : ℕ} (ws : List (Fin N)) : List ℤ := ws.map (fun i : Fin N => wire i)

/-- The constructor call a user writes for a gate or layer on `N` qubits. -/
noncomputable def buildItem {N : ℕ} : Item N → Py Op
  | .gate ins => do .ok (.gate (← build ins))
  | .layer k ws p => do .ok (.single (← mkSLayer (layerCls k) N (wires ws) p))
  | .hlayer ws => do .ok (.single (← mkSLayer .h N (wires ws) []))
  | .ring ws => do .ok (.ring (← mkRing .ring N (wires ws)))
  | .ringDag ws => do .ok (.ring (← mkRing .dagger N (wires ws)))
  | .ring2 ws => do .ok (.ring (← mkRing .ring2 N (wires ws)))
  | .basic ws p reps => do .ok (.basic (← mkBasic N (wires ws) p false reps))

end QTN
