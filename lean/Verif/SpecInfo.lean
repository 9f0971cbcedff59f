import Verif.SpecLayer
import Verif.Model.Info

/-!
# How to read the dictionary of `info()`

The operator that a dictionary describes, by its label, its lists of controls and targets, and its parameters.
-/

namespace QTN.Spec

open Matrix

/-- A wire that is one of the numbers `0, …, N-1`. -/
def wireOf (N : ℕ) : Wires → Option (Fin N)
  | .int i => if h : 0 ≤ i ∧ i < N then some ⟨i.toNat, by omega⟩ else none
  | .list _ => none

/-- The CNOTs with the listed controls and targets. -/
noncomputable def cnots {N : ℕ} (cs ts : List (Fin N)) : List (QOp N) :=
  List.zipWith (fun c t => controlled [c] t X) cs ts

/-- A single-qubit gate. -/
noncomputable def readSingle {N : ℕ} (g : Mat2) : List (Fin N) → List (Fin N) → Option PV → Option (QOp N)
  | [], [t], none => some (onQubit t g)
  | _, _, _ => none

/-- A single-qubit gate with one angle. -/
noncomputable def readAngle {N : ℕ} (g : ℝ → Mat2) :
    List (Fin N) → List (Fin N) → Option PV → Option (QOp N)
  | [], [t], some (.scalar θ) => some (onQubit t (g θ))
  | _, _, _ => none

/-- A rotation of two qubits. -/
noncomputable def readRot2 {N : ℕ} (P : Mat2) : List (Fin N) → List (Fin N) → Option PV → Option (QOp N)
  | [], [p, q], some (.scalar θ) => some (rot2 P θ p q)
  | _, _, _ => none

/-- A rotation layer. -/
noncomputable def readLayer {N : ℕ} (axes : List Mat2) :
    List (Fin N) → List (Fin N) → Option PV → Option (QOp N)
  | [], ws, some (.vec p) => some (layerOp axes ws p)
  | _, _, _ => none

/-- A layer without parameters. -/
noncomputable def readH {N : ℕ} : List (Fin N) → List (Fin N) → Option PV → Option (QOp N)
  | [], ws, none => some (hOp ws)
  | _, _, _ => none

/-- The gate `u3`. -/
noncomputable def readU3 {N : ℕ} : List (Fin N) → List (Fin N) → Option PV → Option (QOp N)
  | [], [t], some (.vec [θ, φ, l]) => some (onQubit t (U3 θ φ l))
  | _, _, _ => none

/-- A controlled gate without parameters. -/
noncomputable def readControlled {N : ℕ} (g : Mat2) :
    List (Fin N) → List (Fin N) → Option PV → Option (QOp N)
  | cs, [t], none => some (controlled cs t g)
  | _, _, _ => none

/-- A controlled phase. -/
noncomputable def readCphase {N : ℕ} : List (Fin N) → List (Fin N) → Option PV → Option (QOp N)
  | cs, [t], some (.scalar θ) => some (controlled cs t (phase θ))
  | _, _, _ => none

/-- A controlled `u3`. -/
noncomputable def readCu3 {N : ℕ} : List (Fin N) → List (Fin N) → Option PV → Option (QOp N)
  | cs, [t], some (.vec [θ, φ, l]) => some (controlled cs t (U3 θ φ l))
  | _, _, _ => none

/-- An exchange of two qubits. -/
noncomputable def readSwap {N : ℕ} : List (Fin N) → List (Fin N) → Option PV → Option (QOp N)
  | [], [p, q], none => some (swap p q)
  | _, _, _ => none

/-- The CNOTs of a ring, in the order of the lists. -/
noncomputable def readRing {N : ℕ} : List (Fin N) → List (Fin N) → Option PV → Option (QOp N)
  | cs, ts, none => some (timeOrdered (cnots cs ts))
  | _, _, _ => none

/-- The CNOTs of a ring, in the opposite order. -/
noncomputable def readRingDag {N : ℕ} : List (Fin N) → List (Fin N) → Option PV → Option (QOp N)
  | cs, ts, none => some (timeOrdered (cnots cs ts).reverse)
  | _, _, _ => none

/-- Entangling layers, as many as there are blocks of three parameters per wire. -/
noncomputable def readBasic {N : ℕ} : List (Fin N) → List (Fin N) → Option PV → Option (QOp N)
  | [], ws, some (.vec p) => some (basicOp ws p (p.length / (3 * ws.length)))
  | _, _, _ => none

/-- What the label stands for; the label of a NOT with several controls starts with their number. -/
noncomputable def readLabel {N : ℕ} (label : String) (cs : List (Fin N)) :
    List (Fin N) → List (Fin N) → Option PV → Option (QOp N) :=
  if label = toString cs.length ++ "_control_cnot" then readControlled X
  else if label = "Hadamard" then readSingle H
  else if label = "PauliX" then readSingle X
  else if label = "PauliY" then readSingle Y
  else if label = "PauliZ" then readSingle Z
  else if label = "Rx" then readAngle (rot X)
  else if label = "Ry" then readAngle (rot Y)
  else if label = "Rz" then readAngle (rot Z)
  else if label = "u1" then readAngle phase
  else if label = "u3" then readU3
  else if label = "Rxx" then readRot2 X
  else if label = "Ryy" then readRot2 Y
  else if label = "Rzz" then readRot2 Z
  else if label = "cnot" then readControlled X
  else if label = "cz" then readControlled Z
  else if label = "cphase" then readCphase
  else if label = "cu3" then readCu3
  else if label = "SWAP" then readSwap
  else if label = "toffoli" then readControlled X
  else if label = "XYZLayer" then readLayer [X, Y, Z]
  else if label = "ZYXLayer" then readLayer [Z, Y, X]
  else if label = "YZYLayer" then readLayer [Y, Z, Y]
  else if label = "XZXLayer" then readLayer [X, Z, X]
  else if label = "XZLayer" then readLayer [X, Z]
  else if label = "ZXLayer" then readLayer [Z, X]
  else if label = "HadamardLayer" then readH
  else if label = "ring_of_cnot_Layer" then readRing
  else if label = "ring_of_cnot2_Layer" then readRing
  else if label = "ring_of_cnot_dagger" then readRingDag
  else if label = "BasicEntangleLayer" then readBasic
  else fun _ _ _ => none

/-- The operator on `N` qubits that a dictionary describes; `none` if it describes none. -/
noncomputable def readInfo (N : ℕ) (i : Info) : Option (QOp N) :=
  match i.contral_lst.mapM (wireOf N), i.target_lst.mapM (wireOf N) with
  | some cs, some ts => readLabel i.label cs cs ts i.params
  | _, _ => none

end QTN.Spec
