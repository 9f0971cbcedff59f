import Verif.Build
import Verif.Model.QGate

/-!
# Specification of the older circuit class

What an entry of `gate_list` means, and when `gate_list` and `u` describe the same operations.
-/

namespace QTN.Spec

open QTN.Legacy (Entry Name Circ Call)

/-- The qubit a Python index denotes: `-1` is the last one. -/
def qubitAt (N : ℕ) (i : ℤ) : Option (Fin N) :=
  if h : 0 ≤ i ∧ i < N then some ⟨i.toNat, by omega⟩
  else if h : -(N : ℤ) ≤ i ∧ i < 0 then some ⟨(i + N).toNat, by omega⟩
  else none

/-- The gate a dictionary of `gate_list` describes, `none` if it describes none. -/
def entryInstr (N : ℕ) (e : Entry) : Option (Instr N) :=
  match e.which with
  | .int t => (qubitAt N t).bind fun i =>
    match e.gate, e.theta with
    | .rx, some φ => some (.rx φ i)
    | .ry, some φ => some (.ry φ i)
    | .rz, some φ => some (.rz φ i)
    | .X, none => some (.x i)
    | .Y, none => some (.y i)
    | .Z, none => some (.z i)
    | .H, none => some (.h i)
    | _, _ => none
  | .list [a, b] => (qubitAt N a).bind fun p => (qubitAt N b).bind fun q =>
    if p = q then none else
    match e.gate, e.theta with
    | .cnot, none => some (.cnot p q)
    | .cz, none => some (.cz p q)
    | .rxx, some φ => some (.rxx φ p q)
    | .ryy, some φ => some (.ryy φ p q)
    | .rzz, some φ => some (.rzz φ p q)
    | _, _ => none
  | _ => none

/-- `gate_list` and `u` describe the same operations in the same order. -/
def InStep (N : ℕ) (c : Circ) : Prop :=
  List.Forall₂ (fun e m => ∃ ins : Instr N, entryInstr N e = some ins ∧ Represents m ins.op) c.gateList c.u

/-- The second qubit of a two-qubit rotation as the code reads it: 0 counts as "not given". -/
def second (a b : ℤ) : ℤ := if b = 0 then a + 1 else b

/-- The calls that keep `gate_list` and `u` in step on `N` qubits: calls rejected by an assertion,
valid calls that record a gate, and rejected calls of `multi_control_cnot`. -/
def Good (N : ℕ) : Call → Prop
  | .cnot k t | .cz k t => k ≤ N → 0 ≤ t → t < N → -(N : ℤ) ≤ k ∧ k < N ∧ k ≠ t ∧ k + N ≠ t
  | .rxx a b _ | .rzz a b _ => a ≤ N → second a b ≤ N →
    0 ≤ a ∧ a < N ∧ 0 ≤ second a b ∧ second a b < N ∧ a ≠ second a b
  | .ryy a b _ => a ≤ N → second a b ≤ N → a ≠ second a b →
    0 ≤ a ∧ a < N ∧ 0 ≤ second a b ∧ second a b < N
  | .mcnot cs t => ¬ (cs ≠ [] ∧ (∀ c ∈ t :: cs, 0 ≤ c ∧ c < N) ∧ t ∉ cs)
  | _ => True

/-- The call of the older class for a gate, for the gates it has. -/
def legacyCall {N : ℕ} : Instr N → Option Call
  | .h i => some (.h (wire i))
  | .x i => some (.x (wire i))
  | .y i => some (.y (wire i))
  | .z i => some (.z (wire i))
  | .rx φ i => some (.rx (wire i) φ)
  | .ry φ i => some (.ry (wire i) φ)
  | .rz φ i => some (.rz (wire i) φ)
  | .rxx φ p q => some (.rxx (wire p) (wire q) φ)
  | .ryy φ p q => some (.ryy (wire p) (wire q) φ)
  | .rzz φ p q => some (.rzz (wire p) (wire q) φ)
  | .cnot c t => some (.cnot (wire c) (wire t))
  | .cz c t => some (.cz (wire c) (wire t))
  | .mcnot cs t => some (.mcnot (cs.map (fun c : Fin N => wire c)) (wire t))
  | _ => none

/-- A two-qubit rotation whose second qubit is number 0. -/
def SecondZero {N : ℕ} : Instr N → Prop
  | .rxx _ _ q | .ryy _ _ q | .rzz _ _ q => (q : ℕ) = 0
  | _ => False

/-- The gate the older class applies instead: a second qubit 0 is replaced by the successor of the
first qubit. -/
def readAs {N : ℕ} : Instr N → Instr N
  | .rxx φ p q => if h : (q : ℕ) = 0 ∧ p + 1 < N then .rxx φ p ⟨p + 1, h.2⟩ else .rxx φ p q
  | .ryy φ p q => if h : (q : ℕ) = 0 ∧ p + 1 < N then .ryy φ p ⟨p + 1, h.2⟩ else .ryy φ p q
  | .rzz φ p q => if h : (q : ℕ) = 0 ∧ p + 1 < N then .rzz φ p ⟨p + 1, h.2⟩ else .rzz φ p q
  | ins => ins

/-- The first qubit of a two-qubit rotation with second qubit 0 is not the last one. -/
def HasNext {N : ℕ} : Instr N → Prop
  | .rxx _ p q | .ryy _ p q | .rzz _ p q => (q : ℕ) = 0 → p + 1 < N
  | _ => True

/-- The three two-qubit rotations. -/
inductive Rot
  | xx | yy | zz

/-- The method call of a rotation. -/
def Rot.call : Rot → ℤ → ℤ → ℝ → Call
  | .xx => .rxx
  | .yy => .ryy
  | .zz => .rzz

/-- The name under which a rotation is recorded. -/
def Rot.name : Rot → Name
  | .xx => .rxx
  | .yy => .ryy
  | .zz => .rzz

/-- The Pauli matrix of a rotation. -/
def Rot.mat : Rot → Mat2
  | .xx => X
  | .yy => Y
  | .zz => Z

end QTN.Spec
