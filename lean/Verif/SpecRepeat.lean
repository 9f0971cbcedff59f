import Verif.SpecLayer

/-! # Layers whose wire list names a wire several times -/

namespace QTN.Spec

variable {N : ℕ}

/-- The position of the last occurrence of `j` in `ws`. -/
def lastIdx (ws : List (Fin N)) (j : Fin N) : ℕ := ws.length - 1 - ws.reverse.idxOf j

/-- The rotation a wire gets from the last block of angles listed for it. -/
noncomputable def lastRot (axes : List Mat2) (ws : List (Fin N)) (p : List ℝ) (j : Fin N) : Mat2 :=
  if j ∈ ws then seqRot axes (p.drop (axes.length * lastIdx ws j)) else 1

/-- Every listed wire is rotated once, with its last block of angles. -/
noncomputable def lastOp (axes : List Mat2) (ws : List (Fin N)) (p : List ℝ) : QOp N :=
  onEach (lastRot axes ws p)

/-- Every wire is rotated with its last block of angles, as often as it is listed. -/
noncomputable def lastPowOp (axes : List Mat2) (ws : List (Fin N)) (p : List ℝ) : QOp N :=
  onEach (fun j => lastRot axes ws p j ^ ws.count j)

/-- The gate of each listed wire with its own block of angles, one after the other. -/
noncomputable def allOp (axes : List Mat2) (ws : List (Fin N)) (p : List ℝ) : QOp N :=
  timeOrdered (ws.zipIdx.map (fun wi => onQubit wi.1 (seqRot axes (p.drop (axes.length * wi.2)))))

/-- No CNOT of the ring has equal control and target. -/
def RingDistinct (d : ℕ) (ws : List (Fin N)) : Prop :=
  match ws with
  | [a, b] => a ≠ b
  | ws => ∀ (i : ℕ) (h : i < ws.length), ws[i] ≠ ws[(i + d) % ws.length]'(Nat.mod_lt _ (by omega))

end QTN.Spec
