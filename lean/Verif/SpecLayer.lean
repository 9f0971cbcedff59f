import Verif.SpecInstr

/-!
# Specification of the layers and of circuits

Layers are described by what they do to each qubit or by the list of CNOTs they stand for; a circuit
is a list of items and its operator is their time-ordered product.
-/

namespace QTN.Spec

open Matrix

/-- Product of operators in time order: the first element of the list acts first. -/
def timeOrdered {N : ℕ} (l : List (QOp N)) : QOp N := l.foldl (fun acc u => u * acc) 1

/-- Rotations about the listed axes with the listed angles, first axis applied first. -/
noncomputable def seqRot : List Mat2 → List ℝ → Mat2
  | P :: Ps, θ :: θs => seqRot Ps θs * rot P θ
  | _, _ => 1

/-- The rotation layers. -/
inductive LayerKind
  | xyz | zyx | yzy | xzx | xz | zx

/-- The axes of a rotation layer in the order of application. -/
noncomputable def LayerKind.axes : LayerKind → List Mat2
  | .xyz => [X, Y, Z]
  | .zyx => [Z, Y, X]
  | .yzy => [Y, Z, Y]
  | .xzx => [X, Z, X]
  | .xz => [X, Z]
  | .zx => [Z, X]

/-- A rotation layer: the `i`-th listed qubit is rotated about the axes by the angles
`p[k*i], p[k*i+1], …` (`k` axes); the other qubits are left alone. -/
noncomputable def layerOp {N : ℕ} (axes : List Mat2) (ws : List (Fin N)) (p : List ℝ) : QOp N :=
  onEach (fun j => if j ∈ ws then seqRot axes (p.drop (axes.length * ws.idxOf j)) else 1)

/-- A Hadamard on each listed qubit. -/
noncomputable def hOp {N : ℕ} (ws : List (Fin N)) : QOp N :=
  onEach (fun j => if j ∈ ws then H else 1)

/-- The CNOTs of a ring with offset `d` in time order: wire `i` controls wire `i+d` (cyclically). -/
noncomputable def ringGates {N : ℕ} (d : ℕ) (ws : List (Fin N)) : List (QOp N) :=
  List.ofFn (fun i : Fin ws.length =>
    controlled [ws.get i] (ws.get ⟨(i + d) % ws.length, Nat.mod_lt _ i.pos⟩) X)

/-- A ring of CNOTs; two wires stand for a single CNOT. -/
noncomputable def ringOp {N : ℕ} (d : ℕ) (ws : List (Fin N)) : QOp N :=
  match ws with
  | [a, b] => controlled [a] b X
  | ws => timeOrdered (ringGates d ws)

/-- The ring of CNOTs in reverse order. -/
noncomputable def ringDagOp {N : ℕ} (ws : List (Fin N)) : QOp N :=
  match ws with
  | [a, b] => controlled [a] b X
  | ws => timeOrdered (ringGates 1 ws).reverse

/-- `reps` repetitions of a YZY layer followed by a ring of CNOTs; repetition `r` uses the `r`-th
block of `3 * len(ws)` parameters. -/
noncomputable def basicOp {N : ℕ} (ws : List (Fin N)) (p : List ℝ) (reps : ℕ) : QOp N :=
  timeOrdered ((List.range reps).map (fun r =>
    ringOp 1 ws * layerOp [Y, Z, Y] ws (p.drop (r * (3 * ws.length)))))

/-- A gate or a layer on an `N`-qubit register. -/
inductive Item (N : ℕ)
  | gate (ins : Instr N)
  | layer (k : LayerKind) (ws : List (Fin N)) (p : List ℝ)
  | hlayer (ws : List (Fin N))
  | ring (ws : List (Fin N))
  | ringDag (ws : List (Fin N))
  | ring2 (ws : List (Fin N))
  | basic (ws : List (Fin N)) (p : List ℝ) (reps : ℕ)

/-- The wires of an item are distinct and its parameter list has the documented length. -/
def Item.WF {N : ℕ} : Item N → Prop
  | .gate ins => ins.WF
  | .layer k ws p => 0 < N ∧ ws.Nodup ∧ p.length = k.axes.length * ws.length
  | .hlayer ws => 0 < N ∧ ws.Nodup
  | .ring ws | .ringDag ws | .ring2 ws => ws.Nodup ∧ 2 ≤ ws.length
  | .basic ws p reps => ws.Nodup ∧ 2 ≤ ws.length ∧ 1 ≤ reps ∧ p.length = 3 * ws.length * reps

/-- The operator of an item. -/
noncomputable def Item.op {N : ℕ} : Item N → QOp N
  | .gate ins => ins.op
  | .layer k ws p => layerOp k.axes ws p
  | .hlayer ws => hOp ws
  | .ring ws => ringOp 1 ws
  | .ringDag ws => ringDagOp ws
  | .ring2 ws => ringOp 2 ws
  | .basic ws p reps => basicOp ws p reps

/-- The operator of a circuit. -/
noncomputable def circuitOp {N : ℕ} (l : List (Item N)) : QOp N := timeOrdered (l.map Item.op)

end QTN.Spec
