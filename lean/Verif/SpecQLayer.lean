import Verif.SpecLayer

/-! # Specification of the older layer functions -/

namespace QTN.Spec

open Matrix

/-- The order of the wires: from the first to the last, or from the last to the first. -/
def order {N : ℕ} (up2down : Bool) (i : Fin N) : Fin N := if up2down then i else i.rev

/-- A controlled gate for every pair, in the order of the list; the wires are numbered in the given order. -/
noncomputable def pairGates {N : ℕ} (g : Mat2) (up2down : Bool) (l : List (Fin N × Fin N)) : QOp N :=
  timeOrdered (l.map (fun ij => controlled [order up2down ij.1] (order up2down ij.2) g))

/-- Wire `i` and the wire `d` places further, cyclically. -/
def cyclic (N d : ℕ) : List (Fin N × Fin N) :=
  (List.finRange N).map (fun i => (i, ⟨(i + d) % N, Nat.mod_lt _ i.pos⟩))

/-- Neighbours: `(0,1), (2,3), …`, then `(1,2), (3,4), …`. -/
def neighbours (N : ℕ) : List (Fin N × Fin N) :=
  List.ofFn (fun k : Fin (N / 2) => (⟨2 * k, by omega⟩, ⟨2 * k + 1, by omega⟩)) ++
    List.ofFn (fun k : Fin ((N - 1) / 2) => (⟨2 * k + 1, by omega⟩, ⟨2 * k + 2, by omega⟩))

/-- All ordered pairs of different wires. -/
def allPairs (N : ℕ) : List (Fin N × Fin N) :=
  (List.finRange N).flatMap (fun i => ((List.finRange N).filter (· ≠ i)).map (fun j => (i, j)))

/-- The entangling layers: two qubits get a single gate. -/
noncomputable def entangleOp {N : ℕ} (g : Mat2) (up2down : Bool) (l : List (Fin N × Fin N)) : QOp N :=
  if h : N = 2 then controlled [order up2down ⟨0, by omega⟩] (order up2down ⟨1, by omega⟩) g
  else pairGates g up2down l

/-- Two-qubit rotations of neighbours: `(0,1), (2,3), …` with the first `N/2` angles, then
`(1,2), (3,4), …` with the others. -/
noncomputable def pairRotOp (N : ℕ) (P : Mat2) (p : List ℝ) : QOp N :=
  timeOrdered (List.zipWith (fun ij θ => rot2 P θ ij.1 ij.2) (neighbours N) p)

end QTN.Spec
