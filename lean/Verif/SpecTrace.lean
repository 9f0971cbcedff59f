import Verif.Spec
import Mathlib.Order.Fin.Basic

/-! # Specification of the partial trace -/

namespace QTN.Spec

/-- The partial trace of an operator, keeping the qubits `keep 0, keep 1, …`: the entry at `(x, y)` is
the sum of the entries at all pairs `(a, b)` of basis states that restrict to `x` and `y` on the kept
qubits and agree on the others. -/
noncomputable def ptr {N M : ℕ} (keep : Fin M → Fin N) (r : QOp N) : QOp M := fun x y =>
  ∑ a : Bits N, ∑ b : Bits N,
    if a ∘ keep = x ∧ b ∘ keep = y ∧ ∀ i, i ∉ Set.range keep → a i = b i then r a b else 0

/-- `keep` lists, in increasing order, exactly the qubits that are not in `lst`. -/
def Keeps {N M : ℕ} (keep : Fin M → Fin N) (lst : List (Fin N)) : Prop :=
  StrictMono keep ∧ ∀ i, i ∈ lst ↔ i ∉ Set.range keep

/-- The trace. -/
noncomputable def tr {N : ℕ} (r : QOp N) : ℂ := ∑ a : Bits N, r a a

end QTN.Spec
