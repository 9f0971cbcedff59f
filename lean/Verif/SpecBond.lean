import Verif.SpecTN

/-! # Specification vocabulary for the sizes of matrix product states -/

namespace QTN.Spec

/-- A matrix product state of `N` sites none of whose bond dimensions exceeds the Schmidt rank a state of
`N` qubits can have across that bond: `D i ≤ 2 ^ min i (N - i)`. -/
def BoundedMPS (N : ℕ) (mps : List (Tensor ℂ)) : Prop :=
  mps.length = N ∧ ∃ D : ℕ → ℕ, D 0 = 1 ∧ D N = 1 ∧ (∀ i, 0 < D i) ∧
    (∀ i ≤ N, D i ≤ 2 ^ min i (N - i)) ∧
    ∀ (i : ℕ) (h : i < mps.length), mps[i].shape = [2, D i, D (i + 1)]

/-- The computation returns a value with the property `P` or raises RuntimeError; nothing else can
happen. -/
def ReturnsOr {α : Type} (P : α → Prop) (x : TNM α) : Prop :=
  ∀ s, (∃ a s', x s = (.ok a, s') ∧ P a) ∨ ∃ s', x s = (.error .runtimeError, s')

end QTN.Spec
