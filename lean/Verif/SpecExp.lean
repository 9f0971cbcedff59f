import Verif.SpecLayer

/-! # Specification vocabulary for expectation values -/

namespace QTN.Spec

open Matrix

/-- `⟨v| O |v⟩`. -/
noncomputable def braket {N : ℕ} (O : QOp N) (v : QState N) : ℂ := ∑ a, ∑ b, star (v a) * O a b * v b

/-- The squared norm of a state. -/
noncomputable def sqNorm {N : ℕ} (v : QState N) : ℝ := ∑ a, ‖v a‖ ^ 2

/-- `O` is Hermitian. -/
def Hermitian {N : ℕ} (O : QOp N) : Prop := ∀ a b, O a b = star (O b a)

/-- `state` is a vector with `d` entries `psi 0, …, psi (d-1)`, given as a vector, a row or a column. -/
def IsVec (state : Tensor ℂ) (d : ℕ) (psi : ℕ → ℂ) : Prop :=
  (state.shape = [d] ∧ ∀ i < d, state.get [i] = psi i) ∨
  (state.shape = [1, d] ∧ ∀ i < d, state.get [0, i] = psi i) ∨
  (state.shape = [d, 1] ∧ ∀ i < d, state.get [i, 0] = psi i)

/-- `m` is the `d × d` matrix with entries `f i j`. -/
def IsMat (m : Tensor ℂ) (d : ℕ) (f : ℕ → ℕ → ℂ) : Prop :=
  m.shape = [d, d] ∧ ∀ i j, i < d → j < d → m.get [i, j] = f i j

/-- The probability that qubit `i` is found in state `b`, for basis-state probabilities `p`. -/
noncomputable def prob {N : ℕ} (p : Bits N → ℝ) (i : Fin N) (b : Fin 2) : ℝ := ∑ a with a i = b, p a

/-- `state` is an `N`-qubit state vector (as a vector, a row or a column) or density matrix (of trace
within `1e-4` of one) whose basis-state probabilities are `p`. -/
def HasProbs {N : ℕ} (state : Tensor ℂ) (p : Bits N → ℝ) : Prop :=
  (∃ psi, IsVec state (2 ^ N) psi ∧ ∀ a, p a = ‖psi (enc a)‖ ^ 2) ∨
  (∃ r, IsMat state (2 ^ N) r ∧ ‖(∑ a : Bits N, r (enc a) (enc a)) - 1‖ ≤ 1e-4 ∧
    ∀ a, p a = (r (enc a) (enc a)).re)

end QTN.Spec
