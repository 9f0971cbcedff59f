import Verif.SpecCut
import Verif.SpecTrace

/-! # Matrix product density operators and cuts of operators -/

namespace QTN.Spec

open Matrix

variable {N : ℕ}

/-- The textbook entry of a matrix product operator with bond dimensions `D`: the sum over all values
of the bond indices of the product of the site entries. -/
noncomputable def mpdoEntry (mps : List (Tensor ℂ)) (D : ℕ → ℕ) (x y : Bits N) : ℂ :=
  ∑ k : ((i : Fin (N + 1)) → Fin (D i)),
    ∏ i : Fin N, (mps.getD i (Tensor.zeros [])).get [(x i : ℕ), (y i : ℕ), (k i.castSucc : ℕ), (k i.succ : ℕ)]

/-- `mps` is a list of `N` sites of shapes `[2, 2, D 0, D 1], [2, 2, D 1, D 2], …` with boundary
dimensions 1, and its entries are those of `r`. -/
def HoldsOp (mps : List (Tensor ℂ)) (D : ℕ → ℕ) (r : QOp N) : Prop :=
  mps.length = N ∧ D 0 = 1 ∧ D N = 1 ∧ (∀ i, 0 < D i) ∧
    (∀ (i : ℕ) (h : i < mps.length), mps[i].shape = [2, 2, D i, D (i + 1)]) ∧
    ∀ x y : Bits N, r x y = mpdoEntry mps D x y

/-- The entries of an operator as a matrix whose rows depend on the first `k` row and column bits and
whose columns depend on the others. -/
def opCut (r : QOp N) (k : ℕ) : Matrix (Bits N × Bits N) (Bits N × Bits N) ℂ :=
  fun p q => r (splice k p.1 q.1) (splice k p.2 q.2)

/-- The operator Schmidt rank between the first `k` qubits and the others. -/
noncomputable def opRank (r : QOp N) (k : ℕ) : ℕ := (opCut r k).rank

/-- The operator `|v⟩⟨v|`. -/
def pureOp (v : QState N) : QOp N := fun x y => v x * star (v y)

/-- The Frobenius norm of an operator. -/
noncomputable def frob (r : QOp N) : ℝ := Real.sqrt (∑ x, ∑ y, ‖r x y‖ ^ 2)

/-- The columns of the block matrix of a four-leg site are orthonormal. -/
def SiteIsometry (t : Tensor ℂ) (l m : ℕ) : Prop :=
  ∀ p q, p < m → q < m →
    ∑ x ∈ Finset.range 2, ∑ y ∈ Finset.range 2, ∑ i ∈ Finset.range l,
      star (t.get [x, y, i, p]) * t.get [x, y, i, q] = if p = q then 1 else 0

end QTN.Spec
