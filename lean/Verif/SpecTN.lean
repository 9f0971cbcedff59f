import Verif.SpecLayer
import Verif.Model.QTensorNetwork

/-! # Specification vocabulary for tensor-network evaluation -/

namespace QTN.Spec

open Matrix

/-- `f` is a way to apply the operator `M` to state tensors: `f T False` on a rank-`N` state tensor,
`f T True` on a batch of states along the first dimension (`batch_mod=True`). -/
def ContractsAs {N : ℕ} (f : Tensor ℂ → Bool → Py (Tensor ℂ)) (M : QOp N) : Prop :=
  (∀ (T : Tensor ℂ) (v : QState N), IsTen T v →
    ∃ T', f T false = .ok T' ∧ IsTen T' (M *ᵥ v)) ∧
  (∀ (T : Tensor ℂ) (n : ℕ) (v : Fin n → QState N), IsBatch T n v →
    ∃ T', f T true = .ok T' ∧ IsBatch T' n (fun k => M *ᵥ v k))

/-! ## Matrix product states -/

/-- A list of `N` site tensors of shapes `[2, D 0, D 1], [2, D 1, D 2], …` with positive bond
dimensions and boundary dimensions 1. -/
def ValidMPS (N : ℕ) (mps : List (Tensor ℂ)) : Prop :=
  mps.length = N ∧ ∃ D : ℕ → ℕ, D 0 = 1 ∧ D N = 1 ∧ (∀ i, 0 < D i) ∧
    ∀ (i : ℕ) (h : i < mps.length), mps[i].shape = [2, D i, D (i + 1)]

/-- The textbook amplitude of a matrix product state with bond dimensions `D`: the sum over all
values of the bond indices of the product of the site entries. -/
noncomputable def mpsAmp {N : ℕ} (mps : List (Tensor ℂ)) (D : ℕ → ℕ) (a : Bits N) : ℂ :=
  ∑ k : ((i : Fin (N + 1)) → Fin (D i)),
    ∏ i : Fin N, (mps.getD i (Tensor.zeros [])).get [(a i : ℕ), (k i.castSucc : ℕ), (k i.succ : ℕ)]

/-- `mps` is a matrix product state whose amplitudes are those of `v`. -/
def HoldsState {N : ℕ} (mps : List (Tensor ℂ)) (v : QState N) : Prop :=
  mps.length = N ∧ ∃ D : ℕ → ℕ, D 0 = 1 ∧ D N = 1 ∧ (∀ i, 0 < D i) ∧
    (∀ (i : ℕ) (h : i < mps.length), mps[i].shape = [2, D i, D (i + 1)]) ∧
    ∀ a : Bits N, v a = mpsAmp mps D a

/-! ## Singular value decomposition -/

/-- The matrix held by a rank-2 tensor. -/
def toMat (t : Tensor ℂ) (m n : ℕ) : Matrix (Fin m) (Fin n) ℂ := fun i j => t.get [(i : ℕ), (j : ℕ)]

/-- What `torch.svd` promises for an `m × n` matrix `A`: with `k = min m n`, `U` is `m × k` and `V` is
`n × k`, both with orthonormal columns, `S` is a descending list of `k` non-negative reals, and
`A = U diag(S) V^H`. -/
structure IsSVD (A : Tensor ℂ) (m n : ℕ) (o : SVDOut) : Prop where
  shapeU : o.U.shape = [m, min m n]
  shapeV : o.V.shape = [n, min m n]
  lenS : o.S.length = min m n
  orthU : (toMat o.U m (min m n))ᴴ * toMat o.U m (min m n) = 1
  orthV : (toMat o.V n (min m n))ᴴ * toMat o.V n (min m n) = 1
  nonneg : ∀ s ∈ o.S, 0 ≤ s
  desc : o.S.Pairwise (· ≥ ·)
  factor : toMat A m n = toMat o.U m (min m n) *
    diagonal (fun r : Fin (min m n) => ((o.S.getD r 0 : ℝ) : ℂ)) * (toMat o.V n (min m n))ᴴ

/-- The SVD routine keeps its promise on every matrix, whatever it was called with before. -/
def ValidSVD (svd : SVDOracle) : Prop :=
  ∀ (log : List (Tensor ℂ)) (A : Tensor ℂ) (m n : ℕ), A.shape = [m, n] → IsSVD A m n (svd log A)

/-- `σ ≥ 0` is a singular value of the matrix `A`: `σ²` is an eigenvalue of `A^H A`. -/
def SingularValue (A : Tensor ℂ) (σ : ℝ) : Prop :=
  0 ≤ σ ∧ ∃ m n : ℕ, A.shape = [m, n] ∧ ∃ x : Fin n → ℂ, x ≠ 0 ∧
    ((toMat A m n)ᴴ * toMat A m n) *ᵥ x = ((σ ^ 2 : ℝ) : ℂ) • x

/-- Truncation at `1e-8` loses nothing: every singular value of `A` is zero or above the cut-off. -/
def Lossless (A : Tensor ℂ) : Prop := ∀ σ, SingularValue A σ → σ = 0 ∨ σ > 1e-8

/-- Root-sum-square of the singular values in `S` that truncation at `1e-8` discards. -/
noncomputable def cutLoss (S : List ℝ) : ℝ :=
  Real.sqrt (((S.filter (fun s => decide (s ≤ 1e-8))).map (fun s => s ^ 2)).sum)

/-- The total of `cutLoss` over the decompositions of the matrices `As`, made one after the other
after those in `log`. -/
noncomputable def truncLoss (svd : SVDOracle) (log : List (Tensor ℂ)) : List (Tensor ℂ) → ℝ
  | [] => 0
  | A :: As => cutLoss (svd log A).S + truncLoss svd (log ++ [A]) As

/-- Euclidean distance of two states. -/
noncomputable def dist2 {N : ℕ} (v w : QState N) : ℝ := Real.sqrt (∑ a, ‖v a - w a‖ ^ 2)

end QTN.Spec
