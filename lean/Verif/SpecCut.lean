import Verif.SpecTN
import Mathlib.LinearAlgebra.Matrix.Rank

/-! # Cutting a state in two -/

namespace QTN.Spec

open Matrix

variable {N : ℕ}

/-- The first `k` bits of `a` followed by the remaining bits of `b`. -/
def splice (k : ℕ) (a b : Bits N) : Bits N := fun i => if (i : ℕ) < k then a i else b i

/-- The amplitudes of a state as a matrix whose rows depend on the first `k` bits and whose columns
depend on the others.  (A row or column occurs once for every value of the bits that it ignores;
this does not change the rank.) -/
def cutMat (v : QState N) (k : ℕ) : Matrix (Bits N) (Bits N) ℂ := fun a b => v (splice k a b)

/-- The Schmidt rank of a state between the first `k` qubits and the others. -/
noncomputable def schmidtRank (v : QState N) (k : ℕ) : ℕ := (cutMat v k).rank

/-- The sum of the squares of all singular values that are discarded when the matrices `As` are
decomposed one after the other after those in `log`. -/
noncomputable def lossSq (svd : SVDOracle) (log : List (Tensor ℂ)) : List (Tensor ℂ) → ℝ
  | [] => 0
  | A :: As => (((svd log A).S.filter (fun s => decide (s ≤ 1e-8))).map (fun s => s ^ 2)).sum +
      lossSq svd (log ++ [A]) As

end QTN.Spec
