import Verif.Model.Round
import Verif.Model.Measure

/-!
# `expval` and `measure` of deepquantum/gates/qmath.py in rounded arithmetic

For state vectors.  `squeeze`, `view`, conjugation, transposition, `diag` and `.real` move numbers without
rounding.  The branch for density matrices (lines 236-239) is in `Model/RoundRho.lean`.
-/

namespace QTN

noncomputable section

namespace Arith

variable (A : Arith)

/-- `dq.PauliZ(n_qubit, i).U_expand()` of qmath.py:212, 215, 219. -/
def zObservable (n i : ℤ) : Py (Tensor ℂ) := A.U_expand (mkPauliZ n (.int i))

/-- qmath.py:207-222 `_Zmeasure`. -/
def Zmeasure (n : ℤ) (ith : MeasArg) : Py (List (Tensor ℂ)) :=
  if ith.falsy = true then (pyRange n).mapM (A.zObservable n)
  else match ith with
    | .int i => do .ok [← A.zObservable n i]
    | .list l => l.mapM (A.zObservable n)
    | .none => .ok []  -- unreachable

/-- qmath.py:225-234 `expval` with `rho=False`. -/
def expval (state M : Tensor ℂ) : Py ℝ := do
  let s ← state.view [-1, 1]
  let m1 ← A.matmul (← A.matmul (← dag s) M) s
  .ok (m1.diagVec.get [0]).re

/-- qmath.py:242-253 `measure` of a state vector (line 245). -/
def measure (n : ℤ) (state : Tensor ℂ) (ith : MeasArg) : Py (List ℝ) := do
  let state := state.squeeze
  (← A.Zmeasure n ith).mapM (fun Mi => A.expval state Mi)

end Arith

end

end QTN
