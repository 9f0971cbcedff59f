import Verif.Model.QOperator

/-!
# `_Zmeasure` and `measure` of deepquantum/gates/qmath.py

Kept apart from `Verif.Model.QMath` because they construct `dq.PauliZ` gates.
-/

namespace QTN

noncomputable section

/-- The argument `ith` of `measure`: None, an integer, or a list of integers. -/
inductive MeasArg
  | none
  | int (i : ℤ)
  | list (l : List ℤ)

/-- qmath.py:210 `if not ith`: None, 0 and the empty list are false in Python. -/
def MeasArg.falsy : MeasArg → Bool
  | .none => true
  | .int i => i = 0
  | .list l => l = []

/-- `dq.PauliZ(n_qubit, i).U_expand()` of qmath.py:212, 215, 219. -/
def zObservable (n i : ℤ) : Py (Tensor ℂ) := (mkPauliZ n (.int i)).U_expand

/-- qmath.py:207-222 `_Zmeasure`. -/
def Zmeasure (n : ℤ) (ith : MeasArg) : Py (List (Tensor ℂ)) :=
  if ith.falsy = true then (pyRange n).mapM (zObservable n)
  else match ith with
    | .int i => do .ok [← zObservable n i]
    | .list l => l.mapM (zObservable n)
    | .none => .ok []  -- unreachable

/-- qmath.py:242-253 `measure`. -/
def measure (n : ℤ) (state : Tensor ℂ) (ith : MeasArg) : Py (List ℝ) := do
  let state := state.squeeze
  let rho := decide (state.rank ≠ 1)
  (← Zmeasure n ith).mapM (fun Mi => expval state Mi rho)

end

end QTN
