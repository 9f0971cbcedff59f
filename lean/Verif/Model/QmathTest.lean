import Verif.Model.Measure
import Mathlib.Data.List.Basic

/-!
# deepquantum/tests/test_gates/test_qmath.py

The tests whose bodies are not empty.  The random tensors of the tests are arguments; printing is left out.
Calls with keyword arguments bind them as Python does.
-/

namespace QTN.QmathTest

noncomputable section

/-- A value passed for a keyword. -/
inductive Val
  | int (i : ℤ)
  | bool (b : Bool)
  | list (l : List ℤ)
  | none
  | tensor (t : Tensor ℂ)

/-- A parameter of a Python function: its name and whether it has a default. -/
structure Param where
  name : String
  hasDefault : Bool

/-- The binding of a call with keyword arguments only: TypeError for an unexpected keyword and for a missing
argument without a default. -/
def bindKw (params : List Param) (kws : List (String × Val)) : Py Unit := do
  raiseIf (∃ kw ∈ kws.map Prod.fst, kw ∉ params.map Param.name) .typeError
  raiseIf (∃ p ∈ params, p.hasDefault = false ∧ p.name ∉ kws.map Prod.fst) .typeError

/-- qmath.py:242: the parameters of `measure`. -/
def measureParams : List Param := [⟨"n_qubit", false⟩, ⟨"state", false⟩, ⟨"ith", true⟩]

/-- A call of `measure` (qmath.py:242-253) with keywords.  Values of unsuitable types raise TypeError (in
Python a TypeError or an AttributeError). -/
def measureKw (kws : List (String × Val)) : Py (List ℝ) := do
  bindKw measureParams kws
  match kws.lookup "n_qubit", kws.lookup "state", kws.lookup "ith" with
  | some (.int n), some (.tensor t), none => measure n t .none
  | some (.int n), some (.tensor t), some .none => measure n t .none
  | some (.int n), some (.tensor t), some (.int i) => measure n t (.int i)
  | some (.int n), some (.tensor t), some (.list l) => measure n t (.list l)
  | _, _, _ => .error .typeError

/-- test_qmath.py:20-28 `test_multi_kron`. -/
def test_multi_kron (a b c : Tensor ℂ) : Py Unit := do
  let d ← multi_kron [a, b, c]
  pyAssert (d.shape = [2 ^ 3, 2 ^ 3])

/-- test_qmath.py:30-35 `test_dag`. -/
def test_dag (a b : Tensor ℂ) : Py Unit := do
  let _ ← dag a
  let _ ← dag b
  .ok ()

/-- test_qmath.py:55-56: `rho`. -/
def rho : Tensor ℂ := Tensor.ofFn [2, 2] (fun idx => if idx.getD 0 0 = idx.getD 1 0 then 0.5 else 0)

/-- test_qmath.py:58-59: `M`. -/
def M : Tensor ℂ := Tensor.ofFn [2, 2] (fun idx =>
  if idx.getD 0 0 = idx.getD 1 0 then (if idx.getD 0 0 = 0 then 1 else -1) else 0)

/-- test_qmath.py:54-62 `test_measure`. -/
def test_measure : Py Unit := do
  let _ ← measureKw [("state", .tensor rho), ("M", .tensor M), ("rho", .bool false)]
  .ok ()

end

end QTN.QmathTest
