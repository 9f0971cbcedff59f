import Verif.Model.RoundRho
import Verif.Model.QMath

/-!
# `IsHermitian`, `IsNormalized` and `IsUnitary` of deepquantum/gates/qmath.py in rounded arithmetic

In the comparisons the number 1e-6 is converted to the type of the tensor.
-/

namespace QTN

noncomputable section

namespace Arith

variable (A : Arith) (R : TraceRoutines A)

/-- qmath.py:83-97 `IsHermitian`; conjugating does not round, the difference of line 94 does. -/
def IsHermitian (m : Tensor ℂ) : Py Bool :=
  match m.shape with
  | r :: c :: _ => do
    raiseIf (r ≠ c) .valueError
    if (List.range r).any (fun i => (List.range' i (r - i)).any (fun j =>
        decide (R.abs (A.sub (m.get [i, j]) (star (m.get [j, i]))) > A.fl 1e-6))) then .ok false
    else .ok true
  | _ => .error .indexError

/-- qmath.py:70-72: the sum of the squares, one after the other. -/
def sqSum (g : ℕ → ℂ) : ℕ → ℝ
  | 0 => 0
  | n + 1 => A.fl (sqSum g n + A.fl (R.abs (g n) ^ 2))

/-- qmath.py:61-79 `IsNormalized`; the sum is a real number, whose absolute value needs no rounding. -/
def IsNormalized (v : Tensor ℂ) : Py Bool := do
  raiseIf (v.rank ≠ 1) .valueError
  raiseIf (v.shape.getD 0 0 = 0) .typeError
  if |A.fl (A.sqSum R (fun i => v.get [i]) (v.shape.getD 0 0) - 1)| > A.fl 1e-6 then .ok false
  else .ok true

/-- qmath.py:49-51: the sum of the products, one after the other. -/
def ovlSum (a b : ℕ → ℂ) : ℕ → ℂ
  | 0 => 0
  | n + 1 => A.add (ovlSum a b n) (A.mul (a n) (b n))

/-- qmath.py:29-57 `IsUnitary`. -/
def IsUnitary (m : Tensor ℂ) : Py Bool :=
  match m.shape with
  | r :: c :: _ => do
    raiseIf (r ≠ c) .valueError
    -- rows are normalised (lines 38-45)
    if (List.range r).any (fun i =>
        decide (|A.fl (A.sqSum R (fun j => m.get [i, j]) r - 1)| > A.fl 1e-6)) then .ok false
    -- rows are pairwise orthogonal (lines 47-55)
    else if (List.range (r - 1)).any (fun i => (List.range' (i + 1) (r - (i + 1))).any (fun k =>
        decide (R.abs (A.ovlSum (fun j => m.get [i, j]) (fun j => star (m.get [k, j])) r) > A.fl 1e-6))) then .ok false
    else .ok true
  | _ => .error .indexError

end Arith

end

end QTN
