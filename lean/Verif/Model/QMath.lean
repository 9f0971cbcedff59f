import Verif.Model.Tensor
import Mathlib.Analysis.Complex.Basic

/-!
# deepquantum/gates/qmath.py

Numbers are exact complex numbers instead of complex64.  `+ 0j` (a dtype promotion) is the identity
here.  Functions that need `dq.PauliZ` (`_Zmeasure`, `measure`) are in `Verif.Model.Measure`.
-/

namespace QTN

open Finset

noncomputable section

/-- qmath.py:10-15 `multi_kron`: left fold of `torch.kron`; `lst[0]` raises IndexError on `[]`. -/
def multi_kron (lst : List (Tensor ℂ)) : Py (Tensor ℂ) :=
  match lst with
  | [] => .error .indexError
  | m :: ms => .ok (ms.foldl Tensor.kron m)

/-- qmath.py:18-26 `dag`. -/
def dag (x : Tensor ℂ) : Py (Tensor ℂ) := do
  raiseIf (x.rank ≠ 2) .valueError
  x.conj.permute [1, 0]

/-- qmath.py:29-57 `IsUnitary` (for a matrix; `shape[1]` of a vector raises IndexError). -/
def IsUnitary (m : Tensor ℂ) : Py Bool :=
  match m.shape with
  | r :: c :: _ => do
    raiseIf (r ≠ c) .valueError
    -- rows are normalised (lines 38-45)
    if (List.range r).any (fun i =>
        decide (|(∑ j ∈ range r, ‖m.get [i, j]‖ ^ 2) - 1| > (1e-6 : ℝ))) then .ok false
    -- rows are pairwise orthogonal (lines 47-55)
    else if (List.range (r - 1)).any (fun i => (List.range' (i + 1) (r - (i + 1))).any (fun k =>
        decide (‖∑ j ∈ range r, m.get [i, j] * star (m.get [k, j])‖ > (1e-6 : ℝ)))) then .ok false
    else .ok true
  | _ => .error .indexError

/-- qmath.py:61-79 `IsNormalized`.  For an empty vector `summ` is still a Python float and
`torch.abs` raises TypeError. -/
def IsNormalized (v : Tensor ℂ) : Py Bool := do
  raiseIf (v.rank ≠ 1) .valueError
  raiseIf (v.shape.getD 0 0 = 0) .typeError
  if |(∑ i ∈ range (v.shape.getD 0 0), ‖v.get [i]‖ ^ 2) - 1| > (1e-6 : ℝ) then .ok false
  else .ok true

/-- qmath.py:83-97 `IsHermitian`. -/
def IsHermitian (m : Tensor ℂ) : Py Bool :=
  match m.shape with
  | r :: c :: _ => do
    raiseIf (r ≠ c) .valueError
    if (List.range r).any (fun i => (List.range' i (r - i)).any (fun j =>
        decide (‖m.get [i, j] - star (m.get [j, i])‖ > (1e-6 : ℝ)))) then .ok false
    else .ok true
  | _ => .error .indexError

/-- qmath.py:102-118 `ptrace`.  `pout` starts as the number 0, so the first summand fixes the
shape. -/
def ptrace (rhoAB : Tensor ℂ) (dimA dimB : ℕ) : Py (Tensor ℂ) := do
  let mA := 2 ^ dimA
  let mB := 2 ^ dimB
  let id1 : Tensor ℂ := Tensor.eye mA
  let id2 : Tensor ℂ := Tensor.eye mB
  let term (i : ℕ) : Py (Tensor ℂ) := do
    let r ← id2.select0 i
    let l ← (Tensor.kron id1 r).matmul rhoAB
    l.matmul (Tensor.kron id1 (← r.view [(mB : ℤ), 1]))
  let first ← term 0
  (List.range' 1 (mB - 1)).foldlM (fun acc i => do acc.add (← term i)) first

/-- The three input checks shared by `partial_trace_old` (qmath.py:129-134) and `partial_trace`
(qmath.py:159-164). -/
def traceChecks (rho : Tensor ℂ) (N : ℤ) (lst : List ℤ) : Py Unit := do
  let tr ← rho.trace
  raiseIf (‖tr - 1‖ > (1e-4 : ℝ)) .valueError
  -- `2**N` of a negative N is a fraction and never equals a dimension
  raiseIf (N < 0 ∨ rho.shape.getD 0 0 ≠ 2 ^ N.toNat) .valueError
  raiseIf (lst ≠ [] ∧ ∃ x ∈ lst, x > N - 1) .valueError

/-- qmath.py:124-150 `partial_trace_old` after `trace_lst.sort()` (the recursive calls sort an
already sorted list).  A negative index makes `2**i` a fraction and `torch.eye` raise TypeError. -/
def partial_trace_old_sorted (rho : Tensor ℂ) (N : ℤ) : List ℤ → Py (Tensor ℂ)
  | [] => do
    traceChecks rho N []
    .ok rho
  | i :: rest => do
    traceChecks rho N (i :: rest)
    raiseIf (i < 0) .typeError
    let id1 : Tensor ℂ := Tensor.eye (2 ^ i.toNat)
    let id2 : Tensor ℂ := Tensor.eye (2 ^ (N - 1 - i).toNat)
    let id3 : Tensor ℂ := Tensor.eye 2
    let term (b : ℤ) : Py (Tensor ℂ) := do
      let A := Tensor.kron (Tensor.kron id1 (← id3.select0 b)) id2
      (← A.matmul rho).matmul (← dag A)
    let nxt ← (← term 0).add (← term 1)
    partial_trace_old_sorted nxt (N - 1) (rest.map (· - 1))
termination_by l => l.length

/-- qmath.py:124-150 `partial_trace_old`; the Python function also sorts the caller's list in
place. -/
def partial_trace_old (rho : Tensor ℂ) (N : ℤ) (lst : List ℤ) : Py (Tensor ℂ) := do
  traceChecks rho N lst
  partial_trace_old_sorted rho N (lst.mergeSort (· ≤ ·))

/-- The row list of qmath.py:172-179: positions whose `i`-th bit is `b`. -/
def traceIdx (N i b : ℕ) : List ℕ :=
  (List.range (2 ^ i)).flatMap (fun idx =>
    (List.range (2 ^ (N - i - 1))).map (fun idy =>
      idx * 2 ^ (N - i) + idy + b * 2 ^ (N - i - 1)))

/-- qmath.py:154-203 `partial_trace` after `trace_lst.sort()`.  A negative index makes
`range(2**i)` raise TypeError. -/
def partial_trace_sorted (rho : Tensor ℂ) (N : ℤ) : List ℤ → Py (Tensor ℂ)
  | [] => do
    traceChecks rho N []
    .ok rho
  | i :: rest => do
    traceChecks rho N (i :: rest)
    raiseIf (i < 0) .typeError
    let lst0 := traceIdx N.toNat i.toNat 0
    let lst1 := traceIdx N.toNat i.toNat 1
    let m0 ← rho.indexSelect0 lst0
    let m1 ← rho.indexSelect0 lst1
    let m00 ← m0.indexSelect1 lst0
    let m11 ← m1.indexSelect1 lst1
    let nxt ← m00.add m11
    partial_trace_sorted nxt (N - 1) (rest.map (· - 1))
termination_by l => l.length

/-- qmath.py:154-203 `partial_trace`; the Python function also sorts the caller's list in place
(see `partial_trace_arg`). -/
def partial_trace (rho : Tensor ℂ) (N : ℤ) (lst : List ℤ) : Py (Tensor ℂ) := do
  traceChecks rho N lst
  partial_trace_sorted rho N (lst.mergeSort (· ≤ ·))

/-- qmath.py:166: the caller's `trace_lst` after a call that passed the checks. -/
def partial_trace_arg (lst : List ℤ) : List ℤ := lst.mergeSort (· ≤ ·)

/-- qmath.py:225-239 `expval`.  For a state vector the result is `diag(m1).squeeze().real`, a
one-entry tensor; here the number.  `state.view(-1,1)` always has rank 2, so the ValueError of
lines 228-229 is unreachable. -/
def expval (state M : Tensor ℂ) (rho : Bool) : Py ℝ :=
  if rho = false then do
    let s ← state.view [-1, 1]
    let m1 ← (← (← dag s).matmul M).matmul s
    .ok (m1.diagVec.get [0]).re
  else do
    let tr ← state.trace
    raiseIf (‖tr - 1‖ > (1e-4 : ℝ)) .valueError
    .ok (← (← state.matmul M).trace).re

end

end QTN
