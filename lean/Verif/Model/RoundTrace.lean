import Verif.Model.RoundRho
import Verif.Model.QMath

/-!
# `partial_trace`, `partial_trace_old` and `ptrace` of deepquantum/gates/qmath.py in rounded arithmetic

`index_select`, adding `0j` or the integer 0, conjugating, and the Kronecker products of matrices of zeros and ones do
not round.
-/

namespace QTN

noncomputable section

namespace Arith

variable (A : Arith) (R : TraceRoutines A)

/-- qmath.py:129-134 and 159-164: the checks of `partial_trace_old` and `partial_trace`. -/
def traceChecks (rho : Tensor ℂ) (N : ℤ) (lst : List ℤ) : Py Unit := do
  let tr ← A.trace R rho
  raiseIf (R.abs (A.sub tr 1) > A.fl 1e-4) .valueError
  raiseIf (N < 0 ∨ rho.shape.getD 0 0 ≠ 2 ^ N.toNat) .valueError
  raiseIf (lst ≠ [] ∧ ∃ x ∈ lst, x > N - 1) .valueError

/-- qmath.py:154-203 `partial_trace` after `trace_lst.sort()`; the sum is that of line 199. -/
def partial_trace_sorted (rho : Tensor ℂ) (N : ℤ) : List ℤ → Py (Tensor ℂ)
  | [] => do
    A.traceChecks R rho N []
    .ok rho
  | i :: rest => do
    A.traceChecks R rho N (i :: rest)
    raiseIf (i < 0) .typeError
    let lst0 := traceIdx N.toNat i.toNat 0
    let lst1 := traceIdx N.toNat i.toNat 1
    let m0 ← rho.indexSelect0 lst0
    let m1 ← rho.indexSelect0 lst1
    let m00 ← m0.indexSelect1 lst0
    let m11 ← m1.indexSelect1 lst1
    let nxt ← A.addT m00 m11
    partial_trace_sorted nxt (N - 1) (rest.map (· - 1))
termination_by l => l.length

/-- qmath.py:154-203 `partial_trace`. -/
def partial_trace (rho : Tensor ℂ) (N : ℤ) (lst : List ℤ) : Py (Tensor ℂ) := do
  A.traceChecks R rho N lst
  A.partial_trace_sorted R rho N (lst.mergeSort (· ≤ ·))

/-- qmath.py:124-150 `partial_trace_old` after `trace_lst.sort()`; the products and the sum are those of line 147. -/
def partial_trace_old_sorted (rho : Tensor ℂ) (N : ℤ) : List ℤ → Py (Tensor ℂ)
  | [] => do
    A.traceChecks R rho N []
    .ok rho
  | i :: rest => do
    A.traceChecks R rho N (i :: rest)
    raiseIf (i < 0) .typeError
    let id1 : Tensor ℂ := Tensor.eye (2 ^ i.toNat)
    let id2 : Tensor ℂ := Tensor.eye (2 ^ (N - 1 - i).toNat)
    let id3 : Tensor ℂ := Tensor.eye 2
    let term (b : ℤ) : Py (Tensor ℂ) := do
      let K := Tensor.kron (Tensor.kron id1 (← id3.select0 b)) id2
      A.matmul (← A.matmul K rho) (← dag K)
    let nxt ← A.addT (← term 0) (← term 1)
    partial_trace_old_sorted nxt (N - 1) (rest.map (· - 1))
termination_by l => l.length

/-- qmath.py:124-150 `partial_trace_old`. -/
def partial_trace_old (rho : Tensor ℂ) (N : ℤ) (lst : List ℤ) : Py (Tensor ℂ) := do
  A.traceChecks R rho N lst
  A.partial_trace_old_sorted R rho N (lst.mergeSort (· ≤ ·))

/-- qmath.py:102-118 `ptrace`; the products are those of line 115, the sum that of line 116. -/
def ptrace (rhoAB : Tensor ℂ) (dimA dimB : ℕ) : Py (Tensor ℂ) := do
  let mA := 2 ^ dimA
  let mB := 2 ^ dimB
  let id1 : Tensor ℂ := Tensor.eye mA
  let id2 : Tensor ℂ := Tensor.eye mB
  let term (i : ℕ) : Py (Tensor ℂ) := do
    let r ← id2.select0 i
    let l ← A.matmul (Tensor.kron id1 r) rhoAB
    A.matmul l (Tensor.kron id1 (← r.view [(mB : ℤ), 1]))
  let first ← term 0
  (List.range' 1 (mB - 1)).foldlM (fun acc i => do A.addT acc (← term i)) first

end Arith

end

end QTN
