import Verif.Model.Py
import Mathlib.Algebra.BigOperators.Group.Finset.Basic
import Mathlib.Algebra.BigOperators.Ring.Finset
import Mathlib.Algebra.Star.Basic

/-!
# The torch tensor operations used by the library

A tensor is a shape and an entry function that vanishes outside the shape, so that two tensors are
equal iff their shapes and their in-bounds entries agree.  This file models the documented
behaviour of the torch primitives that the modelled files call (torch itself is not in /repo).
Device and autograd are not modelled.  Memory layout and dtype are not part of this file, so `view` is the
same as `reshape` here; `Model/Layout.lean` adds both, and `Props/Layout.lean` relates the two models.
-/

namespace QTN

open Finset

/-- `idx` is a valid index tuple of an array of shape `shape`. -/
def inB : List ℕ → List ℕ → Bool
  | [], [] => true
  | d :: ds, i :: is => decide (i < d) && inB ds is
  | _, _ => false

/-- Row-major linear index of an index tuple. -/
def ravel : List ℕ → List ℕ → ℕ
  | _ :: ds, i :: is => i * ds.prod + ravel ds is
  | _, _ => 0

/-- Index tuple of a row-major linear index. -/
def unravel : List ℕ → ℕ → List ℕ
  | [], _ => []
  | _ :: ds, k => (k / ds.prod) :: unravel ds (k % ds.prod)

/-- A dense tensor. -/
structure Tensor (α : Type) [Zero α] where
  /-- `t.shape` -/
  shape : List ℕ
  /-- `t[idx]` -/
  get : List ℕ → α
  supp : ∀ idx, inB shape idx = false → get idx = 0

namespace Tensor

section Basic
variable {α : Type} [Zero α]

/-- Tensor with given entries. -/
def ofFn (shape : List ℕ) (f : List ℕ → α) : Tensor α where
  shape := shape
  get idx := if inB shape idx then f idx else 0
  supp idx h := by simp [h]

/-- `len(t.shape)` -/
def rank (t : Tensor α) : ℕ := t.shape.length

/-- number of entries -/
def numel (t : Tensor α) : ℕ := t.shape.prod

/-- `t.permute(p)`: wrong number of dimensions or repeated dimensions: RuntimeError; dimension
out of range: IndexError. -/
def permute (t : Tensor α) (p : List ℤ) : Py (Tensor α) := do
  raiseIf (p.length ≠ t.rank) .runtimeError
  let q ← p.mapM (wrapIdx t.rank)
  raiseIf (¬ q.Nodup) .runtimeError
  .ok (ofFn (q.map (fun k => t.shape.getD k 0))
    (fun idx => t.get ((List.range t.rank).map (fun j => idx.getD (q.idxOf j) 0))))

/-- `t.unsqueeze(d)` -/
def unsqueeze (t : Tensor α) (d : ℤ) : Py (Tensor α) := do
  let k ← wrapIdx (t.rank + 1) d
  .ok (ofFn (t.shape.insertIdx k 1) (fun idx => t.get (idx.eraseIdx k)))

/-- `t.squeeze(d)`: removes dimension `d` if it has size one. -/
def squeezeDim (t : Tensor α) (d : ℤ) : Py (Tensor α) := do
  let k ← wrapIdx t.rank d
  if t.shape.getD k 0 = 1 then
    .ok (ofFn (t.shape.eraseIdx k) (fun idx => t.get (idx.insertIdx k 0)))
  else .ok t

/-- index of the squeezed tensor to index of the original -/
def unsqIdx : List ℕ → List ℕ → List ℕ
  | [], _ => []
  | d :: ds, is =>
    if d = 1 then 0 :: unsqIdx ds is
    else match is with
      | [] => []
      | i :: is => i :: unsqIdx ds is

/-- `t.squeeze()`: removes all dimensions of size one. -/
def squeeze (t : Tensor α) : Tensor α :=
  ofFn (t.shape.filter (· ≠ 1)) (fun idx => t.get (unsqIdx t.shape idx))

/-- The shape `view`/`reshape` resolves its argument to (with at most one `-1`). -/
def inferShape (numel : ℕ) (s : List ℤ) : Py (List ℕ) :=
  let rest := s.filter (· ≠ -1)
  if rest.any (· < 0) then .error .runtimeError
  else
    let restP := (rest.map Int.toNat).prod
    match s.count (-1) with
    | 0 => if restP = numel then .ok (s.map Int.toNat) else .error .runtimeError
    | 1 =>
      if restP = 0 then .error .runtimeError
      else if numel % restP = 0 then
        .ok (s.map (fun d => if d = -1 then numel / restP else d.toNat))
      else .error .runtimeError
    | _ => .error .runtimeError

/-- `t.view(s)` / `t.reshape(s)` for a fully given shape of the right size. -/
def reshapeN (t : Tensor α) (s : List ℕ) : Tensor α :=
  ofFn s (fun idx => t.get (unravel t.shape (ravel s idx)))

/-- `t.view(s)`, `t.reshape(s)`. -/
def view (t : Tensor α) (s : List ℤ) : Py (Tensor α) := do
  let s' ← inferShape t.numel s
  .ok (t.reshapeN s')

/-- `t[i]` (first dimension). -/
def select0 (t : Tensor α) (i : ℤ) : Py (Tensor α) :=
  match t.shape with
  | [] => .error .indexError
  | d :: ds => do
    let k ← wrapIdx d i
    .ok (ofFn ds (fun idx => t.get (k :: idx)))

/-- `t.index_select(0, idxs)` for a matrix; indices must be non-negative and in range. -/
def indexSelect0 (t : Tensor α) (idxs : List ℕ) : Py (Tensor α) :=
  match t.shape with
  | [] => .error .indexError
  | d :: ds =>
    if idxs.all (· < d) then
      .ok (ofFn (idxs.length :: ds) (fun idx => match idx with
        | i :: is => t.get (idxs.getD i 0 :: is)
        | [] => 0))
    else .error .indexError

/-- `t.index_select(1, idxs)`. -/
def indexSelect1 (t : Tensor α) (idxs : List ℕ) : Py (Tensor α) :=
  match t.shape with
  | d0 :: d :: ds =>
    if idxs.all (· < d) then
      .ok (ofFn (d0 :: idxs.length :: ds) (fun idx => match idx with
        | j :: i :: is => t.get (j :: idxs.getD i 0 :: is)
        | _ => 0))
    else .error .indexError
  | _ => .error .indexError

/-- entrywise map by a function preserving zero -/
def mapT {β : Type} [Zero β] (f : α → β) (t : Tensor α) : Tensor β :=
  ofFn t.shape (fun idx => f (t.get idx))

/-- `torch.zeros(s)` -/
def zeros (s : List ℕ) : Tensor α := ofFn s (fun _ => 0)

/-- A matrix literal `torch.tensor([[..],..])`. -/
def ofRows (rows : List (List α)) : Tensor α :=
  ofFn [rows.length, (rows.headD []).length] (fun idx => (rows.getD (idx.getD 0 0) []).getD (idx.getD 1 0) 0)

/-- A vector literal. -/
def ofList (l : List α) : Tensor α := ofFn [l.length] (fun idx => l.getD (idx.getD 0 0) 0)

/-- `torch.diag(v)` for a vector. -/
def diagMat (t : Tensor α) : Tensor α :=
  ofFn [t.shape.getD 0 0, t.shape.getD 0 0] (fun idx =>
    if idx.getD 0 0 = idx.getD 1 0 then t.get [idx.getD 0 0] else 0)

/-- `torch.diag(m)` for a matrix. -/
def diagVec (t : Tensor α) : Tensor α :=
  ofFn [min (t.shape.getD 0 0) (t.shape.getD 1 0)] (fun idx => t.get [idx.getD 0 0, idx.getD 0 0])

/-- columns `lo ≤ j < hi` of a matrix -/
def colSlice (t : Tensor α) (lo hi : ℕ) : Tensor α :=
  ofFn [t.shape.getD 0 0, min hi (t.shape.getD 1 0) - lo]
    (fun idx => t.get [idx.getD 0 0, lo + idx.getD 1 0])

/-- rows `t[lo:hi]` of a matrix -/
def rowSlice (t : Tensor α) (lo hi : ℕ) : Tensor α :=
  ofFn [min hi (t.shape.getD 0 0) - lo, t.shape.getD 1 0]
    (fun idx => t.get [lo + idx.getD 0 0, idx.getD 1 0])

/-- `torch.chunk(t, chunks, dim=1)` for a matrix: pieces of size `ceil(n/chunks)`, the last one
possibly smaller; fewer than `chunks` pieces if `n` is small; a dimension of size 0 yields `chunks`
empty pieces. -/
def chunk1 (t : Tensor α) (chunks : ℕ) : Py (List (Tensor α)) :=
  match t.shape with
  | [_, n] =>
    if chunks = 0 then .error .runtimeError
    else
      let size := (n + chunks - 1) / chunks
      if size = 0 then .ok (List.replicate chunks (t.colSlice 0 0))
      else .ok ((List.range ((n + size - 1) / size)).map
        (fun c => t.colSlice (c * size) ((c + 1) * size)))
  | _ => .error .indexError

/-- `torch.cat((a, b), dim=0)` for two matrices. -/
def cat0 (a b : Tensor α) : Py (Tensor α) :=
  match a.shape, b.shape with
  | [m, n], [m', n'] =>
    if n = n' then .ok (ofFn [m + m', n] (fun idx =>
      if idx.getD 0 0 < m then a.get idx else b.get [idx.getD 0 0 - m, idx.getD 1 0]))
    else .error .runtimeError
  | _, _ => .error .runtimeError

/-- `torch.cat((a, b), dim=1)` for two matrices. -/
def cat1 (a b : Tensor α) : Py (Tensor α) :=
  match a.shape, b.shape with
  | [m, n], [m', n'] =>
    if m = m' then .ok (ofFn [m, n + n'] (fun idx =>
      if idx.getD 1 0 < n then a.get idx else b.get [idx.getD 0 0, idx.getD 1 0 - n]))
    else .error .runtimeError
  | _, _ => .error .runtimeError

/-- `torch.cat(lst, dim)` for a tuple of matrices, as a left fold; an empty tuple raises. -/
def catList (f : Tensor α → Tensor α → Py (Tensor α)) (lst : List (Tensor α)) : Py (Tensor α) :=
  match lst with
  | [] => .error .runtimeError
  | t :: ts => ts.foldlM f t

/-- Padding with leading dimensions of size one up to rank `n`. -/
def padTo (t : Tensor α) (n : ℕ) : Tensor α :=
  ofFn (List.replicate (n - t.rank) 1 ++ t.shape) (fun idx => t.get (idx.drop (n - t.rank)))

end Basic

section Arith
variable {α : Type} [CommRing α]

/-- `torch.eye(n)`, `torch.eye(n, n)` -/
def eye (n : ℕ) : Tensor α := ofFn [n, n] (fun idx => if idx.getD 0 0 = idx.getD 1 0 then 1 else 0)

/-- `a + b` for equal shapes (broadcasting of unequal shapes is not used by the modelled code and
raises here). -/
def add (a b : Tensor α) : Py (Tensor α) :=
  if a.shape = b.shape then .ok (ofFn a.shape (fun idx => a.get idx + b.get idx))
  else .error .runtimeError

/-- `a - b` for equal shapes. -/
def sub (a b : Tensor α) : Py (Tensor α) :=
  if a.shape = b.shape then .ok (ofFn a.shape (fun idx => a.get idx - b.get idx))
  else .error .runtimeError

/-- `a - b` where both shapes are literally the same in the source. -/
def subT (a b : Tensor α) : Tensor α := ofFn a.shape (fun idx => a.get idx - b.get idx)

/-- `a + b` where both shapes are literally the same in the source. -/
def addT (a b : Tensor α) : Tensor α := ofFn a.shape (fun idx => a.get idx + b.get idx)

/-- `torch.einsum('abii->ab', t)` -/
def einsum_abii (t : Tensor α) : Py (Tensor α) :=
  match t.shape with
  | [a, b, i, i'] =>
    if i = i' then .ok (ofFn [a, b] (fun idx =>
      ∑ x ∈ range i, t.get [idx.getD 0 0, idx.getD 1 0, x, x]))
    else .error .runtimeError
  | _ => .error .runtimeError

/-- scalar multiple -/
def smul (c : α) (t : Tensor α) : Tensor α := ofFn t.shape (fun idx => c * t.get idx)

/-- `torch.kron(a, b)` for tensors of the same rank. -/
def kronEq (a b : Tensor α) : Tensor α :=
  ofFn (List.zipWith (· * ·) a.shape b.shape) (fun idx =>
    a.get (List.zipWith (fun i d => i / d) idx b.shape) *
    b.get (List.zipWith (fun i d => i % d) idx b.shape))

/-- `torch.kron(a, b)`; the tensor of smaller rank is padded with leading dimensions of size 1. -/
def kron (a b : Tensor α) : Tensor α :=
  kronEq (a.padTo (max a.rank b.rank)) (b.padTo (max a.rank b.rank))

/-- broadcasting of reversed shapes -/
def bcastRev : List ℕ → List ℕ → Option (List ℕ)
  | [], s => some s
  | s, [] => some s
  | a :: as, b :: bs =>
    if a = b then (bcastRev as bs).map (a :: ·)
    else if a = 1 then (bcastRev as bs).map (b :: ·)
    else if b = 1 then (bcastRev as bs).map (a :: ·)
    else none

/-- broadcast shape -/
def bcast (a b : List ℕ) : Option (List ℕ) := (bcastRev a.reverse b.reverse).map List.reverse

/-- index into an operand of shape `s` for an index of the broadcast result -/
def bIdx (s idx : List ℕ) : List ℕ :=
  List.zipWith (fun d i => if d = 1 then 0 else i) s (idx.drop (idx.length - s.length))

/-- `a @ b` for tensors of rank at least two, with broadcasting of the leading dimensions. -/
def matmulND (a b : Tensor α) : Py (Tensor α) :=
  let ba := a.shape.take (a.rank - 2)
  let bb := b.shape.take (b.rank - 2)
  let n := a.shape.getD (a.rank - 2) 0
  let k := a.shape.getD (a.rank - 1) 0
  let k' := b.shape.getD (b.rank - 2) 0
  let m := b.shape.getD (b.rank - 1) 0
  if k ≠ k' then .error .runtimeError
  else match bcast ba bb with
    | none => .error .runtimeError
    | some s => .ok (ofFn (s ++ [n, m]) (fun idx =>
        let pre := idx.take s.length
        let i := idx.getD s.length 0
        let j := idx.getD (s.length + 1) 0
        ∑ x ∈ range k, a.get (bIdx ba pre ++ [i, x]) * b.get (bIdx bb pre ++ [x, j])))

/-- `a @ b` (`torch.matmul`). -/
def matmul (a b : Tensor α) : Py (Tensor α) :=
  if a.rank = 0 ∨ b.rank = 0 then .error .runtimeError
  else if a.rank = 1 ∧ b.rank = 1 then do
    let r ← matmulND (← a.unsqueeze 0) (← b.unsqueeze (-1))
    r.view []
  else if a.rank = 1 then do
    (← matmulND (← a.unsqueeze 0) b).squeezeDim (-2)
  else if b.rank = 1 then do
    (← matmulND a (← b.unsqueeze (-1))).squeezeDim (-1)
  else matmulND a b

/-- `torch.trace(m)`; RuntimeError unless the tensor is a matrix. -/
def trace (t : Tensor α) : Py α :=
  match t.shape with
  | [n, m] => .ok (∑ i ∈ range (min n m), t.get [i, i])
  | _ => .error .runtimeError

/-- `torch.einsum('ab,bcd->acd', [m, t])` -/
def einsum_ab_bcd (m t : Tensor α) : Py (Tensor α) :=
  match m.shape, t.shape with
  | [a, b], [b', c, d] =>
    if b = b' then .ok (ofFn [a, c, d] (fun idx =>
      ∑ x ∈ range b, m.get [idx.getD 0 0, x] * t.get [x, idx.getD 1 0, idx.getD 2 0]))
    else .error .runtimeError
  | _, _ => .error .runtimeError

end Arith

/-- `torch.conj(t)` -/
def conj {α : Type} [CommRing α] [StarRing α] (t : Tensor α) : Tensor α :=
  ofFn t.shape (fun idx => star (t.get idx))

end Tensor

end QTN
