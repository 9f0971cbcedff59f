import Verif.Model.QCircuit

/-!
# Tensors with a data type and strides

`Model/Tensor.lean` has no data types and no memory layout, so `view` never fails there for a shape of
the right size and `a @ b` never fails for two data types.  Here a tensor also has a data type and
strides, and the operations raise where torch raises.  The functions of the library are written once
more with these tensors in `Model/LayoutOps.lean`.

Values stay exact complex numbers, so a conversion such as `+ 0j` changes the data type only.
-/

namespace QTN

noncomputable section

/-! ## Data types -/

/-- The torch data types that occur: `int64`, `float32`, `float64`, `complex64`, `complex128`. -/
inductive DT
  | i64 | f32 | f64 | c64 | c128
  deriving DecidableEq, Repr

namespace DT

/-- `dtype.is_complex` -/
def isComplex : DT → Bool
  | .c64 | .c128 => true
  | _ => false

/-- `dtype.is_floating_point` -/
def isFloat : DT → Bool
  | .f32 | .f64 => true
  | _ => false

/-- The complex type of the same precision (integers: the default complex type). -/
def toComplex : DT → DT
  | .i64 | .f32 | .c64 => .c64
  | .f64 | .c128 => .c128

/-- The type of the absolute value and of singular values. -/
def toReal : DT → DT
  | .c64 => .f32
  | .c128 => .f64
  | d => d

/-- `torch.promote_types` -/
def promote : DT → DT → DT
  | .i64, d => d
  | d, .i64 => d
  | .f32, d => d
  | d, .f32 => d
  | .f64, .f64 => .f64
  | .f64, _ => .c128
  | _, .f64 => .c128
  | .c64, .c64 => .c64
  | _, _ => .c128

end DT

/-- An operand of an elementwise operation: a Python number, a 0-dimensional tensor, or a tensor with
dimensions.  torch gives them different priority when it chooses the type of a result. -/
inductive Operand
  | number (d : DT)
  | zeroDim (d : DT)
  | dims (d : DT)

namespace Operand

/-- A Python float or complex number counts as the default type of its category. -/
def level : Operand → ℕ × DT
  | .number .f64 => (0, .f32)
  | .number .c128 => (0, .c64)
  | .number d => (0, d)
  | .zeroDim d => (1, d)
  | .dims d => (2, d)

/-- torch's `combine_categories(higher, lower)`: the operand of higher priority decides unless the
other one is of a higher category (integer, real, complex). -/
def combine (higher lower : DT) : DT :=
  if higher.isComplex = true then higher
  else if higher.isFloat = true then
    if lower.isComplex = true then higher.toComplex else higher
  else if lower.isFloat = true ∨ lower.isComplex = true then higher.promote lower
  else higher

/-- The result of a binary elementwise operation (`+`, `-`, `*`, `/` by a Python number). -/
def op (a b : Operand) : Operand :=
  let (la, da) := a.level
  let (lb, db) := b.level
  let d := if la = lb then da.promote db
    else if lb < la then combine da db else combine db da
  match max la lb with
  | 0 => .number d
  | 1 => .zeroDim d
  | _ => .dims d

/-- `torch.cos`, `torch.sin`, `torch.exp`: integers become the default real type. -/
def trig : Operand → Operand
  | .number d => .number (if d = .i64 then .f32 else d)
  | .zeroDim d => .zeroDim (if d = .i64 then .f32 else d)
  | .dims d => .dims (if d = .i64 then .f32 else d)

/-- the data type -/
def dt : Operand → DT
  | .number d | .zeroDim d | .dims d => d

end Operand

/-! ## Strides -/

/-- The strides of a contiguous tensor. -/
def contigStr : List ℕ → List ℕ
  | [] => []
  | _ :: ds => (ds.map (max 1)).prod :: contigStr ds

/-- The inner loop of torch's `computeStride` (aten/src/ATen/TensorUtils.cpp): dimensions of the new
shape, last one first, are taken while they are needed to cover the current chunk of `tn` elements or
have size one.  Returns the number of elements covered, the dimensions left, and the strides. -/
def viewChunk (base tn : ℕ) : ℕ → List ℕ → List ℕ → ℕ × List ℕ × List ℕ
  | vn, [], acc => (vn, [], acc)
  | vn, n :: ns, acc =>
    if vn < tn ∨ n = 1 then viewChunk base tn (vn * n) ns (vn * base :: acc)
    else (vn, n :: ns, acc)

/-- The outer loop of `computeStride`.  The first list holds size and stride of the old dimensions,
last one first; `base` is the stride of the current chunk and `tn` the number of its elements before the
head of the list.  A chunk ends before a dimension that has not size one and does not continue it. -/
def viewLoop : ℕ → ℕ → List (ℕ × ℕ) → List ℕ → List ℕ → Option (List ℕ)
  | _, _, [], _, _ => none
  | base, tn, [d], new, acc =>
    let r := viewChunk base (tn * d.1) 1 new acc
    if r.1 = tn * d.1 ∧ r.2.1 = [] then some r.2.2 else none
  | base, tn, d :: d' :: ds, new, acc =>
    if d'.1 ≠ 1 ∧ d'.2 ≠ tn * d.1 * base then
      let r := viewChunk base (tn * d.1) 1 new acc
      if r.1 = tn * d.1 then viewLoop d'.2 1 (d' :: ds) r.2.1 r.2.2 else none
    else viewLoop base (tn * d.1) (d' :: ds) new acc

/-- torch's `computeStride(shape, str, new)`: the strides with which the same memory has shape `new`,
or nothing if there are none. -/
def computeStride (shape str new : List ℕ) : Option (List ℕ) :=
  if shape = [] then some (new.map (fun _ => 1))
  else if shape.prod = 0 then some (if shape = new then str else contigStr new)
  else match (shape.zip str).reverse with
    | [] => none
    | d :: ds => viewLoop d.2 1 (d :: ds) new.reverse []

/-! ## Tensors -/

/-- A tensor with data type and strides. -/
structure XT where
  val : Tensor ℂ
  dt : DT
  str : List ℕ

/-- The strides of the results of the torch routines that do not document them: `a @ b`, `einsum`, the
factors of `svd`, and elementwise operations. -/
structure Lay where
  mm : XT → XT → List ℕ
  ein : XT → XT → List ℕ
  svdU : XT → List ℕ
  svdV : XT → List ℕ
  elem : XT → List ℕ

namespace XT

/-- a freshly made contiguous tensor -/
def fresh (v : Tensor ℂ) (d : DT) : XT := ⟨v, d, contigStr v.shape⟩

/-- `t + 0j` -/
def plus0j (lay : Lay) (t : XT) : XT := ⟨t.val, t.dt.toComplex, lay.elem t⟩

/-- `t.conj()` (lazy: the layout stays) -/
def conj (t : XT) : XT := ⟨t.val.conj, t.dt, t.str⟩

/-- `t.permute(p)` -/
def permute (t : XT) (p : List ℤ) : Py XT := do
  let v ← t.val.permute p
  let q ← p.mapM (wrapIdx t.val.rank)
  .ok ⟨v, t.dt, q.map (fun k => t.str.getD k 0)⟩

/-- `t.unsqueeze(d)` -/
def unsqueeze (t : XT) (d : ℤ) : Py XT := do
  let v ← t.val.unsqueeze d
  let k ← wrapIdx (t.val.rank + 1) d
  .ok ⟨v, t.dt, t.str.insertIdx k
    (if k < t.val.rank then t.val.shape.getD k 0 * t.str.getD k 0 else 1)⟩

/-- `t.squeeze(d)` -/
def squeezeDim (t : XT) (d : ℤ) : Py XT := do
  let v ← t.val.squeezeDim d
  let k ← wrapIdx t.val.rank d
  .ok ⟨v, t.dt, if t.val.shape.getD k 0 = 1 then t.str.eraseIdx k else t.str⟩

/-- `t.squeeze()` -/
def squeeze (t : XT) : XT :=
  ⟨t.val.squeeze, t.dt, ((t.val.shape.zip t.str).filter (fun p => decide (p.1 ≠ 1))).map Prod.snd⟩

/-- `t.view(s)`: RuntimeError if the memory cannot be described with the new shape. -/
def view (t : XT) (s : List ℤ) : Py XT := do
  let v ← t.val.view s
  match computeStride t.val.shape t.str v.shape with
  | some ns => .ok ⟨v, t.dt, ns⟩
  | none => .error .runtimeError

/-- `t.reshape(s)`: a view if possible, otherwise a copy. -/
def reshape (t : XT) (s : List ℤ) : Py XT := do
  let v ← t.val.view s
  match computeStride t.val.shape t.str v.shape with
  | some ns => .ok ⟨v, t.dt, ns⟩
  | none => .ok (fresh v t.dt)

/-- `t[i]` -/
def select0 (t : XT) (i : ℤ) : Py XT := do
  let v ← t.val.select0 i
  .ok ⟨v, t.dt, t.str.tail⟩

/-- `torch.index_select(t, 0, idxs)` -/
def indexSelect0 (t : XT) (idxs : List ℕ) : Py XT := do
  let v ← t.val.indexSelect0 idxs
  .ok (fresh v t.dt)

/-- `torch.index_select(t, 1, idxs)` -/
def indexSelect1 (t : XT) (idxs : List ℕ) : Py XT := do
  let v ← t.val.indexSelect1 idxs
  .ok (fresh v t.dt)

/-- `torch.chunk(t, chunks, dim=1)` for a matrix: slices of the same memory -/
def chunk1 (t : XT) (chunks : ℕ) : Py (List XT) := do
  let l ← t.val.chunk1 chunks
  .ok (l.map (fun v => ⟨v, t.dt, t.str⟩))

/-- `t[lo:hi]` for a matrix -/
def rowSlice (t : XT) (lo hi : ℕ) : XT := ⟨t.val.rowSlice lo hi, t.dt, t.str⟩

/-- `torch.cat((a, b), dim=0)`: the types are promoted -/
def cat0 (a b : XT) : Py XT := do
  let v ← a.val.cat0 b.val
  .ok (fresh v (a.dt.promote b.dt))

/-- `torch.cat((a, b), dim=1)` -/
def cat1 (a b : XT) : Py XT := do
  let v ← a.val.cat1 b.val
  .ok (fresh v (a.dt.promote b.dt))

/-- `torch.cat(lst, dim)`; a single tensor is copied -/
def catList (f : XT → XT → Py XT) (lst : List XT) : Py XT :=
  match lst with
  | [] => .error .runtimeError
  | t :: ts => ts.foldlM f (fresh t.val t.dt)

/-- `a @ b`: RuntimeError if the types differ -/
def matmul (lay : Lay) (a b : XT) : Py XT := do
  raiseIf (a.dt ≠ b.dt) .runtimeError
  let v ← a.val.matmul b.val
  .ok ⟨v, a.dt, lay.mm a b⟩

/-- `torch.einsum('ab,bcd->acd', [m, t])`: RuntimeError if the types differ -/
def einsum_ab_bcd (lay : Lay) (m t : XT) : Py XT := do
  raiseIf (m.dt ≠ t.dt) .runtimeError
  let v ← Tensor.einsum_ab_bcd m.val t.val
  .ok ⟨v, t.dt, lay.ein m t⟩

end XT

end

end QTN
