import Verif.Model.LayoutOps

/-!
# What is said about tensors with types and strides
-/

namespace QTN.Spec

/-- Position in memory, relative to the start of the tensor, of the element with the given index. -/
def memPos (str idx : List ℕ) : ℕ := (List.zipWith (· * ·) str idx).sum

/-- The elements lie in memory one after the other in row-major order. -/
def Contiguous (shape str : List ℕ) : Prop :=
  ∀ idx, inB shape idx = true → memPos str idx = ravel shape idx

/-- A tensor of data type `d` with one stride per dimension, otherwise in any layout. -/
def HasType (d : DT) (t : XT) : Prop := t.dt = d ∧ t.str.length = t.val.shape.length

/-- What is assumed about the layout of results: every torch routine returns one stride per dimension,
and matrix products are contiguous. -/
structure LayoutOK (lay : Lay) : Prop where
  mm : ∀ a b v, a.val.matmul b.val = .ok v →
    (lay.mm a b).length = v.shape.length ∧ Contiguous v.shape (lay.mm a b)
  ein : ∀ a b v, Tensor.einsum_ab_bcd a.val b.val = .ok v → (lay.ein a b).length = v.shape.length
  svdU : ∀ a, (lay.svdU a).length = 2
  svdV : ∀ a, (lay.svdV a).length = 2
  elem : ∀ a, (lay.elem a).length = a.val.shape.length

/-- Parameters that are Python numbers, tensors of the default real type, or integers. -/
def SinglePrec (pd : DT) : Prop := pd = .f32 ∨ pd = .i64

/-- The type of the parameters suits the operation: Python numbers, float32 and integer tensors for every
operation; float64 tensors for all gates but `u1` and `cphase`, and for no layer that has parameters. -/
def TypeSuits (o : XOp) : Prop :=
  SinglePrec o.pd ∨ o.pd = .f64 ∧
    match o.op with
    | .gate g => g.cls ≠ .u1 ∧ g.cls ≠ .cphase
    | .single l => l.cls = .h
    | .ring _ => True
    | .basic _ => False

/-- The circuit `x` is the circuit `c` with suitable types of parameters. -/
structure IsTyped (x : XCircuit) (c : Circuit) : Prop where
  nqubits : x.nqubits = c.nqubits
  gate : c.gate = x.gate.map XOp.op
  prec : ∀ o ∈ x.gate, TypeSuits o

/-- Gates of one qubit and layers of such gates. -/
def OneQubit : Op → Prop
  | .gate g => g.cls = .hadamard ∨ g.cls = .pauliX ∨ g.cls = .pauliY ∨ g.cls = .pauliZ ∨ g.cls = .rx ∨
      g.cls = .ry ∨ g.cls = .rz ∨ g.cls = .u1 ∨ g.cls = .u3
  | .single _ => True
  | _ => False

/-- The result of a call without types and strides: the same exception or the values. -/
def values (x : Py XT) : Py (Tensor ℂ) := x.map XT.val

/-- The same for a call that also runs the SVD; the matrices given to the SVD are kept. -/
def valuesT {α β : Type} (f : α → β) (x : TNM α) : TNM β := fun s => ((x s).1.map f, (x s).2)

/-- The call raises an exception. -/
def Fails {α : Type} (x : Py α) : Prop := ∃ e, x = .error e

/-- The call raises an exception, whatever was decomposed before. -/
def FailsT {α : Type} (x : TNM α) : Prop := ∀ s, ∃ e s', x s = (.error e, s')

/-- Operations whose matrices become complex128 for parameters of type float64: `u1`, `cphase`, and the
layers of rotations. -/
def BecomesDouble (o : XOp) : Prop :=
  o.pd = .f64 ∧
    match o.op with
    | .gate g => g.cls = .u1 ∨ g.cls = .cphase
    | .single l => l.cls ≠ .h ∧ l.wires ≠ []
    | .ring _ => False
    | .basic b => 0 < b.reps ∧ ∀ l ∈ b.part1, l.cls ≠ .h ∧ l.wires ≠ []

end QTN.Spec
