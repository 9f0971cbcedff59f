import Mathlib.Data.Int.Notation
import Mathlib.Data.Nat.Notation

/-!
# Python exceptions and list operations

Only the Python features the modelled files use.  An uncaught Python exception is the value
`Except.error e`.  Exception messages are not modelled.
-/

namespace QTN

/-- Exception classes that the modelled code can raise, explicitly or through Python/torch. -/
inductive PyErr
  | valueError | indexError | typeError | runtimeError | assertionError | attributeError
  | keyError | unboundLocal | zeroDivision
  deriving DecidableEq, Repr

/-- A Python computation: a value or an uncaught exception. -/
abbrev Py (α : Type) := Except PyErr α

@[simp] theorem Py.ok_bind {α β : Type} (a : α) (f : α → Py β) : (Except.ok a >>= f) = f a := rfl
@[simp] theorem Py.error_bind {α β : Type} (e : PyErr) (f : α → Py β) :
    ((Except.error e : Py α) >>= f) = Except.error e := rfl
@[simp] theorem Py.pure_eq {α : Type} (a : α) : (pure a : Py α) = Except.ok a := rfl

/-- `raise` if the condition holds (the guards `if cond: raise ...`). -/
def raiseIf (c : Prop) [Decidable c] (e : PyErr) : Py Unit :=
  if c then .error e else .ok ()

/-- `assert cond`. -/
def pyAssert (c : Prop) [Decidable c] : Py Unit :=
  if c then .ok () else .error .assertionError

@[simp] theorem raiseIf_true {c : Prop} [Decidable c] {e : PyErr} (h : c) :
    raiseIf c e = .error e := by simp [raiseIf, h]
@[simp] theorem raiseIf_false {c : Prop} [Decidable c] {e : PyErr} (h : ¬ c) :
    raiseIf c e = .ok () := by simp [raiseIf, h]
@[simp] theorem pyAssert_true {c : Prop} [Decidable c] (h : c) :
    pyAssert c = .ok () := by simp [pyAssert, h]
@[simp] theorem pyAssert_false {c : Prop} [Decidable c] (h : ¬ c) :
    pyAssert c = .error .assertionError := by simp [pyAssert, h]

/-- Normalisation of a (possibly negative) Python sequence index. -/
def wrapIdx (n : ℕ) (i : ℤ) : Py ℕ :=
  if 0 ≤ i then
    if i < n then .ok i.toNat else .error .indexError
  else
    if 0 ≤ i + n then .ok (i + n).toNat else .error .indexError

/-- `l[i]`. -/
def pyGet {α : Type} (l : List α) (i : ℤ) : Py α := do
  let k ← wrapIdx l.length i
  match l[k]? with
  | some x => .ok x
  | none => .error .indexError

/-- `l[i] = v` (the new list). -/
def pySet {α : Type} (l : List α) (i : ℤ) (v : α) : Py (List α) := do
  let k ← wrapIdx l.length i
  .ok (l.set k v)

/-- `l.remove(x)`. -/
def pyRemove (l : List ℤ) (x : ℤ) : Py (List ℤ) :=
  if x ∈ l then .ok (l.erase x) else .error .valueError

/-- `l.pop()` (the remaining list). -/
def pyPop {α : Type} (l : List α) : Py (List α) :=
  if l.isEmpty then .error .indexError else .ok l.dropLast

/-- `l.insert(i, x)`; Python clamps the position. -/
def pyInsert {α : Type} (l : List α) (i : ℤ) (x : α) : List α :=
  if 0 ≤ i then l.insertIdx (min i.toNat l.length) x
  else l.insertIdx (i + l.length).toNat x

/-- `range(n)`. -/
def pyRange (n : ℤ) : List ℤ := (List.range n.toNat).map (fun k : ℕ => (k : ℤ))

/-- `range(a, b)`. -/
def pyRange2 (a b : ℤ) : List ℤ := (List.range (b - a).toNat).map (fun k : ℕ => a + (k : ℤ))

/-- `range(a, b, -1)`. -/
def pyRangeDown (a b : ℤ) : List ℤ := (List.range (a - b).toNat).map (fun k : ℕ => a - (k : ℤ))

/-- `[x] * n`. -/
def pyRep {α : Type} (x : α) (n : ℤ) : List α := List.replicate n.toNat x

end QTN
