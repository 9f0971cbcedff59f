import Verif.Model.QOperator

/-!
# deepquantum/gates/qgate.py

The older circuit class, which builds the matrix of a gate as soon as the gate is requested.  Its
methods change the object before they can fail, so a method call returns the exception (if any)
together with the object afterwards.

The number of qubits is a natural number, qubit arguments are integers (the `isinstance` assertions
hold), angles are exact reals; the attributes `paulix`, `pauliy`, `pauliz` and `_U` are not used by
other methods and not modelled.
-/

namespace QTN

open Complex (I)
open Finset

noncomputable section

namespace Legacy

/-- The names passed to `_add_gate`: 'rx', 'ry', 'rz', 'cnot', 'X', 'Z', 'Y', 'cz', 'H', 'rxx',
'ryy', 'rzz'. -/
inductive Name
  | rx | ry | rz | cnot | X | Z | Y | cz | H | rxx | ryy | rzz
  deriving DecidableEq

/-- An entry of `gate_list`: the dictionary of line 25. -/
structure Entry where
  gate : Name
  theta : Option ℝ
  which : Wires

/-- A `Circuit` object (qgate.py:7-16). -/
structure Circ where
  n : ℕ
  gateList : List Entry
  u : List (Tensor ℂ)

/-- qgate.py:7-16 `__init__`. -/
def new (N : ℕ) : Circ := ⟨N, [], []⟩

/-- qgate.py:19-24 `_add_gate`. -/
def Circ.addGate (c : Circ) (g : Name) (w : Wires) (θ : Option ℝ) : Circ :=
  { c with gateList := c.gateList ++ [⟨g, θ, w⟩] }

/-- qgate.py:26-31 `_add_u` of an expression that may raise: the exception leaves the object as it
is at this point. -/
def Circ.addU (c : Circ) (p : Py (Tensor ℂ)) : Py Unit × Circ :=
  match p with
  | .ok m => (.ok (), { c with u := c.u ++ [m] })
  | .error e => (.error e, c)

/-- qgate.py:34-43 `multi_kron`: starts from `torch.ones(1)`. -/
def multi_kron (l : List (Tensor ℂ)) : Py (Tensor ℂ) := do
  raiseIf (l.length = 0) .valueError
  .ok (l.foldl Tensor.kron (Tensor.ofFn [1] (fun _ => 1)))

/-- qgate.py:45-58 `gate_expand_1toN`; negative targets index from the end. -/
def gate_expand_1toN (U : Tensor ℂ) (N target : ℤ) : Py (Tensor ℂ) := do
  raiseIf (N < 1) .valueError
  raiseIf (target ≥ N) .valueError
  multi_kron (← pySet (pyRep (Tensor.eye 2) N) target U)

/-- qgate.py:90-108 `two_qubit_control_gate`; negative indices are not rejected. -/
def two_qubit_control_gate (U : Tensor ℂ) (N control target : ℤ) : Py (Tensor ℂ) := do
  raiseIf (N < 1) .valueError
  raiseIf (control ≥ N) .valueError
  raiseIf (target ≥ N) .valueError
  raiseIf (target = control) .valueError
  let list1 ← pySet (pyRep (Tensor.eye 2) N) control zero_zero
  let list2 ← pySet (pyRep (Tensor.eye 2) N) control one_one
  let list2 ← pySet list2 target U
  (← multi_kron list1).add (← multi_kron list2)

/-- qgate.py:110-133 `two_qubit_rotation_gate`; `P` is the Pauli matrix chosen by `way` (the three
callers pass valid names). -/
def two_qubit_rotation_gate (θ : ℝ) (N q1 q2 : ℤ) (P : Tensor ℂ) : Py (Tensor ℂ) := do
  raiseIf (N < 1) .valueError
  raiseIf (q1 < 0 ∨ q1 > N - 1 ∨ q2 < 0 ∨ q2 > N - 1) .valueError
  raiseIf (q1 = q2) .valueError
  let lst1 := pyRep (Tensor.eye 2) N
  let lst2 ← pySet (pyRep (Tensor.eye 2) N) q1 P
  let lst2 ← pySet lst2 q2 P
  (Tensor.smul ((Real.cos (θ / 2) : ℝ) : ℂ) (← multi_kron lst1)).sub
    (Tensor.smul (I * ((Real.sin (θ / 2) : ℝ) : ℂ)) (← multi_kron lst2))

/-- qgate.py:135-167 `multi_control_gate`. -/
def multi_control_gate (U : Tensor ℂ) (N : ℤ) (controls : List ℤ) (target : ℤ) : Py (Tensor ℂ) := do
  raiseIf (N < 1) .valueError
  raiseIf (max (← pyMax controls) target > N - 1) .valueError
  raiseIf (min (← pyMin controls) target < 0) .valueError
  raiseIf (∃ each ∈ controls, each = target) .valueError
  let lst1 ← controls.foldlM (fun l each => pySet l each one_one) (pyRep (Tensor.eye 2) N)
  let lst1 ← pySet lst1 target U
  let lst2 := pyRep (Tensor.eye 2) N
  let lst3 ← controls.foldlM (fun l each => pySet l each one_one) (pyRep (Tensor.eye 2) N)
  (← (← multi_kron lst2).sub (← multi_kron lst3)).add (← multi_kron lst1)

/-- qgate.py:340-349 `_rx` -/
def rxMat (φ : ℝ) : Tensor ℂ :=
  let c : ℂ := ((Real.cos (φ / 2) : ℝ) : ℂ)
  let s : ℂ := ((Real.sin (φ / 2) : ℝ) : ℂ)
  Tensor.ofRows [[c, -I * s], [-I * s, c]]
/-- qgate.py:351-359 `_ry` -/
def ryMat (φ : ℝ) : Tensor ℂ :=
  let c : ℂ := ((Real.cos (φ / 2) : ℝ) : ℂ)
  let s : ℂ := ((Real.sin (φ / 2) : ℝ) : ℂ)
  Tensor.ofRows [[c, -1 * s], [s, c]]
/-- qgate.py:361-367 `_rz` -/
def rzMat (φ : ℝ) : Tensor ℂ :=
  Tensor.ofRows [[Complex.exp (-I * φ / 2), 0], [0, Complex.exp (I * φ / 2)]]
/-- qgate.py:370-374 `_x_gate` -/
def xMat : Tensor ℂ := Tensor.ofRows [[0, 1], [1, 0]]
/-- qgate.py:376-380 `_y_gate` -/
def yMat : Tensor ℂ := Tensor.ofRows [[0, -I], [I, 0]]
/-- qgate.py:382-386 `_z_gate` -/
def zMat : Tensor ℂ := Tensor.ofRows [[1, 0], [0, -1]]
/-- qgate.py:327-329 `_Hadamard` -/
def hMat : Tensor ℂ := Tensor.smul ((Real.sqrt 0.5 : ℝ) : ℂ) (Tensor.ofRows [[1, 1], [1, -1]])

/-- The public gate methods with their arguments. -/
inductive Call
  | rx (t : ℤ) (φ : ℝ) | ry (t : ℤ) (φ : ℝ) | rz (t : ℤ) (φ : ℝ)
  | cnot (c t : ℤ) | x (t : ℤ) | z (t : ℤ) | y (t : ℤ) | cz (c t : ℤ) | h (t : ℤ)
  | rxx (a b : ℤ) (φ : ℝ) | ryy (a b : ℤ) (φ : ℝ) | rzz (a b : ℤ) (φ : ℝ)
  | mcnot (cs : List ℤ) (t : ℤ)

/-- The body of the single-qubit methods (lines 170-179 and the same lines of the others): assert
the target, record the gate, then build the matrix. -/
def Circ.single (c : Circ) (g : Name) (m : Tensor ℂ) (θ : Option ℝ) (t : ℤ) : Py Unit × Circ :=
  if 0 ≤ t ∧ t < c.n then (c.addGate g (.int t) θ).addU (gate_expand_1toN m c.n t)
  else (.error .assertionError, c)

/-- The body of `cnot` (lines 206-215) and `cz` (241-251): the control is only asserted to be at most
`n_qubits`. -/
def Circ.ctrl (c : Circ) (g : Name) (m : Tensor ℂ) (k t : ℤ) : Py Unit × Circ :=
  if k ≤ c.n ∧ 0 ≤ t ∧ t < c.n then
    (c.addGate g (.list [k, t]) none).addU (two_qubit_control_gate m c.n k t)
  else (.error .assertionError, c)

/-- The body of `rxx` (lines 261-278), `ryy` (280-300; `distinct` is its extra assertion) and `rzz`
(302-319).  `if not target_qubit02` is true for the qubit number 0. -/
def Circ.rot2 (c : Circ) (g : Name) (P : Tensor ℂ) (distinct : Bool) (a b : ℤ) (φ : ℝ) :
    Py Unit × Circ :=
  let b := if b = 0 then a + 1 else b
  if a ≤ c.n ∧ b ≤ c.n ∧ (distinct = true → a ≠ b) then
    (c.addGate g (.list [a, b]) (some φ)).addU (two_qubit_rotation_gate φ c.n a b P)
  else (.error .assertionError, c)

/-- One method call: rx 170-179, ry 182-191, rz 194-203, cnot 206-215, x_gate 217-223, z_gate
225-231, y_gate 233-239, cz 241-251, Hadamard 253-259, rxx 261-278, ryy 280-300, rzz 302-319,
multi_control_cnot 321-322 (which records no gate). -/
def Circ.call (c : Circ) : Call → Py Unit × Circ
  | .rx t φ => c.single .rx (rxMat φ) (some φ) t
  | .ry t φ => c.single .ry (ryMat φ) (some φ) t
  | .rz t φ => c.single .rz (rzMat φ) (some φ) t
  | .cnot k t => c.ctrl .cnot xMat k t
  | .x t => c.single .X xMat none t
  | .z t => c.single .Z zMat none t
  | .y t => c.single .Y yMat none t
  | .cz k t => c.ctrl .cz zMat k t
  | .h t => c.single .H hMat none t
  | .rxx a b φ => c.rot2 .rxx xMat false a b φ
  | .ryy a b φ => c.rot2 .ryy yMat true a b φ
  | .rzz a b φ => c.rot2 .rzz zMat false a b φ
  | .mcnot cs t => c.addU (multi_control_gate xMat c.n cs t)

/-- A history of calls by a user who catches every exception and goes on. -/
def Circ.calls (c : Circ) (l : List Call) : Circ := l.foldl (fun c k => (c.call k).2) c

/-- qgate.py:75-88 `gate_sequence_product`. -/
def Circ.gate_sequence_product (c : Circ) (leftToRight : Bool := true) : Py (Tensor ℂ) :=
  c.u.foldlM (fun acc m => if leftToRight then m.matmul acc else acc.matmul m)
    (Tensor.eye (2 ^ c.n))

/-- qgate.py:324-325 `U`. -/
def Circ.U (c : Circ) : Py (Tensor ℂ) := c.gate_sequence_product

/-- qgate.py:389-402 `expecval_ZI`. -/
def expecval_ZI (rho : Tensor ℂ) (nqubit target : ℤ) : Py ℝ := do
  let H ← gate_expand_1toN zMat nqubit target
  .ok (← (← rho.matmul H).trace).re

/-- qgate.py:404-413 `measure`: an `nqubit × 1` tensor; the calls follow each other in the order of the
loop, the first failing one ends it. Simplification: `nqubit` is not negative. -/
def measure (rho : Tensor ℂ) (nqubit : ℕ) : Py (Tensor ℝ) := do
  let m ← (List.range nqubit).mapM (fun (i : ℕ) => expecval_ZI rho nqubit (i : ℤ))
  .ok (Tensor.ofFn [nqubit, 1] (fun idx => m.getD (idx.getD 0 0) 0))

end Legacy

end

end QTN
