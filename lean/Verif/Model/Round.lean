import Verif.Model.QCircuit
import Verif.Build

/-!
# The matrix path of deepquantum/gates/qoperator.py and qcircuit.py in rounded arithmetic

Everywhere else the numbers are exact.  Here the same functions are transcribed once more with every
real operation followed by rounding, as torch does with complex64 tensors: a complex addition rounds
both components, a complex product rounds four real products and two sums.

Simplifications: exponents are unbounded (no overflow, underflow or NaN); all numbers have one precision
(the Python floats `0.5 * torch.pi` are rounded once, not twice).  The conversions `+ 0j`, `torch.tensor`
are identities.  The attribute `matrix` of the gates on several qubits is not used by `U_expand` and left
out.
-/

namespace QTN

open Complex (I)
open Finset

noncomputable section

/-- A number is unchanged by the rounding `fl` in both components. -/
def RepC (fl : ℝ → ℝ) (z : ℂ) : Prop := fl z.re = z.re ∧ fl z.im = z.im

/-- The numbers 0, 1, -1, i, -i: multiplying by them needs no rounding. -/
def IsSign (z : ℂ) : Prop := z = 0 ∨ z = 1 ∨ z = -1 ∨ z = I ∨ z = -I

/-- A floating-point arithmetic: rounding to a symmetric set of numbers that contains 0 and 1 and the
halves of its members, with relative error at most `u`; routines for cosine and sine with absolute error
at most `δ`; and a routine for the sums of products inside `torch.matmul`, which may add in any order and
may use fused operations.  What is assumed about it is the usual error bound in terms of the number `r` of
products that are not zero, and that no error is made if there is only one such product and one of its
factors is 0, 1, -1, i or -i. -/
structure Arith where
  fl : ℝ → ℝ
  u : ℝ
  δ : ℝ
  cosR : ℝ → ℝ
  sinR : ℝ → ℝ
  dot : ℕ → (ℕ → ℂ) → (ℕ → ℂ) → ℂ
  u_nonneg : 0 ≤ u
  δ_nonneg : 0 ≤ δ
  fl_err : ∀ x, |fl x - x| ≤ u * |x|
  fl_fl : ∀ x, fl (fl x) = fl x
  fl_neg : ∀ x, fl (-x) = -fl x
  fl_one : fl 1 = 1
  fl_half : ∀ x, fl x = x → fl (x / 2) = x / 2
  cos_err : ∀ x, |cosR x - Real.cos x| ≤ δ
  cos_fl : ∀ x, fl (cosR x) = cosR x
  sin_err : ∀ x, |sinR x - Real.sin x| ≤ δ
  sin_fl : ∀ x, fl (sinR x) = sinR x
  dot_err : ∀ n a b r, ((range n).filter (fun k => a k ≠ 0)).card ≤ r →
    ‖dot n a b - ∑ k ∈ range n, a k * b k‖ ≤
      ((1 + u) ^ r * (1 + Real.sqrt 2 * ((1 + u) ^ 2 - 1)) - 1) * ∑ k ∈ range n, ‖a k‖ * ‖b k‖
  dot_rep : ∀ n a b, RepC fl (dot n a b)
  dot_exact : ∀ n a b k, k < n → (∀ j, j < n → j ≠ k → a j = 0 ∨ b j = 0) →
    (IsSign (a k) ∧ RepC fl (b k) ∨ RepC fl (a k) ∧ IsSign (b k)) → dot n a b = a k * b k

namespace Arith

variable (A : Arith)

/-- complex addition -/
def add (z w : ℂ) : ℂ := ⟨A.fl (z.re + w.re), A.fl (z.im + w.im)⟩
/-- complex subtraction -/
def sub (z w : ℂ) : ℂ := ⟨A.fl (z.re - w.re), A.fl (z.im - w.im)⟩
/-- complex multiplication -/
def mul (z w : ℂ) : ℂ :=
  ⟨A.fl (A.fl (z.re * w.re) - A.fl (z.im * w.im)), A.fl (A.fl (z.re * w.im) + A.fl (z.im * w.re))⟩

/-! ## Tensors -/

/-- `a + b` for equal shapes. -/
def addT (a b : Tensor ℂ) : Py (Tensor ℂ) :=
  if a.shape = b.shape then .ok (Tensor.ofFn a.shape (fun idx => A.add (a.get idx) (b.get idx)))
  else .error .runtimeError
/-- `a - b` for equal shapes. -/
def subT (a b : Tensor ℂ) : Py (Tensor ℂ) :=
  if a.shape = b.shape then .ok (Tensor.ofFn a.shape (fun idx => A.sub (a.get idx) (b.get idx)))
  else .error .runtimeError
/-- scalar times tensor -/
def smulT (c : ℂ) (t : Tensor ℂ) : Tensor ℂ := Tensor.ofFn t.shape (fun idx => A.mul c (t.get idx))
/-- `torch.kron(a, b)` for tensors of the same rank (smaller ranks do not occur here). -/
def kron (a b : Tensor ℂ) : Tensor ℂ :=
  Tensor.ofFn (List.zipWith (· * ·) a.shape b.shape) (fun idx =>
    A.mul (a.get (List.zipWith (fun i d => i / d) idx b.shape))
      (b.get (List.zipWith (fun i d => i % d) idx b.shape)))
/-- `a @ b` for matrices (other ranks do not occur here). -/
def matmul (a b : Tensor ℂ) : Py (Tensor ℂ) :=
  match a.shape, b.shape with
  | [m, n], [n', p] =>
    if n = n' then
      .ok (Tensor.ofFn [m, p] (fun idx =>
        A.dot n (fun x => a.get [idx.getD 0 0, x]) (fun x => b.get [x, idx.getD 1 0])))
    else .error .runtimeError
  | _, _ => .error .runtimeError

/-- qmath.py:10-15 `multi_kron`. -/
def multi_kron (lst : List (Tensor ℂ)) : Py (Tensor ℂ) :=
  match lst with
  | [] => .error .indexError
  | m :: ms => .ok (ms.foldl A.kron m)

/-! ## Static helpers -/

/-- qoperator.py:16-26 `Operator.gate_expand_1toN`. -/
def gate_expand_1toN (gate : Tensor ℂ) (N index : ℤ) : Py (Tensor ℂ) := do
  raiseIf (N < 1) .valueError
  raiseIf (index < 0 ∨ index > N - 1) .valueError
  let lst1 := pyRep (Tensor.eye 2) N
  let lst1 ← pySet lst1 index gate
  A.multi_kron lst1

/-- qoperator.py:33-59 `Operation.two_qubit_control_gate`. -/
def two_qubit_control_gate (U : Tensor ℂ) (N control target : ℤ) : Py (Tensor ℂ) := do
  raiseIf (N < 1) .valueError
  raiseIf (max control target > N - 1) .valueError
  raiseIf (min control target < 0) .valueError
  raiseIf (control = target) .valueError
  let lst1 ← pySet (pyRep (Tensor.eye 2) N) control zero_zero
  let lst2 ← pySet (pyRep (Tensor.eye 2) N) control one_one
  let lst2 ← pySet lst2 target U
  A.addT (← A.multi_kron lst1) (← A.multi_kron lst2)

/-- qoperator.py:64-96 `Operation.multi_control_gate`. -/
def multi_control_gate (U : Tensor ℂ) (N : ℤ) (controls : List ℤ) (target : ℤ) :
    Py (Tensor ℂ) := do
  raiseIf (N < 1) .valueError
  raiseIf (max (← pyMax controls) target > N - 1) .valueError
  raiseIf (min (← pyMin controls) target < 0) .valueError
  raiseIf (∃ each ∈ controls, each = target) .valueError
  let lst1 ← controls.foldlM (fun l each => pySet l each one_one) (pyRep (Tensor.eye 2) N)
  let lst1 ← pySet lst1 target U
  let lst2 := pyRep (Tensor.eye 2) N
  let lst3 ← controls.foldlM (fun l each => pySet l each one_one) (pyRep (Tensor.eye 2) N)
  A.addT (← A.subT (← A.multi_kron lst2) (← A.multi_kron lst3)) (← A.multi_kron lst1)

/-! ## Matrices -/

/-- `x + 0j` for a real number -/
def real (x : ℝ) : ℂ := (x : ℂ)

/-- qoperator.py:189 -/
def hadamardMat : Tensor ℂ :=
  A.smulT (real (A.fl (Real.sqrt 0.5))) (Tensor.ofRows [[1, 1], [1, -1]])
/-- qoperator.py:344-349 (rx), 395-400 (ry), 445-450 (rz): the angle is first converted to a tensor. -/
def rotMat (P : Tensor ℂ) (θ : ℝ) : Py (Tensor ℂ) :=
  let x := A.fl (A.fl θ / 2)
  A.subT (A.smulT (real (A.cosR x)) (Tensor.eye 2)) (A.smulT (A.mul I (real (A.sinR x))) P)
/-- qoperator.py:494-503 -/
def u1Mat (θ : ℝ) : Py (Tensor ℂ) := do
  let x := A.fl (0.5 * A.fl θ)
  let c := real (A.cosR x)
  let s := real (A.sinR x)
  let e := A.add c (A.mul I s)
  .ok (A.smulT e (← A.subT (A.smulT c (Tensor.eye 2))
    (A.smulT (A.mul I s) (Tensor.ofRows [[1, 0], [0, -1]]))))
/-- qoperator.py:1409-1410: the phase gate of cphase. -/
def phaseMat (θ : ℝ) : Tensor ℂ :=
  Tensor.ofRows [[1, 0], [0, A.add (real (A.cosR θ)) (A.mul I (real (A.sinR θ)))]]
/-- qoperator.py:554-562 = 1553-1561. -/
def u3Mat (p : List ℝ) : Py (Tensor ℂ) := do
  let theta ← pyGet p 0
  let phi ← pyGet p 1
  let lambd ← pyGet p 2
  A.matmul (← A.matmul (← A.matmul (← A.matmul (← A.rotMat pauliZMat phi)
    (← A.rotMat pauliXMat (-0.5 * Real.pi))) (← A.rotMat pauliZMat theta))
    (← A.rotMat pauliXMat (0.5 * Real.pi))) (← A.rotMat pauliZMat lambd)

/-! ## Constructors and `U_expand` -/

/-- The constructor calls of `build` (line numbers there): the attributes `U_expand` uses. -/
def build {N : ℕ} : Spec.Instr N → Py Gate
  | .h i => .ok ⟨.hadamard, N, .int (wire i), [], A.hadamardMat, noMat⟩
  | .x i => .ok ⟨.pauliX, N, .int (wire i), [], pauliXMat, noMat⟩
  | .y i => .ok ⟨.pauliY, N, .int (wire i), [], pauliYMat, noMat⟩
  | .z i => .ok ⟨.pauliZ, N, .int (wire i), [], pauliZMat, noMat⟩
  | .rx θ i => do .ok ⟨.rx, N, .int (wire i), [A.fl θ], ← A.rotMat pauliXMat θ, noMat⟩
  | .ry θ i => do .ok ⟨.ry, N, .int (wire i), [A.fl θ], ← A.rotMat pauliYMat θ, noMat⟩
  | .rz θ i => do .ok ⟨.rz, N, .int (wire i), [A.fl θ], ← A.rotMat pauliZMat θ, noMat⟩
  | .u1 θ i => do .ok ⟨.u1, N, .int (wire i), [A.fl θ], ← A.u1Mat θ, noMat⟩
  | .u3 θ φ l i => do
    let p := [A.fl θ, A.fl φ, A.fl l]
    .ok ⟨.u3, N, .int (wire i), p, ← A.u3Mat p, noMat⟩
  | .rxx θ p q => .ok ⟨.rxx, N, .list [wire p, wire q], [A.fl θ], noMat, noMat⟩
  | .ryy θ p q => .ok ⟨.ryy, N, .list [wire p, wire q], [A.fl θ], noMat, noMat⟩
  | .rzz θ p q => .ok ⟨.rzz, N, .list [wire p, wire q], [A.fl θ], noMat, noMat⟩
  | .cnot c t => .ok ⟨.cnot, N, .list [wire c, wire t], [], noMat, noMat⟩
  | .cz c t => .ok ⟨.cz, N, .list [wire c, wire t], [], noMat, noMat⟩
  | .cphase θ c t => .ok ⟨.cphase, N, .list [wire c, wire t], [A.fl θ], noMat, noMat⟩
  | .cu3 θ φ l c t => do
    let p := [A.fl θ, A.fl φ, A.fl l]
    .ok ⟨.cu3, N, .list [wire c, wire t], p, noMat, ← A.u3Mat p⟩
  | .swap p q => .ok ⟨.swap, N, .list [wire p, wire q], [], noMat, noMat⟩
  | .toffoli a b t => mkToffoli N (.list [wire a, wire b, wire t])
  | .mcnot cs t => mkMcnot N (.list (cs.map wire ++ [wire t]))

/-- qoperator.py:627-642 (rxx), 761-776 (ryy), 897-912 (rzz). -/
def rot2_U_expand (g : Gate) (P : Tensor ℂ) : Py (Tensor ℂ) := do
  g.guard
  raiseIf (g.nqubits < 1) .valueError
  let w ← g.wires.asList
  let w0 ← pyGet w 0
  let w1 ← pyGet w 1
  raiseIf (w0 < 0 ∨ w0 > g.nqubits - 1 ∨ w1 < 0 ∨ w0 > g.nqubits - 1) .valueError
  raiseIf (w0 = w1) .valueError
  let theta ← pyGet g.params 0
  let lst1 := pyRep (Tensor.eye 2) g.nqubits
  let lst2 ← pySet (pyRep (Tensor.eye 2) g.nqubits) w0 P
  let lst2 ← pySet lst2 w1 P
  let x := A.fl (theta / 2)
  A.subT (A.smulT (real (A.cosR x)) (← A.multi_kron lst1))
    (A.smulT (A.mul I (real (A.sinR x))) (← A.multi_kron lst2))

/-- qoperator.py:1732-1760 `SWAP.U_expand`. -/
def swap_U_expand (g : Gate) : Py (Tensor ℂ) := do
  g.guard
  let w ← g.wires.asList
  let q1 ← pyGet w 0
  let q2 ← pyGet w 1
  let mk (a b : Tensor ℂ) : Py (Tensor ℂ) := do
    let l ← pySet (pyRep (Tensor.eye 2) g.nqubits) q1 a
    A.multi_kron (← pySet l q2 b)
  A.addT (← A.addT (← A.addT (← mk zero_zero zero_zero) (← mk one_zero zero_one))
    (← mk zero_one one_zero)) (← mk one_one one_one)

/-- qoperator.py:1031-1038 (cnot), 1250-1257 (cz), 1407-1415 (cphase), 1567-1573 (cu3). -/
def ctrl_U_expand (g : Gate) (U : Tensor ℂ) : Py (Tensor ℂ) := do
  g.guard
  let w ← g.wires.asList
  let control ← pyGet w 0
  let target ← pyGet w 1
  A.two_qubit_control_gate U g.nqubits control target

/-- qoperator.py:1912-1919 (toffoli), 2147-2152 (multi_control_cnot). -/
def mc_U_expand (g : Gate) : Py (Tensor ℂ) := do
  g.guard
  let w ← g.wires.asList
  let target ← pyGet w (-1)
  A.multi_control_gate pauliXMat g.nqubits w.dropLast target

/-- `U_expand` of the single-qubit gates (line numbers at `Gate.single_U_expand`). -/
def single_U_expand (g : Gate) : Py (Tensor ℂ) := do
  g.guard
  let i ← g.wires.asInt
  A.gate_expand_1toN g.matrix g.nqubits i

/-- `U_expand()` by class. -/
def U_expand (g : Gate) : Py (Tensor ℂ) :=
  match g.cls with
  | .hadamard | .pauliX | .pauliY | .pauliZ | .rx | .ry | .rz | .u1 | .u3 => A.single_U_expand g
  | .rxx => A.rot2_U_expand g pauliXMat
  | .ryy => A.rot2_U_expand g pauliYMat
  | .rzz => A.rot2_U_expand g pauliZMat
  | .cnot => A.ctrl_U_expand g pauliXMat
  | .cz => A.ctrl_U_expand g pauliZMat
  | .cphase => do
    g.guard
    let theta ← pyGet g.params 0
    A.ctrl_U_expand g (A.phaseMat theta)
  | .cu3 => A.ctrl_U_expand g g.uMatrix
  | .swap => A.swap_U_expand g
  | .toffoli | .mcnot => A.mc_U_expand g

/-! ## Circuits of gates -/

/-- qcircuit.py:51-62 `U` of a circuit to which gates have been added. -/
def circuitU (N : ℕ) (gates : List Gate) : Py (Tensor ℂ) :=
  gates.foldlM (fun acc g => do A.matmul (← A.U_expand g) acc) (Tensor.eye (2 ^ N))

/-- `cir.U() @ state`: the matrix path of every script. -/
def run (N : ℕ) (gates : List Gate) (state : Tensor ℂ) : Py (Tensor ℂ) := do
  A.matmul (← A.circuitU N gates) state

end Arith

end

end QTN
