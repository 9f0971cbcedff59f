import Verif.Model.QGate

/-!
# deepquantum/layers/qlayer.py

The older layer functions.  They call everything through the name `cir`, which line 11 binds to the
class `gates.qgate.Circuit`; the commented-out line 10 shows the functions the file was written for.
The functions below therefore take what `cir` provides as an argument; `circuitClass` is what the
class provides.

The number of qubits is an integer, angles are exact reals, `up2down` is a Boolean.
-/

namespace QTN

noncomputable section

namespace QLayer

/-- The attributes of `cir` used in the file, with the arguments they are called with. -/
structure Cir where
  rx : ℝ → Py (Tensor ℂ)
  ry : ℝ → Py (Tensor ℂ)
  rz : ℝ → Py (Tensor ℂ)
  hadamard : Py (Tensor ℂ)
  multi_kron : List (Tensor ℂ) → Py (Tensor ℂ)
  cnot : ℤ → ℤ → ℤ → Py (Tensor ℂ)
  cz : ℤ → ℤ → ℤ → Py (Tensor ℂ)
  rxx : ℝ → Py (Tensor ℂ)
  ryy : ℝ → Py (Tensor ℂ)
  rzz : ℝ → Py (Tensor ℂ)

/-- A call of a method on the class itself: Python binds the arguments to all parameters including
`self` and raises TypeError if their numbers differ; otherwise the body runs. -/
def unbound (parameters arguments : ℕ) (body : Py (Tensor ℂ)) : Py (Tensor ℂ) :=
  if parameters = arguments then body else .error .typeError

/-- qlayer.py:11: `cir` is the class of qgate.py. Parameters including `self`: rx/ry/rz 3 (170, 182, 194),
Hadamard 2 (253), multi_kron 2 (34), cnot and cz 3 (206, 241), rxx/ryy/rzz 4 (261, 280, 302).
`cnot` and `cz` are called with three arguments: `self` is then the integer `N`, the `isinstance`
assertions hold, and `self.n_qubits` (211, 246) raises AttributeError. The other bodies are never
reached. -/
def circuitClass : Cir where
  rx _ := unbound 3 1 (.error .attributeError)
  ry _ := unbound 3 1 (.error .attributeError)
  rz _ := unbound 3 1 (.error .attributeError)
  hadamard := unbound 2 0 (.error .attributeError)
  multi_kron _ := unbound 2 1 (.error .attributeError)
  cnot _ _ _ := unbound 3 3 (.error .attributeError)
  cz _ _ _ := unbound 3 3 (.error .attributeError)
  rxx _ := unbound 4 1 (.error .attributeError)
  ryy _ := unbound 4 1 (.error .attributeError)
  rzz _ := unbound 4 1 (.error .attributeError)

/-- `torch.matmul(a, b)` of two calls; the arguments are evaluated from left to right. -/
def mm (a b : Py (Tensor ℂ)) : Py (Tensor ℂ) := do
  let x ← a
  let y ← b
  x.matmul y

/-- The body shared by `XYZLayer` (13-27), `YZYLayer` (30-44), `XZXLayer` (47-61): the matrix of qubit
`i` is `c(p[3i+2]) @ (b(p[3i+1]) @ a(p[3i]))`. -/
def rot3Layer (cir : Cir) (a b c : ℝ → Py (Tensor ℂ)) (N : ℤ) (p : List ℝ) : Py (Tensor ℂ) := do
  raiseIf (N < 1) .valueError
  raiseIf ((p.length : ℤ) ≠ 3 * N) .valueError
  let l ← (pyRange N).mapM (fun i => do
    let θ1 ← pyGet p (3 * i + 0)
    let θ2 ← pyGet p (3 * i + 1)
    let θ3 ← pyGet p (3 * i + 2)
    mm (c θ3) (mm (b θ2) (a θ1)))
  cir.multi_kron l

/-- qlayer.py:13-27 -/
def XYZLayer (cir : Cir) := rot3Layer cir cir.rx cir.ry cir.rz
/-- qlayer.py:30-44 -/
def YZYLayer (cir : Cir) := rot3Layer cir cir.ry cir.rz cir.ry
/-- qlayer.py:47-61 -/
def XZXLayer (cir : Cir) := rot3Layer cir cir.rx cir.rz cir.rx

/-- qlayer.py:64-77 -/
def XZLayer (cir : Cir) (N : ℤ) (p : List ℝ) : Py (Tensor ℂ) := do
  raiseIf (N < 1) .valueError
  raiseIf ((p.length : ℤ) ≠ 2 * N) .valueError
  let l ← (pyRange N).mapM (fun i => do
    let θ1 ← pyGet p (2 * i + 0)
    let θ2 ← pyGet p (2 * i + 1)
    mm (cir.rz θ2) (cir.rx θ1))
  cir.multi_kron l

/-- qlayer.py:80-86 -/
def HLayer (cir : Cir) (N : ℤ) : Py (Tensor ℂ) := do
  raiseIf (N < 1) .valueError
  cir.multi_kron (← (pyRange N).mapM (fun _ => cir.hadamard))

/-- `for (i, j) in ...: rst = torch.matmul(g(N, i, j), rst)` -/
def loop (g : ℤ → ℤ → ℤ → Py (Tensor ℂ)) (N : ℤ) (l : List (ℤ × ℤ)) (rst : Tensor ℂ) : Py (Tensor ℂ) :=
  l.foldlM (fun rst ij => do
    let u ← g N ij.1 ij.2
    u.matmul rst) rst

/-- `range(a, b, 2)` -/
def rangeUp2 (a b : ℤ) : List ℤ := (List.range ((b - a + 1) / 2).toNat).map (fun k : ℕ => a + 2 * (k : ℤ))
/-- `range(a, b, -2)` -/
def rangeDown2 (a b : ℤ) : List ℤ := (List.range ((a - b + 1) / 2).toNat).map (fun k : ℕ => a - 2 * (k : ℤ))

/-- The frame of the entangling functions (e.g. 94-103): at least two qubits; two qubits get a single
gate. -/
def entangle (g : ℤ → ℤ → ℤ → Py (Tensor ℂ)) (N : ℤ) (up2down : Bool)
    (rest : Tensor ℂ → Py (Tensor ℂ)) : Py (Tensor ℂ) := do
  raiseIf (N < 2) .valueError
  if N = 2 then
    if up2down then g 2 0 1 else g 2 1 0
  else rest (Tensor.eye (2 ^ N.toNat))

/-- `ring_of_cnot` (qlayer.py:90-112, `d = 1`), `ring_of_cnot2` (115-138, `d = 2`) and `ring_of_cz`
(141-160, `d = 1`). -/
def ring (g : ℤ → ℤ → ℤ → Py (Tensor ℂ)) (d N : ℤ) (up2down : Bool) : Py (Tensor ℂ) :=
  entangle g N up2down (fun rst =>
    if up2down then loop g N ((pyRange N).map (fun i => (i, (i + d) % N))) rst
    else loop g N ((pyRangeDown (N - 1) (-1)).map (fun i => (i, (i - d) % N))) rst)

/-- qlayer.py:90-112 -/
def ring_of_cnot (cir : Cir) := ring cir.cnot 1
/-- qlayer.py:115-138 -/
def ring_of_cnot2 (cir : Cir) := ring cir.cnot 2
/-- qlayer.py:141-160 -/
def ring_of_cz (cir : Cir) := ring cir.cz 1

/-- `nearest_neighbor_cnot` (qlayer.py:163-189) and `nearest_neighbor_cz` (192-218). -/
def nearest (g : ℤ → ℤ → ℤ → Py (Tensor ℂ)) (N : ℤ) (up2down : Bool) : Py (Tensor ℂ) :=
  entangle g N up2down (fun rst =>
    if up2down then do
      let rst ← loop g N ((rangeUp2 0 (N - 1)).map (fun i => (i, i + 1))) rst
      loop g N ((rangeUp2 1 (N - 1)).map (fun i => (i, i + 1))) rst
    else do
      let rst ← loop g N ((rangeDown2 (N - 1) 0).map (fun i => (i, i - 1))) rst
      loop g N ((rangeDown2 (N - 2) 0).map (fun i => (i, i - 1))) rst)

/-- qlayer.py:163-189 -/
def nearest_neighbor_cnot (cir : Cir) := nearest cir.cnot
/-- qlayer.py:192-218 -/
def nearest_neighbor_cz (cir : Cir) := nearest cir.cz

/-- qlayer.py:221-244 -/
def all2all_cnot (cir : Cir) (N : ℤ) (up2down : Bool) : Py (Tensor ℂ) :=
  entangle cir.cnot N up2down (fun rst =>
    let r := if up2down then pyRange N else pyRangeDown (N - 1) (-1)
    loop cir.cnot N (r.flatMap (fun i => (r.filter (fun j => j ≠ i)).map (fun j => (i, j)))) rst)

/-- `l[a:b]` for `0 ≤ a`, `0 ≤ b` (the slices below are used after the length check, which forces
`0 ≤ N`, or their value does not matter). -/
def slice (l : List ℝ) (a b : ℤ) : List ℝ := (l.take b.toNat).drop a.toNat

/-- The selection of a rotation layer by name (e.g. 255-268) applied to a part of the parameters:
`lo` and `hi` are the bounds of the slice in units of `N` for two and for three axes. -/
def select (cir : Cir) (N : ℤ) (p : List ℝ) (single_gate : String) (lo hi : ℤ) : Py (Tensor ℂ) :=
  if single_gate = "YZY" then YZYLayer cir N (slice p (3 * lo * N) (3 * hi * N))
  else if single_gate = "XZX" then XZXLayer cir N (slice p (3 * lo * N) (3 * hi * N))
  else if single_gate = "XYZ" then XYZLayer cir N (slice p (3 * lo * N) (3 * hi * N))
  else if single_gate = "XZ" then XZLayer cir N (slice p (2 * lo * N) (2 * hi * N))
  else .error .valueError

/-- The parameter checks (e.g. 250-253): `k` is the number of rotation layers. -/
def checkParams (k N : ℤ) (p : List ℝ) (single_gate : String) : Py Unit := do
  raiseIf (single_gate.length = 3 ∧ (p.length : ℤ) ≠ 3 * k * N) .valueError
  raiseIf (single_gate.length = 2 ∧ (p.length : ℤ) ≠ 2 * k * N) .valueError

/-- qlayer.py:249-271 -/
def basic_entangle_layer (cir : Cir) (N : ℤ) (p : List ℝ) (single_gate : String) : Py (Tensor ℂ) := do
  checkParams 1 N p single_gate
  let S1 ← select cir N p single_gate 0 1
  let C1 ← ring_of_cnot cir N true
  C1.matmul S1

/-- qlayer.py:274-283 -/
def basic_entangle_layer2 (cir : Cir) (N : ℤ) (p : List ℝ) (single_gate : String) : Py (Tensor ℂ) := do
  checkParams 2 N p single_gate
  let nosg : ℤ := single_gate.length
  let L1 ← basic_entangle_layer cir N (p.take (nosg * N).toNat) single_gate
  let L2 ← basic_entangle_layer cir N (p.drop (nosg * N).toNat) single_gate
  L2.matmul L1

/-- qlayer.py:286-309 -/
def strong_entangle_layer (cir : Cir) (N : ℤ) (p : List ℝ) (single_gate : String) : Py (Tensor ℂ) := do
  checkParams 2 N p single_gate
  let S1 ← select cir N p single_gate 0 1
  let S2 ← select cir N p single_gate 1 2
  let C1 ← ring_of_cnot cir N true
  let C2 ← ring_of_cnot2 cir N true
  (← (← C2.matmul S2).matmul C1).matmul S1

/-- `RxxLayer` (qlayer.py:312-329), `RyyLayer` (332-349), `RzzLayer` (352-369). -/
def pairLayer (cir : Cir) (r : ℝ → Py (Tensor ℂ)) (N : ℤ) (p : List ℝ) : Py (Tensor ℂ) := do
  raiseIf (N - 1 ≠ p.length) .valueError
  raiseIf (N < 2) .valueError
  if N = 2 then r (← pyGet p 0)
  else if N % 2 = 0 then
    let U1 ← cir.multi_kron (← (slice p 0 (N / 2)).mapM r)
    let U2 ← cir.multi_kron ([Tensor.eye 2] ++ (← (slice p (N / 2) (N - 1)).mapM r) ++ [Tensor.eye 2])
    U2.matmul U1
  else
    let U1 ← cir.multi_kron ((← (slice p 0 ((N - 1) / 2)).mapM r) ++ [Tensor.eye 2])
    let U2 ← cir.multi_kron ([Tensor.eye 2] ++ (← (slice p ((N - 1) / 2) (N - 1)).mapM r))
    U2.matmul U1

/-- qlayer.py:312-329 -/
def RxxLayer (cir : Cir) := pairLayer cir cir.rxx
/-- qlayer.py:332-349 -/
def RyyLayer (cir : Cir) := pairLayer cir cir.ryy
/-- qlayer.py:352-369 -/
def RzzLayer (cir : Cir) := pairLayer cir cir.rzz

end QLayer

end

end QTN
