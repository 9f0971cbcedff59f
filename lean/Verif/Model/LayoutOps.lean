import Verif.Model.Layout
import Verif.Model.Measure

/-!
# The library on tensors with a data type and strides

The functions of `Model/QTensorNetwork.lean`, `Model/QOperator.lean`, `Model/QLayers.lean` and
`Model/QCircuit.lean` that change the shape of a tensor, multiply tensors or decompose them, written
once more with `XT`.  Every list function and every check is the one of the other files; what is new is
that `view`, `@` and `einsum` raise as in torch, and that `reshape` (which copies if it must) is kept
apart from `view` (which raises).
-/

namespace QTN

noncomputable section

/-! ## qtensornetwork.py -/

/-- `torch.svd(A)`: the factors have the type of `A`, the singular values the corresponding real type.
Integer matrices are not supported. -/
def callSvdX (svd : SVDOracle) (lay : Lay) (A : XT) : TNM (XT × List ℝ × XT) := fun s =>
  if A.dt = .i64 then (.error .runtimeError, s)
  else if A.val.rank = 2 then
    (.ok (⟨(svd s A.val).U, A.dt, lay.svdU A⟩, (svd s A.val).S, ⟨(svd s A.val).V, A.dt, lay.svdV A⟩),
      s ++ [A.val])
  else (.error .runtimeError, s)

/-- qtensornetwork.py:35-46 = 98-117 = 137-146 = 259-267. -/
def svdTruncX (svd : SVDOracle) (lay : Lay) (A : XT) : TNM (XT × XT) := do
  let o ← callSvdX svd lay A
  let Vd ← (o.2.2.permute [1, 0] : Py _)
  let Vd := Vd.conj
  let D := (o.2.1.filter (fun s => decide (|s| > cutoff))).length
  let Sm : XT := XT.fresh (Tensor.ofList (o.2.1.map Complex.ofReal)).diagMat A.dt.toReal.toComplex
  if D < Sm.val.shape.getD 0 0 then
    (raiseIf (D = 0) .runtimeError : Py _)
    let U ← (o.1.indexSelect1 (List.range D) : Py _)
    let Sm ← (Sm.indexSelect0 (List.range D) : Py _)
    let r ← (Sm.matmul lay Vd : Py _)
    pure (U, r)
  else
    let r ← (Sm.matmul lay Vd : Py _)
    pure (o.1, r)

/-- qtensornetwork.py:27-28, 118-119, 134-135. -/
def foldHalvesX (t : XT) : Py XT := do
  let c ← t.chunk1 2
  (← pyGet c 0).cat0 (← pyGet c 1)

/-- The loop of qtensornetwork.py:25-46 with `k` sites left. -/
def StateVec2MPS_loopX (svd : SVDOracle) (lay : Lay) : ℕ → XT → TNM (List XT)
  | 0, _ => pure []
  | k + 1, c => do
    let c ← (foldHalvesX c : Py _)
    if k = 0 then
      let t ← (c.view [2, -1, (c.val.shape.getD 1 0 : ℤ)] : Py _)
      pure [t]
    else
      let (U, r) ← svdTruncX svd lay c
      let t ← (U.view [2, -1, (U.val.shape.getD 1 0 : ℤ)] : Py _)
      let rest ← StateVec2MPS_loopX svd lay k r
      pure (t :: rest)

/-- qtensornetwork.py:15-48 `StateVec2MPS`; line 23 is `psi + 0j`. -/
def StateVec2MPSX (svd : SVDOracle) (lay : Lay) (psi : XT) (N : ℕ) : TNM (List XT) := do
  (raiseIf (psi.val.rank ≠ 2) .valueError : Py _)
  (raiseIf (psi.val.shape.getD 0 0 ≠ 1 ∨ psi.val.shape.getD 1 0 ≠ 2 ^ N) .valueError : Py _)
  StateVec2MPS_loopX svd lay N (psi.plus0j lay)

/-- qtensornetwork.py:52-61 `MatrixProductState`: no `+ 0j`. -/
def MatrixProductStateX (psi : XT) (N : ℕ) : Py XT := do
  raiseIf (psi.val.rank ≠ 2) .valueError
  raiseIf (psi.val.shape.getD 0 0 ≠ 1 ∨ psi.val.shape.getD 1 0 ≠ 2 ^ N) .valueError
  psi.view (List.replicate N 2)

/-- One step of the loop qtensornetwork.py:75-77. -/
def MPS2SV_stepX (lay : Lay) (c t : XT) : Py XT := do
  let c ← (← c.unsqueeze 1).matmul lay (← t.unsqueeze 0)
  let s := c.val.shape
  let s2 ← pyGet s 2
  let s3 ← pyGet s 3
  c.view [((s.getD 0 0 * s.getD 1 0 : ℕ) : ℤ), (s2 : ℤ), (s3 : ℤ)]

/-- qtensornetwork.py:66-80 `MPS2StateVec(tensor_lst)`. -/
def MPS2StateVecX (lay : Lay) (lst : List XT) : Py XT :=
  match lst with
  | [] => .error .unboundLocal
  | t :: ts => do
    let c ← ts.foldlM (MPS2SV_stepX lay) t
    (← c.view [-1]).view [1, -1]

/-- qtensornetwork.py:82-90 `MPS2StateVec(tensor_lst, return_sv=False)`. -/
def MPS2StateVec_tensorX (lay : Lay) (lst : List XT) : Py XT :=
  match lst with
  | [] => .error .unboundLocal
  | t :: ts => do
    let c ← (ts.zipIdx 1).foldlM (fun c (ti : XT × ℕ) => do
      (← c.unsqueeze ti.2).matmul lay (← ti.1.unsqueeze 0)) t
    let c := c.squeeze
    pyAssert (c.val.rank = lst.length)
    .ok c

/-- `t[i, j]` -/
def select2X (t : XT) (i j : ℤ) : Py XT := do (← t.select0 i).select0 j

/-- qtensornetwork.py:94-96 -/
def blockMat2X (t : XT) : Py XT := do
  let b1 ← (← select2X t 0 0).cat1 (← select2X t 0 1)
  let b2 ← (← select2X t 1 0).cat1 (← select2X t 1 1)
  b1.cat0 b2

/-- qtensornetwork.py:93-122 `TensorDecompAfterTwoQbitGate`. -/
def TensorDecompAfterTwoQbitGateX (svd : SVDOracle) (lay : Lay) (t : XT) : TNM (XT × XT) := do
  let m ← (blockMat2X t : Py _)
  let (U, r) ← svdTruncX svd lay m
  let rst1 ← (U.view [2, -1, (U.val.shape.getD 1 0 : ℤ)] : Py _)
  let r ← (foldHalvesX r : Py _)
  let rst2 ← (r.view [2, -1, (r.val.shape.getD 1 0 : ℤ)] : Py _)
  pure (rst1, rst2)

/-- `t[i, j, k]` -/
def select3X (t : XT) (i j k : ℤ) : Py XT := do
  (← (← t.select0 i).select0 j).select0 k

/-- qtensornetwork.py:127-129 -/
def blockMat3X (t : XT) : Py XT := do
  let row (x : ℤ) : Py XT := do
    XT.catList XT.cat1
      [← select3X t x 0 0, ← select3X t x 0 1, ← select3X t x 1 0, ← select3X t x 1 1]
  (← row 0).cat0 (← row 1)

/-- qtensornetwork.py:124-149 `TensorDecompAfterThreeQbitGate`. -/
def TensorDecompAfterThreeQbitGateX (svd : SVDOracle) (lay : Lay) (t : XT) :
    TNM (XT × XT × XT) := do
  (raiseIf (t.val.rank ≠ 5) .valueError : Py _)
  let m ← (blockMat3X t : Py _)
  let (U, r) ← svdTruncX svd lay m
  let rst1 ← (U.view [2, -1, (U.val.shape.getD 1 0 : ℤ)] : Py _)
  let r ← (foldHalvesX r : Py _)
  let (U, r) ← svdTruncX svd lay r
  let rst2 ← (U.view [2, -1, (U.val.shape.getD 1 0 : ℤ)] : Py _)
  let r ← (foldHalvesX r : Py _)
  let rst3 ← (r.view [2, -1, (r.val.shape.getD 1 0 : ℤ)] : Py _)
  pure (rst1, rst2, rst3)

/-- qtensornetwork.py:233-252 -/
def rhoRegroupX (r : XT) (chunks : ℕ) : Py XT := do
  let r ← XT.catList XT.cat0 (← r.chunk1 2)
  let half := r.val.shape.getD 0 0 / 2
  let part (j : ℕ) : Py XT := do
    let bias := j * half
    let block := r.rowSlice bias (half + bias)
    let blks ← block.chunk1 chunks
    let even := (blks.zipIdx.filter (fun p => p.2 % 2 = 0)).map Prod.fst
    let odd := (blks.zipIdx.filter (fun p => ¬ p.2 % 2 = 0)).map Prod.fst
    (← XT.catList XT.cat1 even).cat0 (← XT.catList XT.cat1 odd)
  (← part 0).cat0 (← part 1)

/-- The loop qtensornetwork.py:231-275 with `k` sites left. -/
def Rho2MPS_loopX (svd : SVDOracle) (lay : Lay) : ℕ → XT → TNM (List XT)
  | 0, _ => pure []
  | k + 1, r => do
    let r ← (rhoRegroupX r (2 ^ (k + 1)) : Py _)
    let (U, r) ← svdTruncX svd lay r
    let t ← (U.view [2, 2, -1, (U.val.shape.getD 1 0 : ℤ)] : Py _)
    let rest ← Rho2MPS_loopX svd lay k r
    pure (t :: rest)

/-- qtensornetwork.py:215-276 `Rho2MPS`: no `+ 0j`, and a `view` of the caller's matrix. -/
def Rho2MPSX (svd : SVDOracle) (lay : Lay) (rho : XT) (N : ℕ) : TNM (List XT) := do
  (raiseIf (rho.val.rank ≠ 2) .valueError : Py _)
  (raiseIf (rho.val.shape.getD 0 0 ≠ 2 ^ N ∨ rho.val.shape.getD 1 0 ≠ 2 ^ N) .valueError : Py _)
  let r ← (rho.view [1, -1] : Py _)
  Rho2MPS_loopX svd lay N r

/-- qtensornetwork.py:287-289 -/
def MPS2Rho_stepX (lay : Lay) (rho t : XT) : Py XT := do
  let rho ← (← (← rho.unsqueeze 1).unsqueeze 3).matmul lay (← (← t.unsqueeze 0).unsqueeze 2)
  let s := rho.val.shape
  let s0 ← pyGet s 0
  let s1 ← pyGet s 1
  let s2 ← pyGet s 2
  let s3 ← pyGet s 3
  let s4 ← pyGet s 4
  let s5 ← pyGet s 5
  rho.view [((s0 * s1 : ℕ) : ℤ), ((s2 * s3 : ℕ) : ℤ), (s4 : ℤ), (s5 : ℤ)]

/-- qtensornetwork.py:280-296 `MPS2Rho`. -/
def MPS2RhoX (lay : Lay) (mps : List XT) : Py XT :=
  match mps with
  | [] => .error .unboundLocal
  | t :: ts => do
    let rho := (← ts.foldlM (MPS2Rho_stepX lay) t).squeeze
    let tr ← rho.val.trace
    .ok ⟨rho.val.smul ((1.0 / tr.re : ℝ) : ℂ), rho.dt, lay.elem rho⟩

/-- qtensornetwork.py:301-313 `MatrixProductDensityOperator`. -/
def MatrixProductDensityOperatorX (rho : XT) (N : ℕ) : Py XT := do
  raiseIf (rho.val.rank ≠ 2) .valueError
  raiseIf (rho.val.shape.getD 0 0 ≠ 2 ^ N ∨ rho.val.shape.getD 1 0 ≠ 2 ^ N) .valueError
  let t ← rho.view (List.replicate (2 * N) 2)
  pyAssert (t.val.rank = 2 * N)
  .ok t

/-! ## qoperator.py -/

namespace Gate

/-- The 0-dimensional parameter of a gate, qoperator.py:344, 395, 445, 494, 617, 751, 887, 1388:
`theta + torch.tensor(0.0)`, for a tensor of type `pd` (a Python number counts as `f32`). -/
def thetaTy (pd : DT) : Operand := (Operand.zeroDim pd).op (.zeroDim .f32)

/-- qoperator.py:348-349 and the same lines of the other rotations:
`cos(θ/2.0)*eye - 1j*sin(θ/2.0)*P + 0j` with a complex `P`. -/
def rotTy (pd : DT) : Operand :=
  let t := ((thetaTy pd).op (.number .f64)).trig
  ((t.op (.dims .f32)).op (((Operand.number .c128).op t).op (.dims .c64))).op (.number .c128)

/-- qoperator.py:500-503 `e*(c*eye - 1j*s*torch.tensor([[1,0],[0,-1]]))` with an integer matrix. -/
def u1Ty (pd : DT) : Operand :=
  let t := ((Operand.number .f64).op (thetaTy pd)).trig
  let e := t.op ((Operand.number .c128).op t)
  e.op ((t.op (.dims .f32)).op (((Operand.number .c128).op t).op (.dims .i64)))

/-- `exp_itheta` of qoperator.py:1393, 1409. -/
def expTy (pd : DT) : Operand :=
  (thetaTy pd).trig.op ((Operand.number .c128).op (thetaTy pd).trig)

/-- qoperator.py:1402 `torch.eye(4,4) + (exp_itheta-1)*mt` with an integer matrix `mt`. -/
def cphaseTy (pd : DT) : Operand :=
  (Operand.dims .f32).op (((expTy pd).op (.number .i64)).op (.dims .i64))

/-- The type of `self.matrix` by class, for parameters of type `pd`.  u3 and cu3 multiply matrices of rx
and rz (lines 557-562, 1556-1562); the constant matrices are complex64 after `+ 0j`. -/
def matTy (cls : GateCls) (pd : DT) : DT :=
  match cls with
  | .rx | .ry | .rz | .rxx | .ryy | .rzz => (rotTy pd).dt
  | .u3 | .cu3 => (rotTy pd).dt
  | .u1 => (u1Ty pd).dt
  | .cphase => (cphaseTy pd).dt
  | _ => .c64

/-- The type of `U_expand()`: products and sums of `self.matrix` (or `u_matrix`, or the phase gate of
line 1410, a tensor made of 0-dimensional tensors) with real identities and complex64 constants. -/
def uTy (cls : GateCls) (pd : DT) : DT :=
  match cls with
  | .rxx | .ryy | .rzz =>
    let t := ((thetaTy pd).op (.number .f64)).trig
    (((t.op (.dims .f32)).op (((Operand.number .c128).op t).op (.dims .c64))).op (.number .c128)).dt
  | .cphase => DT.promote .c64 (expTy pd).dt
  | c => DT.promote .c64 (matTy c pd)

/-- `self.matrix` -/
def matX (g : Gate) (pd : DT) : XT := XT.fresh g.matrix (matTy g.cls pd)

/-- qoperator.py:131-138 = 140-147 -/
def contract1X (lay : Lay) (m T : XT) (n w : ℤ) : Py XT := do
  let p ← singlePerm n w (n - 1)
  let T ← (← T.permute p).unsqueeze (-1)
  let T ← (← m.matmul lay T).squeezeDim (-1)
  T.permute p

/-- qoperator.py:127-147 -/
def single_TN_contractX (lay : Lay) (g : Gate) (pd : DT) (T : XT) (batch : Bool) : Py XT := do
  g.guard
  let i ← g.wires.asInt
  if batch = false then contract1X lay (g.matX pd) T g.nqubits i
  else contract1X lay (g.matX pd) T (g.nqubits + 1) (i + 1)

/-- qoperator.py:653-681 and 684-712: `reshape` before the product (line 663), `view` after it (line
667). -/
def contract2X (lay : Lay) (m T : XT) (n c t : ℤ) (outShape : List ℕ → List ℤ) : Py XT := do
  let p := pyRange n
  let p ← pyRemove p c
  let p ← pyRemove p t
  let p := p ++ [c, t]
  let T ← T.permute p
  let s := T.val.shape
  let sm2 ← pyGet s (-2)
  let sm1 ← pyGet s (-1)
  let s ← pySet s (-2) (sm2 * sm1)
  let s ← pySet s (-1) 1
  let T ← T.reshape (s.map (fun d : ℕ => (d : ℤ)))
  let T ← m.matmul lay T
  let T ← T.view (outShape s)
  let p ← pyPop (pyRange n)
  let p ← pyPop p
  let p := if c < t then pyInsert (pyInsert p c (n - 2)) t (n - 1)
    else pyInsert (pyInsert p t (n - 1)) c (n - 2)
  T.permute p

/-- `TN_contract` of the two-qubit gates other than SWAP. -/
def two_TN_contractX (lay : Lay) (g : Gate) (pd : DT) (T : XT) (batch : Bool) : Py XT := do
  g.guard
  let w ← g.wires.asList
  let c ← pyGet w 0
  let t ← pyGet w 1
  pyAssert (c ≠ t)
  if batch = false then
    pyAssert ((T.val.rank : ℤ) = g.nqubits)
    contract2X lay (g.matX pd) T g.nqubits c t (fun _ => pyRep 2 g.nqubits)
  else
    pyAssert ((T.val.rank : ℤ) = g.nqubits + 1)
    contract2X lay (g.matX pd) T (g.nqubits + 1) (c + 1) (t + 1)
      (fun s => (s.getD 0 0 : ℤ) :: pyRep 2 g.nqubits)

/-- qoperator.py:1801-1851 -/
def swap_TN_contractX (g : Gate) (T : XT) (batch : Bool) : Py XT := do
  g.guard
  let w ← g.wires.asList
  let c ← pyGet w 0
  let t ← pyGet w 1
  pyAssert (c ≠ t)
  if batch = false then
    pyAssert ((T.val.rank : ℤ) = g.nqubits)
    let p ← pySet (pyRange g.nqubits) c t
    let p ← pySet p t c
    T.permute p
  else
    pyAssert ((T.val.rank : ℤ) = g.nqubits + 1)
    let p ← pySet (pyRange (g.nqubits + 1)) (c + 1) (t + 1)
    let p ← pySet p (t + 1) (c + 1)
    T.permute p

/-- qoperator.py:2005-2053 and 2057-2105 -/
def contract3X (lay : Lay) (m T : XT) (n c1 c2 t : ℤ) (outShape : List ℕ → List ℤ) : Py XT := do
  let p := pyRange n
  let p ← pyRemove p c1
  let p ← pyRemove p c2
  let p ← pyRemove p t
  let p := p ++ [c1, c2, t]
  let T ← T.permute p
  let s := T.val.shape
  let sm3 ← pyGet s (-3)
  let sm2 ← pyGet s (-2)
  let sm1 ← pyGet s (-1)
  let s ← pySet s (-3) (sm3 * sm2 * sm1)
  let s ← pySet s (-2) 1
  let s ← pySet s (-1) 1
  let T ← T.reshape (s.map (fun d : ℕ => (d : ℤ)))
  let T ← T.squeezeDim (-1)
  let T ← m.matmul lay T
  let T ← T.view (outShape s)
  let p ← pyPop (pyRange n)
  let p ← pyPop p
  let p ← pyPop p
  let ins (p : List ℤ) (a x b y d z : ℤ) : List ℤ := pyInsert (pyInsert (pyInsert p a x) b y) d z
  let p :=
    if c1 < c2 ∧ c2 < t then ins p c1 (n - 3) c2 (n - 2) t (n - 1)
    else if c1 < t ∧ t < c2 then ins p c1 (n - 3) t (n - 1) c2 (n - 2)
    else if c2 < t ∧ t < c1 then ins p c2 (n - 2) t (n - 1) c1 (n - 3)
    else if c2 < c1 ∧ c1 < t then ins p c2 (n - 2) c1 (n - 3) t (n - 1)
    else if t < c1 ∧ c1 < c2 then ins p t (n - 1) c1 (n - 3) c2 (n - 2)
    else if t < c2 ∧ c2 < c1 then ins p t (n - 1) c2 (n - 2) c1 (n - 3)
    else p
  T.permute p

/-- qoperator.py:1994-2105 -/
def toffoli_TN_contractX (lay : Lay) (g : Gate) (pd : DT) (T : XT) (batch : Bool) : Py XT := do
  g.guard
  let w ← g.wires.asList
  let c1 ← pyGet w 0
  let c2 ← pyGet w 1
  let t ← pyGet w 2
  pyAssert (c1 ≠ t ∧ c2 ≠ t ∧ c1 ≠ c2)
  if batch = false then
    pyAssert ((T.val.rank : ℤ) = g.nqubits)
    contract3X lay (g.matX pd) T g.nqubits c1 c2 t (fun _ => pyRep 2 g.nqubits)
  else
    pyAssert ((T.val.rank : ℤ) = g.nqubits + 1)
    contract3X lay (g.matX pd) T (g.nqubits + 1) (c1 + 1) (c2 + 1) (t + 1)
      (fun s => (s.getD 0 0 : ℤ) :: pyRep 2 g.nqubits)

/-- `TN_contract(T, batch_mod)` by class. -/
def TN_contractX (lay : Lay) (g : Gate) (pd : DT) (T : XT) (batch : Bool) : Py XT :=
  match g.cls with
  | .hadamard | .pauliX | .pauliY | .pauliZ | .rx | .ry | .rz | .u1 | .u3 =>
    g.single_TN_contractX lay pd T batch
  | .rxx | .ryy | .rzz | .cnot | .cz | .cphase | .cu3 => g.two_TN_contractX lay pd T batch
  | .swap => g.swap_TN_contractX T batch
  | .toffoli => g.toffoli_TN_contractX lay pd T batch
  | .mcnot => .error .attributeError

/-- qoperator.py:1051-1059 and the same lines of the other gates. -/
def mergeTwoX (lay : Lay) (A B G : XT) : Py XT := do
  let temp ← (← (← A.unsqueeze 1).matmul lay (← B.unsqueeze 0)).permute [2, 3, 0, 1]
  let s := temp.val.shape
  let s0 := s.getD 0 0
  let s1 := s.getD 1 0
  let s2 := s.getD 2 0
  let s3 := s.getD 3 0
  let temp ← temp.view [(s0 : ℤ), (s1 : ℤ), ((s2 * s3 : ℕ) : ℤ), 1]
  let temp ← G.matmul lay temp
  let temp ← temp.view [(s0 : ℤ), (s1 : ℤ), (s2 : ℤ), (s3 : ℤ)]
  temp.permute [2, 3, 0, 1]

/-- The two-site update. -/
def applyTwoX (svd : SVDOracle) (lay : Lay) (G : XT) (mps : List XT) (i : ℤ) : TNM (List XT) := do
  let A ← (pyGet mps i : Py _)
  let B ← (pyGet mps (i + 1) : Py _)
  let temp ← (mergeTwoX lay A B G : Py _)
  let (a, b) ← TensorDecompAfterTwoQbitGateX svd lay temp
  let mps ← (pySet mps i a : Py _)
  (pySet mps (i + 1) b : Py _)

/-- qoperator.py:1763-1799 -/
def swapTNX (svd : SVDOracle) (lay : Lay) (m : XT) (w : List ℤ) (mps : List XT) :
    TNM (List XT) := do
  (raiseIf (w.length ≠ 2) .valueError : Py _)
  let up ← (pyMin w : Py _)
  let down ← (pyMax w : Py _)
  let mps ← (pyRange2 up down).foldlM (fun mps i => applyTwoX svd lay m mps i) mps
  (pyRangeDown (down - 1) up).foldlM (fun mps i => applyTwoX svd lay m mps (i - 1)) mps

/-- qoperator.py:1763-1799 -/
def swap_TN_operationX (svd : SVDOracle) (lay : Lay) (g : Gate) (mps : List XT) :
    TNM (List XT) := do
  (g.guard : Py _)
  let w ← (g.wires.asList : Py _)
  swapTNX svd lay (g.matX .f32) w mps

/-- `SWAP(N,[i,j]).TN_operation(MPS)` -/
def swapCallX (svd : SVDOracle) (lay : Lay) (N i j : ℤ) (mps : List XT) : TNM (List XT) :=
  swap_TN_operationX svd lay (mkSwap N (.list [i, j])) mps

/-- a matrix returned by `U_expand()` with its type -/
def typed (d : DT) (x : Py (Tensor ℂ)) : Py XT := do
  let v ← x
  .ok (XT.fresh v d)

/-- qoperator.py:1040-1133 -/
def cnot_TN_operationX (svd : SVDOracle) (lay : Lay) (g : Gate) (mps : List XT) :
    TNM (List XT) := do
  (g.guard : Py _)
  let w ← (g.wires.asList : Py _)
  let up ← (pyMin w : Py _)
  let down ← (pyMax w : Py _)
  let w0 ← (pyGet w 0 : Py _)
  if up + 1 = down then
    let G ← (typed .c64 (if w0 = up then .ok cnotMat else (mkCnot 2 (.list [1, 0])).U_expand) : Py _)
    applyTwoX svd lay G mps up
  else
    let mps ← (pyRange2 up (down - 1)).foldlM
      (fun mps i => swapCallX svd lay g.nqubits i (i + 1) mps) mps
    let G ← (typed .c64 (if w0 = up then .ok cnotMat else (mkCnot 2 (.list [1, 0])).U_expand) : Py _)
    let mps ← applyTwoX svd lay G mps (down - 1)
    (pyRangeDown (down - 1) up).foldlM (fun mps i => swapCallX svd lay g.nqubits (i - 1) i mps) mps

/-- qoperator.py:1259-1286 (cz), 1417-1444 (cphase), 1575-1602 (cu3). -/
def ctrl_TN_operationX (svd : SVDOracle) (lay : Lay) (g : Gate) (pd : DT) (Grev : Py (Tensor ℂ))
    (mps : List XT) : TNM (List XT) := do
  (g.guard : Py _)
  let w ← (g.wires.asList : Py _)
  (raiseIf (w.length ≠ 2) .valueError : Py _)
  let up ← (pyMin w : Py _)
  let down ← (pyMax w : Py _)
  let w0 ← (pyGet w 0 : Py _)
  let mps ← (pyRange2 up (down - 1)).foldlM
    (fun mps i => swapCallX svd lay g.nqubits i (i + 1) mps) mps
  let G ← (if w0 = up then .ok (g.matX pd) else typed (uTy g.cls pd) Grev : Py _)
  let mps ← applyTwoX svd lay G mps (down - 1)
  (pyRangeDown (down - 1) up).foldlM (fun mps i => swapCallX svd lay g.nqubits (i - 1) i mps) mps

/-- qoperator.py:1952-1964 -/
def mergeThreeX (lay : Lay) (A B C G : XT) : Py XT := do
  let a ← (← A.unsqueeze 1).unsqueeze 1
  let b ← (← B.unsqueeze 1).unsqueeze 0
  let c ← (← C.unsqueeze 0).unsqueeze 0
  let temp ← (← (← a.matmul lay b).matmul lay c).permute [3, 4, 0, 1, 2]
  let s := temp.val.shape
  let s0 := s.getD 0 0
  let s1 := s.getD 1 0
  let s2 := s.getD 2 0
  let s3 := s.getD 3 0
  let s4 := s.getD 4 0
  let temp ← temp.view [(s0 : ℤ), (s1 : ℤ), ((s2 * s3 * s4 : ℕ) : ℤ), 1]
  let temp ← G.matmul lay temp
  let temp ← temp.view [(s0 : ℤ), (s1 : ℤ), (s2 : ℤ), (s3 : ℤ), (s4 : ℤ)]
  temp.permute [2, 3, 4, 0, 1]

/-- qoperator.py:1952-1966 -/
def applyThreeX (svd : SVDOracle) (lay : Lay) (G : XT) (mps : List XT) (i : ℤ) : TNM (List XT) := do
  let A ← (pyGet mps (i - 1) : Py _)
  let B ← (pyGet mps i : Py _)
  let C ← (pyGet mps (i + 1) : Py _)
  let temp ← (mergeThreeX lay A B C G : Py _)
  let (a, b, c) ← TensorDecompAfterThreeQbitGateX svd lay temp
  let mps ← (pySet mps (i - 1) a : Py _)
  let mps ← (pySet mps i b : Py _)
  (pySet mps (i + 1) c : Py _)

/-- qoperator.py:1921-1991 -/
def toffoli_TN_operationX (svd : SVDOracle) (lay : Lay) (g : Gate) (mps : List XT) :
    TNM (List XT) := do
  (g.guard : Py _)
  let w ← (g.wires.asList : Py _)
  let sw := w.mergeSort (· ≤ ·)
  let up ← (pyGet sw 0 : Py _)
  let mid ← (pyGet sw 1 : Py _)
  let down ← (pyGet sw 2 : Py _)
  let mps ← (pyRange2 up (mid - 1)).foldlM
    (fun mps i => swapCallX svd lay g.nqubits i (i + 1) mps) mps
  let mps ← (pyRangeDown down (mid + 1)).foldlM
    (fun mps i => swapCallX svd lay g.nqubits (i - 1) i mps) mps
  let w2 ← (pyGet w 2 : Py _)
  let G ← (typed .c64 (toffoliG w2 mid down) : Py _)
  let mps ← applyThreeX svd lay G mps mid
  let mps ← (pyRangeDown (mid - 1) up).foldlM
    (fun mps i => swapCallX svd lay g.nqubits (i - 1) i mps) mps
  (pyRange2 (mid + 1) down).foldlM (fun mps i => swapCallX svd lay g.nqubits i (i + 1) mps) mps

/-- qoperator.py:115-124 -/
def single_TN_operationX (lay : Lay) (g : Gate) (pd : DT) (mps : List XT) : Py (List XT) := do
  g.guard
  let i ← g.wires.asInt
  let t ← pyGet mps i
  pySet mps i (← XT.einsum_ab_bcd lay (g.matX pd) t)

/-- `TN_operation(MPS)` by class. -/
def TN_operationX (svd : SVDOracle) (lay : Lay) (g : Gate) (pd : DT) (mps : List XT) :
    TNM (List XT) :=
  match g.cls with
  | .hadamard | .pauliX | .pauliY | .pauliZ | .rx | .ry | .rz | .u1 | .u3 =>
    TNM.lift (g.single_TN_operationX lay pd mps)
  | .rxx | .ryy | .rzz | .mcnot => TNM.lift (.error .attributeError)
  | .cnot => g.cnot_TN_operationX svd lay mps
  | .cz => g.ctrl_TN_operationX svd lay pd ((mkCz 2 (.list [1, 0])).U_expand) mps
  | .cphase => g.ctrl_TN_operationX svd lay pd
      (do (mkCphase (← pyGet g.params 0) 2 (.list [1, 0])).U_expand) mps
  | .cu3 => g.ctrl_TN_operationX svd lay pd (two_qubit_control_gate g.uMatrix 2 1 0) mps
  | .swap => g.swap_TN_operationX svd lay mps
  | .toffoli => g.toffoli_TN_operationX svd lay mps

end Gate

/-! ## qlayers.py -/

namespace SingleLayer

/-- The loop of every `_cal_single_gates`: real identities except on the wires. -/
def calGatesX (nqubits : ℤ) (wires : List ℤ) (wireMat : ℕ → Py XT) : Py (List XT) :=
  (wires.zipIdx).foldlM (fun lst (wi : ℤ × ℕ) => do
    pySet lst wi.1 (← wireMat wi.2)) (pyRep (XT.fresh (Tensor.eye 2) .f32) nqubits)

/-- qlayers.py:37-48 -/
def TN_operationX (lay : Lay) (gates : Py (List XT)) (wires : List ℤ) (mps : List XT) :
    Py (List XT) := do
  let lst ← gates
  wires.foldlM (fun mps q => do
    pySet mps q (← XT.einsum_ab_bcd lay (← pyGet lst q) (← pyGet mps q))) mps

/-- qlayers.py:50-69 -/
def TN_contractX (lay : Lay) (gates : Py (List XT)) (nqubits : ℤ) (wires : List ℤ) (T : XT)
    (batch : Bool) : Py XT := do
  let lst ← gates
  if batch = false then
    wires.foldlM (fun T q => do Gate.contract1X lay (← pyGet lst q) T nqubits q) T
  else
    wires.foldlM (fun T q => do
      Gate.contract1X lay (← pyGet lst q) T (nqubits + 1) (q + 1)) T

end SingleLayer

namespace SLayer

/-- qlayers.py:149-151 and the same lines of the other classes: `c*I - 1j*s*P` where `P` has type `P`
(`X` and `Z` are integer tensors, lines 144, 146; `Y` is complex64, line 145); there is no `+ 0j`. -/
def layerTy (P pd : DT) : DT :=
  let t := ((Operand.number .f64).op (.zeroDim pd)).trig
  ((t.op (.dims .f32)).op (((Operand.number .c128).op t).op (.dims P))).dt

/-- `m3 @ m2 @ m1` as in `SLayer.prod3`, with the types of the Pauli tensors. -/
def prod3X (lay : Lay) (pd : DT) (p : List ℝ) (i : ℕ) (P1 P2 P3 : Tensor ℂ × DT) : Py XT := do
  let m1 := XT.fresh (layerRot P1.1 (← pyGet p ((3 * i + 0 : ℕ) : ℤ))) (layerTy P1.2 pd)
  let m2 := XT.fresh (layerRot P2.1 (← pyGet p ((3 * i + 1 : ℕ) : ℤ))) (layerTy P2.2 pd)
  let m3 := XT.fresh (layerRot P3.1 (← pyGet p ((3 * i + 2 : ℕ) : ℤ))) (layerTy P3.2 pd)
  (← m3.matmul lay m2).matmul lay m1

/-- `m2 @ m1` as in `SLayer.prod2`. -/
def prod2X (lay : Lay) (pd : DT) (p : List ℝ) (i : ℕ) (P1 P2 : Tensor ℂ × DT) : Py XT := do
  let m1 := XT.fresh (layerRot P1.1 (← pyGet p ((2 * i + 0 : ℕ) : ℤ))) (layerTy P1.2 pd)
  let m2 := XT.fresh (layerRot P2.1 (← pyGet p ((2 * i + 1 : ℕ) : ℤ))) (layerTy P2.2 pd)
  m2.matmul lay m1

/-- The matrix assigned to the `i`-th wire (lines as for `SLayer.wireMat`); the Hadamard matrix has
`+ 0j` (line 609). -/
def wireMatX (lay : Lay) (l : SLayer) (pd : DT) (i : ℕ) : Py XT :=
  let X := (pauliXMat, DT.i64)
  let Y := (pauliYMat, DT.c64)
  let Z := (pauliZMat, DT.i64)
  match l.cls with
  | .xyz => prod3X lay pd l.params i X Y Z
  | .zyx => prod3X lay pd l.params i Z Y X
  | .yzy => prod3X lay pd l.params i Y Z Y
  | .xzx => prod3X lay pd l.params i X Z X
  | .xz => prod2X lay pd l.params i X Z
  | .zx => prod2X lay pd l.params i Z X
  | .h => .ok (XT.fresh hadamardMat .c64)

/-- `_cal_single_gates` -/
def calSingleGatesX (lay : Lay) (l : SLayer) (pd : DT) : Py (List XT) :=
  SingleLayer.calGatesX l.nqubits l.wires (l.wireMatX lay pd)

/-- `U_expand`: `multi_kron(lst1) + 0j`; `torch.kron` promotes. -/
def U_expandX (lay : Lay) (l : SLayer) (pd : DT) : Py XT := do
  let lst ← l.calSingleGatesX lay pd
  let v ← multi_kron (lst.map XT.val)
  .ok (XT.fresh v ((lst.map XT.dt).foldl DT.promote .i64).toComplex)

/-- `TN_operation` -/
def TN_operationX (lay : Lay) (l : SLayer) (pd : DT) (mps : List XT) : Py (List XT) :=
  SingleLayer.TN_operationX lay (l.calSingleGatesX lay pd) l.wires mps

/-- `TN_contract` -/
def TN_contractX (lay : Lay) (l : SLayer) (pd : DT) (T : XT) (batch : Bool) : Py XT :=
  SingleLayer.TN_contractX lay (l.calSingleGatesX lay pd) l.nqubits l.wires T batch

end SLayer

namespace Ring

/-- `cnot(N,[a,b]).TN_operation(MPS)` -/
def cnotCallX (svd : SVDOracle) (lay : Lay) (N a b : ℤ) (mps : List XT) : TNM (List XT) :=
  (mkCnot N (.list [a, b])).TN_operationX svd lay .f32 mps

/-- `SWAP(N,[a,b]).TN_operation(MPS)` -/
def swapCallX' (svd : SVDOracle) (lay : Lay) (N a b : ℤ) (mps : List XT) : TNM (List XT) :=
  (mkSwap N (.list [a, b])).TN_operationX svd lay .f32 mps

/-- qlayers.py:709-744 = 848-854 -/
def wrapCnotX (svd : SVDOracle) (lay : Lay) (N : ℤ) (L : ℤ) (mps : List XT) : TNM (List XT) := do
  let mps ← (pyRange (L - 1)).foldlM (fun mps i =>
    if i ≠ L - 2 then swapCallX' svd lay N i (i + 1) mps else cnotCallX svd lay N (i + 1) i mps) mps
  (pyRangeDown (L - 3) (-1)).foldlM (fun mps i => swapCallX' svd lay N i (i + 1) mps) mps

/-- `TN_operation`: qlayers.py:685-744, 837-859. -/
def TN_operationX (svd : SVDOracle) (lay : Lay) (r : Ring) (mps : List XT) : TNM (List XT) := do
  let L : ℤ := r.wires.length
  match r.kind with
  | .ring =>
    (raiseIf (r.wires ≠ pyRange r.nqubits) .valueError : Py _)
    let mps ← (pyRange (L - 1)).foldlM (fun mps i => cnotCallX svd lay r.nqubits i (i + 1) mps) mps
    if r.nqubits = 2 then pure mps
    else wrapCnotX svd lay r.nqubits L mps
  | .dagger =>
    (raiseIf (r.wires ≠ pyRange r.nqubits) .valueError : Py _)
    if r.nqubits = 2 then cnotCallX svd lay 2 0 1 mps
    else
      let mps ← wrapCnotX svd lay r.nqubits L mps
      (pyRangeDown (L - 2) (-1)).foldlM (fun mps i => cnotCallX svd lay r.nqubits i (i + 1) mps) mps
  | .ring2 => TNM.lift (.error .attributeError)

/-- `cnot(N,[a,b]).TN_contract(T, batch)` -/
def cnotContractX (lay : Lay) (N a b : ℤ) (T : XT) (batch : Bool) : Py XT :=
  (mkCnot N (.list [a, b])).TN_contractX lay .f32 T batch

/-- `TN_contract`: qlayers.py:746-764, 862-875. -/
def TN_contractX (lay : Lay) (r : Ring) (T : XT) (batch : Bool) : Py XT := do
  let L := r.wires.length
  let step (T : XT) (i : ℕ) : Py XT := do
    let c ← pyGet r.wires (i : ℤ)
    let t ← pyGet r.wires (((i + 1) % L : ℕ) : ℤ)
    cnotContractX lay r.nqubits c t T batch
  match r.kind with
  | .ring =>
    raiseIf (r.wires ≠ pyRange r.nqubits) .valueError
    if r.nqubits = 2 then
      cnotContractX lay 2 (← pyGet r.wires 0) (← pyGet r.wires 1) T batch
    else (List.range L).foldlM step T
  | .dagger =>
    raiseIf (r.wires ≠ pyRange r.nqubits) .valueError
    if r.nqubits = 2 then
      cnotContractX lay 2 (← pyGet r.wires 0) (← pyGet r.wires 1) T batch
    else (List.range L).reverse.foldlM step T
  | .ring2 => .error .attributeError

end Ring

namespace Basic

/-- qlayers.py:999-1005: the ring is complex64; the layers hold slices of the parameters. -/
def U_expandX (lay : Lay) (b : Basic) (pd : DT) : Py XT := do
  let cnotRing ← (← pyGet b.part2 0).U_expand
  (List.range b.reps.toNat).foldlM (fun rst (i : ℕ) => do
    let u ← (← pyGet b.part1 (i : ℤ)).U_expandX lay pd
    (← (XT.fresh cnotRing .c64).matmul lay u).matmul lay rst)
    (XT.fresh (Tensor.eye (2 ^ b.nqubits.toNat)) .c64)

end Basic

/-! ## qcircuit.py -/

/-- An operation with the type of the tensor its parameters were given in (`f32` for Python numbers and
lists of floats; irrelevant without parameters). -/
structure XOp where
  op : Op
  pd : DT

namespace XOp

/-- `U_expand()` -/
def U_expandX (lay : Lay) (o : XOp) : Py XT :=
  match o.op with
  | .gate g => Gate.typed (Gate.uTy g.cls o.pd) g.U_expand
  | .single l => l.U_expandX lay o.pd
  | .ring r => Gate.typed .c64 r.U_expand
  | .basic b => b.U_expandX lay o.pd

/-- `TN_operation(MPS)` -/
def TN_operationX (svd : SVDOracle) (lay : Lay) (o : XOp) (mps : List XT) : TNM (List XT) :=
  match o.op with
  | .gate g => g.TN_operationX svd lay o.pd mps
  | .single l => TNM.lift (l.TN_operationX lay o.pd mps)
  | .ring r => r.TN_operationX svd lay mps
  | .basic _ => TNM.lift (.error .attributeError)

/-- `TN_contract(T, batch_mod)` -/
def TN_contractX (lay : Lay) (o : XOp) (T : XT) (batch : Bool) : Py XT :=
  match o.op with
  | .gate g => g.TN_contractX lay o.pd T batch
  | .single l => l.TN_contractX lay o.pd T batch
  | .ring r => r.TN_contractX lay T batch
  | .basic _ => .error .attributeError

end XOp

/-- A circuit of such operations. -/
structure XCircuit where
  nqubits : ℕ
  gate : List XOp

namespace XCircuit

/-- qcircuit.py:51-62 `U`: starts with `torch.eye(...) + 0j`. -/
def UX (lay : Lay) (c : XCircuit) (leftToRight : Bool := true) : Py XT :=
  c.gate.foldlM (fun acc o => do
    let u ← o.U_expandX lay
    if leftToRight then u.matmul lay acc else acc.matmul lay u)
    (XT.fresh (Tensor.eye (2 ^ c.nqubits)) .c64)

/-- qcircuit.py:64-77 `TN_evolution`. -/
def TN_evolutionX (svd : SVDOracle) (lay : Lay) (c : XCircuit) (mps : List XT) :
    TNM (List XT) := do
  (raiseIf (mps.length ≠ c.nqubits) .valueError : Py _)
  c.gate.foldlM (fun mps o =>
    if o.op.supportTN = true then o.TN_operationX svd lay mps
    else TNM.lift (.error .valueError)) mps

/-- qcircuit.py:82-96 `TN_contract_evolution`. -/
def TN_contract_evolutionX (lay : Lay) (c : XCircuit) (T : XT) (batch : Bool) : Py XT := do
  if batch = false then pyAssert (T.val.rank = c.nqubits)
  else pyAssert (T.val.rank = c.nqubits + 1)
  c.gate.foldlM (fun T o =>
    if o.op.supportTN = true then o.TN_contractX lay T batch else .error .valueError) T

/-- qcircuit.py:130-137 `TN_check`. -/
def TN_check (c : XCircuit) : Bool := c.gate.all (fun o => o.op.supportTN)

/-- qcircuit.py:111 = 114 -/
def quadFormX (lay : Lay) (psi M : XT) : Py ℝ := do
  let l ← (← psi.view [1, -1]).conj.matmul lay M
  let r ← l.matmul lay (← psi.view [-1, 1])
  .ok (r.squeeze.val.get []).re

/-- qcircuit.py:101-115 `cir_expectation`. -/
def cir_expectationX (svd : SVDOracle) (lay : Lay) (c : XCircuit) (init M : XT) (tn : Bool := true) :
    TNM ℝ := do
  let i0 ← (pyGet init.val.shape 0 : Py _)
  (raiseIf (i0 ≠ 1) .valueError : Py _)
  let i1 ← (pyGet init.val.shape 1 : Py _)
  (raiseIf (i1 ≠ 2 ^ c.nqubits) .valueError : Py _)
  let m0 ← (pyGet M.val.shape 0 : Py _)
  let m1 ← (pyGet M.val.shape 1 : Py _)
  (raiseIf (m0 ≠ m1) .valueError : Py _)
  if c.TN_check = true ∧ tn = true then
    let v ← (init.view [1, -1] : Py _)
    let mps ← StateVec2MPSX svd lay v c.nqubits
    let mps ← c.TN_evolutionX svd lay mps
    let psi ← (MPS2StateVecX lay mps : Py _)
    TNM.lift (quadFormX lay psi M)
  else
    let u ← (c.UX lay : Py _)
    let v ← (init.view [-1, 1] : Py _)
    let psi ← (u.matmul lay v : Py _)
    TNM.lift (quadFormX lay psi M)

end XCircuit

end

end QTN
