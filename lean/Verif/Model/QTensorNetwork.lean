import Verif.Model.QMath

/-!
# deepquantum/gates/qtensornetwork.py

`torch.svd` is an oracle: a parameter of every function that calls it.  The monad `TNM` threads the
log of the matrices decomposed so far; the oracle may depend on that log (so two calls on the same
matrix may return different factors).  The log has no counterpart in the source; it lets theorems
speak about "every matrix decomposed during this run".
-/

namespace QTN

open Finset

noncomputable section

/-- What `torch.svd(A)` returns: `U`, the vector `S`, `V`. -/
structure SVDOut where
  U : Tensor ℂ
  S : List ℝ
  V : Tensor ℂ

/-- The SVD routine; the first argument is the list of matrices decomposed before. -/
abbrev SVDOracle := List (Tensor ℂ) → Tensor ℂ → SVDOut

/-- Computations that may raise and that call the SVD; the state is the log of decomposed
matrices. -/
def TNM (α : Type) : Type := List (Tensor ℂ) → Py α × List (Tensor ℂ)

namespace TNM
/-- return -/
def pure' {α : Type} (a : α) : TNM α := fun s => (.ok a, s)
/-- sequencing; an exception stops the run -/
def bind' {α β : Type} (x : TNM α) (f : α → TNM β) : TNM β := fun s =>
  match x s with
  | (.ok a, s') => f a s'
  | (.error e, s') => (.error e, s')
instance : Monad TNM where
  pure := pure'
  bind := bind'
/-- a computation without SVD -/
def lift {α : Type} (x : Py α) : TNM α := fun s => (x, s)
end TNM

instance : MonadLift (Except PyErr) TNM := ⟨TNM.lift⟩

/-- `torch.svd(A)`; raises for anything but a matrix (batched input is not used). -/
def callSvd (svd : SVDOracle) (A : Tensor ℂ) : TNM SVDOut := fun s =>
  if A.rank = 2 then (.ok (svd s A), s ++ [A]) else (.error .runtimeError, s)

/-- The cut-off of qtensornetwork.py:37, 100, 139, 262. -/
def cutoff : ℝ := 1e-8

/-- qtensornetwork.py:35-46 = 98-117 = 137-146 = 259-267: SVD, bond dimension `D` = number of
singular values above the cut-off, truncation of `U` and `diag(S)` if `D` is smaller than the number
of singular values, and `S @ V^H`.  `torch.tensor(list(range(0)))` is a float tensor, so
`index_select` raises if `D = 0`. -/
def svdTrunc (svd : SVDOracle) (A : Tensor ℂ) : TNM (Tensor ℂ × Tensor ℂ) := do
  let o ← callSvd svd A
  let Vd ← (o.V.permute [1, 0] : Py _)
  let Vd := Vd.conj
  let D := (o.S.filter (fun s => decide (|s| > cutoff))).length
  let Sm : Tensor ℂ := (Tensor.ofList (o.S.map Complex.ofReal)).diagMat
  if D < Sm.shape.getD 0 0 then
    (raiseIf (D = 0) .runtimeError : Py _)
    let U ← (o.U.indexSelect1 (List.range D) : Py _)
    let Sm ← (Sm.indexSelect0 (List.range D) : Py _)
    let r ← (Sm.matmul Vd : Py _)
    pure (U, r)
  else
    let r ← (Sm.matmul Vd : Py _)
    pure (o.U, r)

/-- `torch.cat(torch.chunk(t, 2, dim=1), dim=0)` as in qtensornetwork.py:27-28, 118-119, 134-135:
the first two chunks (IndexError if there is only one). -/
def foldHalves (t : Tensor ℂ) : Py (Tensor ℂ) := do
  let c ← t.chunk1 2
  (← pyGet c 0).cat0 (← pyGet c 1)

/-- The loop of qtensornetwork.py:25-46 with `k` sites left. -/
def StateVec2MPS_loop (svd : SVDOracle) : ℕ → Tensor ℂ → TNM (List (Tensor ℂ))
  | 0, _ => pure []
  | k + 1, c => do
    let c ← (foldHalves c : Py _)
    if k = 0 then
      -- last qubit: no SVD (lines 31-33)
      let t ← (c.view [2, -1, (c.shape.getD 1 0 : ℤ)] : Py _)
      pure [t]
    else
      let (U, r) ← svdTrunc svd c
      let t ← (U.view [2, -1, (U.shape.getD 1 0 : ℤ)] : Py _)
      let rest ← StateVec2MPS_loop svd k r
      pure (t :: rest)

/-- qtensornetwork.py:15-48 `StateVec2MPS` (for `N : ℕ`; a negative `N` fails the shape check). -/
def StateVec2MPS (svd : SVDOracle) (psi : Tensor ℂ) (N : ℕ) : TNM (List (Tensor ℂ)) := do
  (raiseIf (psi.rank ≠ 2) .valueError : Py _)
  (raiseIf (psi.shape.getD 0 0 ≠ 1 ∨ psi.shape.getD 1 0 ≠ 2 ^ N) .valueError : Py _)
  StateVec2MPS_loop svd N psi

/-- qtensornetwork.py:52-61 `MatrixProductState`. -/
def MatrixProductState (psi : Tensor ℂ) (N : ℕ) : Py (Tensor ℂ) := do
  raiseIf (psi.rank ≠ 2) .valueError
  raiseIf (psi.shape.getD 0 0 ≠ 1 ∨ psi.shape.getD 1 0 ≠ 2 ^ N) .valueError
  psi.view (List.replicate N 2)

/-- One step of the loop qtensornetwork.py:75-77. -/
def MPS2SV_step (c t : Tensor ℂ) : Py (Tensor ℂ) := do
  let c ← (← c.unsqueeze 1).matmul (← t.unsqueeze 0)
  let s := c.shape
  let s2 ← pyGet s 2
  let s3 ← pyGet s 3
  c.view [((s.getD 0 0 * s.getD 1 0 : ℕ) : ℤ), (s2 : ℤ), (s3 : ℤ)]

/-- qtensornetwork.py:66-80 `MPS2StateVec(tensor_lst)`; with no tensors `c_tensor` is unbound.
Line 71 unsqueezes every tensor, which never raises. -/
def MPS2StateVec (lst : List (Tensor ℂ)) : Py (Tensor ℂ) :=
  match lst with
  | [] => .error .unboundLocal
  | t :: ts => do
    let c ← ts.foldlM MPS2SV_step t
    (← c.view [-1]).view [1, -1]

/-- qtensornetwork.py:82-90 `MPS2StateVec(tensor_lst, return_sv=False)`: at step `i` the accumulated
tensor is unsqueezed at dimension `i`. -/
def MPS2StateVec_tensor (lst : List (Tensor ℂ)) : Py (Tensor ℂ) :=
  match lst with
  | [] => .error .unboundLocal
  | t :: ts => do
    let c ← (ts.zipIdx 1).foldlM (fun c (ti : Tensor ℂ × ℕ) => do
      (← c.unsqueeze ti.2).matmul (← ti.1.unsqueeze 0)) t
    let c := c.squeeze
    pyAssert (c.rank = lst.length)
    .ok c

/-- `t[i, j]` -/
def select2 (t : Tensor ℂ) (i j : ℤ) : Py (Tensor ℂ) := do (← t.select0 i).select0 j

/-- qtensornetwork.py:94-96: the matrix with rows `(x, l)` and columns `(y, r)` of a two-site
tensor. -/
def blockMat2 (t : Tensor ℂ) : Py (Tensor ℂ) := do
  let b1 ← (← select2 t 0 0).cat1 (← select2 t 0 1)
  let b2 ← (← select2 t 1 0).cat1 (← select2 t 1 1)
  b1.cat0 b2

/-- qtensornetwork.py:93-122 `TensorDecompAfterTwoQbitGate`. -/
def TensorDecompAfterTwoQbitGate (svd : SVDOracle) (t : Tensor ℂ) :
    TNM (Tensor ℂ × Tensor ℂ) := do
  let m ← (blockMat2 t : Py _)
  let (U, r) ← svdTrunc svd m
  let rst1 ← (U.view [2, -1, (U.shape.getD 1 0 : ℤ)] : Py _)
  let r ← (foldHalves r : Py _)
  let rst2 ← (r.view [2, -1, (r.shape.getD 1 0 : ℤ)] : Py _)
  pure (rst1, rst2)

/-- `t[i, j, k]` -/
def select3 (t : Tensor ℂ) (i j k : ℤ) : Py (Tensor ℂ) := do
  (← (← t.select0 i).select0 j).select0 k

/-- qtensornetwork.py:127-129: the matrix with rows `(x, l)` and columns `(y, z, r)` of a three-site
tensor. -/
def blockMat3 (t : Tensor ℂ) : Py (Tensor ℂ) := do
  let row (x : ℤ) : Py (Tensor ℂ) := do
    Tensor.catList Tensor.cat1
      [← select3 t x 0 0, ← select3 t x 0 1, ← select3 t x 1 0, ← select3 t x 1 1]
  (← row 0).cat0 (← row 1)

/-- qtensornetwork.py:124-149 `TensorDecompAfterThreeQbitGate` (the loop over `i = 0, 1, 2`
unrolled). -/
def TensorDecompAfterThreeQbitGate (svd : SVDOracle) (t : Tensor ℂ) :
    TNM (Tensor ℂ × Tensor ℂ × Tensor ℂ) := do
  (raiseIf (t.rank ≠ 5) .valueError : Py _)
  let m ← (blockMat3 t : Py _)
  -- i = 0
  let (U, r) ← svdTrunc svd m
  let rst1 ← (U.view [2, -1, (U.shape.getD 1 0 : ℤ)] : Py _)
  -- i = 1
  let r ← (foldHalves r : Py _)
  let (U, r) ← svdTrunc svd r
  let rst2 ← (U.view [2, -1, (U.shape.getD 1 0 : ℤ)] : Py _)
  -- i = 2
  let r ← (foldHalves r : Py _)
  let rst3 ← (r.view [2, -1, (r.shape.getD 1 0 : ℤ)] : Py _)
  pure (rst1, rst2, rst3)

/-- qtensornetwork.py:159-168: the local transfer tensor of one site. -/
def innerSite (t1 t2 : Tensor ℂ) : Py (Tensor ℂ) := do
  let t1 ← t1.permute [1, 2, 0]
  let t2 ← t2.permute [1, 2, 0]
  let t1 ← t1.unsqueeze 1
  let t2 ← t2.unsqueeze 0
  let t1 ← t1.unsqueeze 3
  let t2 ← t2.unsqueeze 2
  let t1 ← t1.unsqueeze 5
  let t2 ← t2.unsqueeze 4
  .ok (← t2.conj.matmul t1).squeeze

/-- qtensornetwork.py:170-194: contraction of the transfer tensors from left to right; `n` tensors
remain in the list, the last one is closed by `torch.trace`. -/
def innerLoop : Tensor ℂ → List (Tensor ℂ) → Py (Tensor ℂ)
  | t, [] => .ok t
  | t, [nxt] => do
    let t ← (← t.unsqueeze (-2)).unsqueeze (-4)
    let nxt ← (← nxt.unsqueeze (-1)).unsqueeze (-3)
    let tr ← (← t.matmul nxt).squeeze.trace
    .ok (Tensor.ofFn [] (fun _ => tr))
  | t, nxt :: nxt' :: rest => do
    let nxt ← nxt.permute [2, 3, 0, 1]
    let t ← (← t.unsqueeze (-2)).unsqueeze (-4)
    let nxt ← (← nxt.unsqueeze (-1)).unsqueeze (-3)
    let t ← (← t.matmul nxt).squeeze.einsum_abii
    innerLoop t (nxt' :: rest)

/-- qtensornetwork.py:151-196 `MPS_inner_product`.  With fewer than two sites the loop of line 170
does not run and `t` is unbound.  `braMPS[i]` raises IndexError if the bra is shorter. -/
def MPS_inner_product (ket bra : List (Tensor ℂ)) : Py (Tensor ℂ) := do
  let lst ← (ket.zipIdx).mapM (fun (ti : Tensor ℂ × ℕ) => do
    innerSite ti.1 (← pyGet bra ti.2))
  match lst with
  | [] => .error .unboundLocal
  | [_] => .error .unboundLocal
  | t :: rest => innerLoop t rest

/-- qtensornetwork.py:206-209: one local observable applied to a site. -/
def expecStep (mps : List (Tensor ℂ)) (qbit : ℤ) (obs : Tensor ℂ) : Py (List (Tensor ℂ)) := do
  let temp ← pyGet mps qbit
  let temp ← (← temp.permute [1, 2, 0]).unsqueeze (-1)
  let temp ← (← obs.matmul temp).squeezeDim 3
  pySet mps qbit (← temp.permute [2, 0, 1])

/-- qtensornetwork.py:198-211 `MPS_expec`: the value and the caller's list, which the function
changes in place.  `local_obserable[i]` raises IndexError if there are fewer observables than
wires. -/
def MPS_expec (mps : List (Tensor ℂ)) (wires : List ℤ) (obs : List (Tensor ℂ)) :
    Py (ℝ × List (Tensor ℂ)) := do
  let sv0 ← (← MPS2StateVec mps).view [1, -1]
  let mps' ← (wires.zipIdx).foldlM (fun m (wi : ℤ × ℕ) => do
    let o ← pyGet obs wi.2
    expecStep m wi.1 o) mps
  let sv1 ← (← MPS2StateVec mps').view [-1, 1]
  let e ← sv0.conj.matmul sv1
  .ok ((e.squeeze.get []).re, mps')

/-- qtensornetwork.py:233-252: the regrouping of a row block matrix before the SVD. -/
def rhoRegroup (r : Tensor ℂ) (chunks : ℕ) : Py (Tensor ℂ) := do
  let r ← Tensor.catList Tensor.cat0 (← r.chunk1 2)
  let half := r.shape.getD 0 0 / 2
  let part (j : ℕ) : Py (Tensor ℂ) := do
    let bias := j * half
    let block := r.rowSlice bias (half + bias)
    let blks ← block.chunk1 chunks
    let even := (blks.zipIdx.filter (fun p => p.2 % 2 = 0)).map Prod.fst
    let odd := (blks.zipIdx.filter (fun p => ¬ p.2 % 2 = 0)).map Prod.fst
    (← Tensor.catList Tensor.cat1 even).cat0 (← Tensor.catList Tensor.cat1 odd)
  (← part 0).cat0 (← part 1)

/-- The loop qtensornetwork.py:231-275 with `k` sites left (`2**(N-i) = 2**k`). The final remainder
`r_tensor` is dropped, as in the source. -/
def Rho2MPS_loop (svd : SVDOracle) : ℕ → Tensor ℂ → TNM (List (Tensor ℂ))
  | 0, _ => pure []
  | k + 1, r => do
    let r ← (rhoRegroup r (2 ^ (k + 1)) : Py _)
    let (U, r) ← svdTrunc svd r
    let t ← (U.view [2, 2, -1, (U.shape.getD 1 0 : ℤ)] : Py _)
    let rest ← Rho2MPS_loop svd k r
    pure (t :: rest)

/-- qtensornetwork.py:215-276 `Rho2MPS`. -/
def Rho2MPS (svd : SVDOracle) (rho : Tensor ℂ) (N : ℕ) : TNM (List (Tensor ℂ)) := do
  (raiseIf (rho.rank ≠ 2) .valueError : Py _)
  (raiseIf (rho.shape.getD 0 0 ≠ 2 ^ N ∨ rho.shape.getD 1 0 ≠ 2 ^ N) .valueError : Py _)
  let r ← (rho.view [1, -1] : Py _)
  Rho2MPS_loop svd N r

/-- qtensornetwork.py:287-289: one step of the contraction. -/
def MPS2Rho_step (rho t : Tensor ℂ) : Py (Tensor ℂ) := do
  let rho ← (← (← rho.unsqueeze 1).unsqueeze 3).matmul (← (← t.unsqueeze 0).unsqueeze 2)
  let s := rho.shape
  let s0 ← pyGet s 0
  let s1 ← pyGet s 1
  let s2 ← pyGet s 2
  let s3 ← pyGet s 3
  let s4 ← pyGet s 4
  let s5 ← pyGet s 5
  rho.view [((s0 * s1 : ℕ) : ℤ), ((s2 * s3 : ℕ) : ℤ), (s4 : ℤ), (s5 : ℤ)]

/-- qtensornetwork.py:280-296 `MPS2Rho`.  If the real part of the trace is 0 torch returns
infinities/NaN; here the division by 0 gives the zero matrix, so theorems must exclude that case. -/
def MPS2Rho (mps : List (Tensor ℂ)) : Py (Tensor ℂ) :=
  match mps with
  | [] => .error .unboundLocal
  | t :: ts => do
    let rho := (← ts.foldlM MPS2Rho_step t).squeeze
    let tr ← rho.trace
    .ok (rho.smul ((1.0 / tr.re : ℝ) : ℂ))

/-- qtensornetwork.py:301-313 `MatrixProductDensityOperator`; the assertion of line 312 always
holds after the view. -/
def MatrixProductDensityOperator (rho : Tensor ℂ) (N : ℕ) : Py (Tensor ℂ) := do
  raiseIf (rho.rank ≠ 2) .valueError
  raiseIf (rho.shape.getD 0 0 ≠ 2 ^ N ∨ rho.shape.getD 1 0 ≠ 2 ^ N) .valueError
  let t ← rho.view (List.replicate (2 * N) 2)
  pyAssert (t.rank = 2 * N)
  .ok t

end

end QTN
