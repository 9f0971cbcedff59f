import Verif.Model.RoundLayers

/-!
# `cir_expectation` and `cal_params_grad` of deepquantum/gates/qcircuit.py in rounded arithmetic

For circuits that are evaluated by their matrix, i.e. with an operation flagged `supportTN=False`.  What the
tensor network path returns is left open: `tn` is an arbitrary function.  Where an exception is raised the
changes made to the circuit before it are not recorded.  The same simplifications as in `Model/Round.lean`.
-/

namespace QTN

noncomputable section

namespace Arith

variable (A : Arith)

/-- `params_update(p)` of the gates with a tensor argument: qoperator.py:371-374 (rx), 421-424 (ry), 470-473
(rz), 524-529 (u1, with another formula than the constructor), 584-598 (u3), 723-726, 859-862, 993-996 (rxx,
ryy, rzz), 1526-1533 (cphase), 1684-1698 (cu3); the gates without parameters ignore the call.  A wrong number
of parameters: TypeError, as in the exact model. -/
def gateUpdate (g : Gate) (p : List ℝ) : Py Gate :=
  match g.cls with
  | .rx => match p with
    | [θ] => do .ok { g with params := p, matrix := ← A.rotMat pauliXMat θ }
    | _ => .error .typeError
  | .ry => match p with
    | [θ] => do .ok { g with params := p, matrix := ← A.rotMat pauliYMat θ }
    | _ => .error .typeError
  | .rz => match p with
    | [θ] => do .ok { g with params := p, matrix := ← A.rotMat pauliZMat θ }
    | _ => .error .typeError
  | .u1 => match p with
    | [θ] => .ok { g with params := p, matrix := A.phaseMat θ }
    | _ => .error .typeError
  | .u3 => do .ok { g with params := p, matrix := ← A.u3Mat p }
  | .rxx | .ryy | .rzz | .cphase => match p with
    | [_] => .ok { g with params := p }
    | _ => .error .typeError
  | .cu3 => do .ok { g with params := p, uMatrix := ← A.u3Mat p }
  | _ => .ok g

/-- `params_update(p)`; the layers do no arithmetic (qlayers.py:181-183, 1014-1021). -/
def opUpdate : Op → List ℝ → Py Op
  | .gate g, p => do .ok (.gate (← A.gateUpdate g p))
  | o, p => o.params_update p

/-- qcircuit.py:111 = 114. -/
def quadForm (psi M : Tensor ℂ) : Py ℝ := do
  let l ← A.matmul (← psi.view [1, -1]).conj M
  let r ← A.matmul l (← psi.view [-1, 1])
  .ok (r.squeeze.get []).re

/-- qcircuit.py:101-115 `cir_expectation(init_state, M)`. -/
def cirExpectation (tn : Circuit → Tensor ℂ → Tensor ℂ → Py ℝ) (c : Circuit) (init M : Tensor ℂ) : Py ℝ := do
  raiseIf ((← pyGet init.shape 0) ≠ 1) .valueError
  raiseIf ((← pyGet init.shape 1) ≠ 2 ^ c.nqubits) .valueError
  raiseIf ((← pyGet M.shape 0) ≠ (← pyGet M.shape 1)) .valueError
  if c.TN_check = true then tn c init M
  else do
    let u ← A.itemsU c.nqubits c.gate
    let psi ← A.matmul u (← init.view [-1, 1])
    A.quadForm psi M

/-- `self.cir.gate[idx].params_update(p)` -/
def update (c : Circuit) (idx : ℕ) (p : List ℝ) : Py Circuit :=
  match c.gate[idx]? with
  | none => .error .indexError
  | some o => do .ok { c with gate := c.gate.set idx (← A.opUpdate o p) }

/-- `x + d` and `x - d` for a tensor entry and a Python float, which is first converted. -/
def plus (x d : ℝ) : ℝ := A.fl (x + A.fl d)

/-- `0.5*(e1 - e2)` -/
def halfDiff (e1 e2 : ℝ) : ℝ := A.fl (0.5 * A.fl (e1 - e2))

/-- qcircuit.py:289-296: the gradient of a single parameter, and the circuit afterwards. -/
def gradScalar (ev : Circuit → Py ℝ) (c : Circuit) (idx : ℕ) (x : ℝ) : Py (ℝ × Circuit) := do
  let c ← A.update c idx [A.plus x (0.5 * Real.pi)]
  let e1 ← ev c
  let c ← A.update c idx [A.plus x (-(0.5 * Real.pi))]
  let e2 ← ev c
  let c ← A.update c idx [x]
  .ok (A.halfDiff e1 e2, c)

/-- `p[i] = p[i] + d` -/
def bump (p : List ℝ) (i : ℕ) (d : ℝ) : List ℝ := p.modify i (fun x => A.plus x d)

/-- qcircuit.py:300-311: the loop over a one-dimensional parameter tensor. -/
def gradVec (ev : Circuit → Py ℝ) (idx : ℕ) : List ℕ → List ℝ → Circuit → Py (List ℝ × Circuit)
  | [], _, c => .ok ([], c)
  | i :: is, p, c => do
    let p := A.bump p i (0.5 * Real.pi)
    let c ← A.update c idx p
    let e1 ← ev c
    let p := A.bump p i (-(1.0 * Real.pi))
    let c ← A.update c idx p
    let e2 ← ev c
    let p := A.bump p i (0.5 * Real.pi)
    let c ← A.update c idx p
    let (rest, c) ← gradVec ev idx is p c
    .ok (A.halfDiff e1 e2 :: rest, c)

/-- qcircuit.py:281-313: the entries of the operation at position `idx`. -/
def gradAt (ev : Circuit → Py ℝ) (c : Circuit) (idx : ℕ) : Py (List ℝ × Circuit) :=
  match c.gate[idx]? with
  | none => .error .indexError
  | some o =>
    if o.numParams = 0 then .ok ([], c)
    else do
      match ← PShift.readParams c idx with
      | .scalar x => do
        let (g, c) ← A.gradScalar ev c idx x
        .ok ([g], c)
      | .vec p => A.gradVec ev idx (List.range p.length) p c
      | .pylist _ => .error .attributeError

/-- The loop qcircuit.py:281-313 over the listed positions. -/
def gradLoop (ev : Circuit → Py ℝ) : List ℕ → Circuit → Py (List ℝ × Circuit)
  | [], c => .ok ([], c)
  | idx :: rest, c => do
    let (g, c) ← A.gradAt ev c idx
    let (gs, c) ← gradLoop ev rest c
    .ok (g ++ gs, c)

/-- qcircuit.py:279-316 `cal_params_grad`: the gradient and the circuit afterwards. -/
def cal_params_grad (tn : Circuit → Tensor ℂ → Tensor ℂ → Py ℝ) (c : Circuit) (init M : Tensor ℂ) :
    Py (List ℝ × Circuit) := do
  let (g, c) ← A.gradLoop (fun c => A.cirExpectation tn c init M) (List.range c.gate.length) c
  pyAssert (g.length = c.cir_num_params)
  .ok (g, c)

end Arith

end

end QTN
