import Verif.Model.Train

/-!
# The gradient descent programs of deepquantum/tests/test_TN_parameter_shift_rule.py

The number of qubits, 4 in the file, is a parameter here.  The random start values are arguments.
-/

namespace QTN

noncomputable section

namespace ShiftDemo

/-- test_TN_parameter_shift_rule.py:55-61 (= 118-123): the circuit. -/
def layers (N : ℕ) (p : List ℝ) : Py Circuit := do
  let ws := pyRange N
  let c1 := Circuit.new N
  let c1 ← c1.yzyLayer ws (slc p 0 (3 * N))
  let c1 ← c1.ringOfCnot ws
  let c1 ← c1.yzyLayer ws (slc p (3 * N) (6 * N))
  let c1 ← c1.ringOfCnot ws
  c1.yzyLayer ws (slc p (6 * N) (9 * N))

/-- test_TN_parameter_shift_rule.py:50-53 (= 110-114): `[I]*N` with `Z` at position 0, multiplied out. -/
def observable (N : ℕ) : Py (Tensor ℂ) := do
  let lst ← pySet (List.replicate N (Tensor.eye 2)) 0 pauliZMat
  multi_kron lst

/-- test_TN_parameter_shift_rule.py:64-65: `torch.zeros(1,2**N) + 0j` with entry `[0,0]` set to one. -/
def psi (N : ℕ) : Tensor ℂ := Tensor.ofFn [1, 2 ^ N] (fun idx => if idx = [0, 0] then 1 else 0)

/-- test_TN_parameter_shift_rule.py:45-73 `forward`; adding zero to the parameters at line 48 copies them and is left out. -/
def forward (svd : SVDOracle) (N : ℕ) (p : List ℝ) : TNM ℝ := do
  let M ← (observable N : Py _)
  let c1 ← (layers N p : Py _)
  let MPS_i ← StateVec2MPS svd (psi N) N
  let MPS_f ← c1.TN_evolution svd MPS_i
  let psi_f ← (MPS2StateVec MPS_f : Py _)
  TNM.lift (Circuit.quadForm psi_f M)

/-- test_TN_parameter_shift_rule.py:78-86: the loop of `partial_M` over the listed positions; the entries
of `p` are shifted in place, so the loop also returns the tensor it leaves. -/
def partialLoop (svd : SVDOracle) (N : ℕ) : List ℕ → List ℝ → TNM (List ℝ × List ℝ)
  | [], p => pure ([], p)
  | i :: is, p => do
    let p1 := PShift.bump p i (0.5 * Real.pi)
    let M1 ← forward svd N p1
    let p2 := PShift.bump p1 i (-(1 * Real.pi))
    let M2 ← forward svd N p2
    let p3 := PShift.bump p2 i (0.5 * Real.pi)
    let r ← partialLoop svd N is p3
    pure (0.5 * (M1 - M2) :: r.1, r.2)

/-- test_TN_parameter_shift_rule.py:76-87 `partial_M`: the gradient and what becomes of the argument. -/
def partial_M (svd : SVDOracle) (N : ℕ) (p : List ℝ) : TNM (List ℝ × List ℝ) :=
  partialLoop svd N (List.range p.length) p

/-- `p - lr*g` for vectors (broadcasting of a single entry is not modelled). -/
def descend (lr : ℝ) (p g : List ℝ) : Py (List ℝ) :=
  if p.length = g.length then .ok (List.zipWith (fun x y => x - lr * y) p g) else .error .runtimeError

/-- test_TN_parameter_shift_rule.py:96-102: `k` steps of the first training loop. -/
def train (svd : SVDOracle) (N : ℕ) (lr : ℝ) : ℕ → List ℝ → TNM (List ℝ)
  | 0, p => pure p
  | k + 1, p => do
    let r ← partial_M svd N p
    let q ← (descend lr r.2 r.1 : Py _)
    let _ ← forward svd N q
    train svd N lr k q

/-- test_TN_parameter_shift_rule.py:131-132: `parameter_shift(c1, …).cal_params_grad()`; the circuit, which the
call may change, is not used again. -/
def gradOf (svd : SVDOracle) (ps : PShift) (c : Circuit) : TNM (List ℝ) := fun s =>
  ((ps.cal_params_grad svd (c, s)).1, (ps.cal_params_grad svd (c, s)).2.2)

/-- test_TN_parameter_shift_rule.py:117-133: one pass of the second training loop. -/
def step2 (svd : SVDOracle) (N : ℕ) (lr : ℝ) (p : List ℝ) : TNM (List ℝ) := do
  let M ← (observable N : Py _)
  let c1 ← (layers N p : Py _)
  let init ← (c1.state_init.view [1, -1] : Py _)
  let _ ← c1.cir_expectation svd init M
  let g ← gradOf svd ⟨init, M⟩ c1
  TNM.lift (descend lr p g)

/-- test_TN_parameter_shift_rule.py:106-133: `k` steps of the second training loop. -/
def train2 (svd : SVDOracle) (N : ℕ) (lr : ℝ) : ℕ → List ℝ → TNM (List ℝ)
  | 0, p => pure p
  | k + 1, p => do
    let q ← step2 svd N lr p
    train2 svd N lr k q

end ShiftDemo

end

end QTN
