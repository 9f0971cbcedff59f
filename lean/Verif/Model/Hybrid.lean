import Verif.Model.Train

/-!
# The circuit with a hand-written backward pass of deepquantum/tests/test_TN_train.py

`ctx` is what `forward` keeps for `backward`.  Results of shape `1 × 1` and columns are kept as numbers and
lists of numbers.  Autograd itself is not modelled: `backward` is a function of `ctx` and of `grad_output`.
-/

namespace QTN

noncomputable section

namespace Circuit

/-- qcircuit.py:184-185 `Circuit.rx`. -/
def rxGate (c : Circuit) (θ : ℝ) (w : ℤ) : Py Circuit :=
  c.addBuilt (fun n => .ok (.gate (mkRx θ n (.int w))))

/-- qcircuit.py:214-215 `Circuit.cphase`. -/
def cphaseGate (c : Circuit) (θ : ℝ) (ws : List ℤ) : Py Circuit :=
  c.addBuilt (fun n => .ok (.gate (mkCphase θ n (.list ws))))

end Circuit

namespace Hybrid

/-- test_TN_train.py:105-106: one pass of the loop over the qubits. -/
def rxStep (p : List ℝ) (c : Circuit) (i : ℤ) : Py Circuit := do
  c.rxGate (← pyGet p i) i

/-- test_TN_train.py:103-110: the circuit. -/
def layers (N : ℕ) (p : List ℝ) : Py Circuit := do
  let ws := pyRange N
  let c1 ← (pyRange N).foldlM (rxStep p) (Circuit.new N)
  let c1 ← c1.yzyLayer ws (slc p (1 * N) (4 * N))
  let c1 ← c1.ringOfCnot ws
  let c1 ← c1.yzyLayer ws (slc p (4 * N) (7 * N))
  c1.cphaseGate (← pyGet p (7 * N : ℕ)) [1, 0]

/-- test_TN_train.py:121-122: what `forward` leaves in `ctx` (`ctx.ps` refers to the circuit). -/
structure Ctx where
  save_dict : PShift.Saved
  ps : PShift
  cir : Circuit

/-- test_TN_train.py:102-126 `HybridFunction.forward`. -/
def forward (svd : SVDOracle) (N : ℕ) (p : List ℝ) (input_state M : Tensor ℂ) : TNM (ℝ × Ctx) := do
  let c1 ← (layers N p : Py _)
  let ps : PShift := ⟨input_state, M⟩
  let r ← ps.save_mid_MPS svd c1 (.gate (mkPauliZ c1.nqubits (.int 0)))
  let result ← (Circuit.quadForm r.2 M : Py _)
  pure (result, ⟨r.1, ps, c1⟩)

/-- test_TN_train.py:129-133 `HybridFunction.backward`. -/
def backward (svd : SVDOracle) (ctx : Ctx) (grad_output : ℝ) : TNM (List ℝ) := fun s =>
  match ctx.ps.cal_params_grad2 svd ctx.save_dict (ctx.cir, s) with
  | (.ok g, (_, s')) => (.ok (g.map (· * grad_output)), s')
  | (.error e, (_, s')) => (.error e, s')

/-- test_TN_train.py:149-156 `qcir.Zmeasure`. -/
def Zmeasure (N : ℕ) : Py (List (Tensor ℂ)) := (pyRange N).mapM (zObservable N)

/-- test_TN_train.py:175-177: the state of one sample. -/
def encode (N : ℕ) (mps : List (Tensor ℂ)) (x : List ℝ) : Py (List (Tensor ℂ)) := do
  let PE ← mkPauliEnc N x (pyRange N) "X"
  PE.TN_operation mps

/-- test_TN_train.py:197, 213: the result of one sample. -/
def evalSample (svd : SVDOracle) (N : ℕ) (w : List ℝ) (M_lst : List (Tensor ℂ))
    (mps : List (Tensor ℂ)) : TNM ℝ := do
  let psi ← (MPS2StateVec mps : Py _)
  let M ← (pyGet M_lst 0 : Py _)
  let r ← forward svd N w psi M
  pure r.1

/-- test_TN_train.py:159-222 `qcir.forward`. -/
def circuit (svd : SVDOracle) (N : ℕ) (w : List ℝ) (batch : List (List ℝ)) : TNM (List ℝ) := do
  let M_lst ← (Zmeasure N : Py _)
  let psi0 ← ((Circuit.new N).state_init.view [1, -1] : Py _)
  let mps ← StateVec2MPS svd psi0 N
  let states ← (batch.mapM (encode N mps) : Py _)
  let rst ← states.mapM (evalSample svd N w M_lst)
  if rst = [] then TNM.lift (.error .unboundLocal) else pure rst

/-- test_TN_train.py:280-289 `qnet.forward`. -/
def net (svd : SVDOracle) (N : ℕ) (w : List ℝ) (batch : List (List ℝ)) : TNM (List ℝ) := do
  let cir_out ← circuit svd N w batch
  pure (cir_out.map (4 * ·))

end Hybrid

end

end QTN
