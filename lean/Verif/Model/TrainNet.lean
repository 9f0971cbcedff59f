import Verif.Model.Train
import Verif.Model.Hybrid
import Verif.Model.DemoNet

/-!
# `qnet` and the scripts of deepquantum/tests/test_TN_train2.py and deepquantum/tests/test_TN_train.py

The circuits are in `Model/Train.lean` and `Model/Hybrid.lean`.  The linear layers of `qnet` are created and not
used, so they are left out.  `random.shuffle` is represented by its outcome, a list of indices, and `random.random()`
by the numbers it gives.  The optimiser together with the scheduler of its learning rate is an arbitrary function.
Times, plots and the conversion to TorchScript are not modelled.
-/

namespace QTN

noncomputable section

namespace TrainNet

/-- `t[:,0]` for a matrix. -/
def firstColumn (t : Tensor ℝ) : Py (Tensor ℝ) := do
  raiseIf (t.rank ≠ 2 ∨ t.shape.getD 1 0 = 0) .indexError
  .ok (Tensor.ofFn [t.shape.getD 0 0] (fun idx => t.get [idx.getD 0 0, 0]))

/-- test_TN_train2.py:262-271 `qnet.forward`. -/
def net2 (svd : SVDOracle) (N : ℕ) (w : List ℝ) (x_batch : List (List ℝ)) : Py (Tensor ℝ) := do
  let r ← (Train2.forward svd N w x_batch []).1
  let cir_out := r.mapT (6 * ·)
  firstColumn cir_out

/-- test_TN_train.py:280-289 `qnet.forward`, as a tensor with one axis. -/
def net1 (svd : SVDOracle) (N : ℕ) (w : List ℝ) (x_batch : List (List ℝ)) : Py (Tensor ℝ) := do
  let r ← (Hybrid.net svd N w x_batch []).1
  .ok (Tensor.ofFn [r.length] (fun idx => r.getD (idx.getD 0 0) 0))

/-- test_TN_train2.py:283-285 = test_TN_train.py:301-303 `foo`. -/
def foo (x1 : ℝ) : ℝ := 2 * Real.sin (2 * x1 + 1.9)

/-- test_TN_train2.py:302-303 = test_TN_train.py:320-321: the labels; `us` are the results of `random.random()`. -/
def makeLabels (features : List (List ℝ)) (us : List ℝ) : List (List ℝ) :=
  List.zipWith (fun x u => [foo (x.getD 0 0) + 1e-3 * u]) features us

/-- test_TN_train2.py:349-354 = test_TN_train.py:362-365: the loss of one batch. -/
def batchLoss (net : List ℝ → List (List ℝ) → Py (Tensor ℝ)) (w : List ℝ) (x y : List (List ℝ)) : Py ℝ := do
  let output ← net w x
  DemoNet.MSELoss output.squeeze (Tensor.ofRows y).squeeze

/-- test_TN_train2.py:347-374 = test_TN_train.py:360-385: the inner loop.  `upd` is what `optimizer.step()` makes of the
optimiser's state and the weights after `backward()` on a batch.  `l` is the variable of this name; `none` means it is
not assigned yet. -/
def inner {σ : Type} (upd : σ → List ℝ → List (List ℝ) → List (List ℝ) → σ × List ℝ)
    (net : List ℝ → List (List ℝ) → Py (Tensor ℝ)) :
    List (List (List ℝ) × List (List ℝ)) → σ → List ℝ → Option ℝ → Py (σ × List ℝ × Option ℝ)
  | [], st, w, l => .ok (st, w, l)
  | b :: bs, st, w, _ => do
    let l ← batchLoss net w b.1 b.2
    let r := upd st w b.1 b.2
    inner upd net bs r.1 r.2 (some l)

/-- test_TN_train2.py:344-377 = test_TN_train.py:358-388: the epochs, one outcome of the shuffle for each; `sched` is
`lr_scheduler.step()`.  The result is `loss_lst` and the trained weights.  `data_iter` (test_TN_train2.py:305-314 =
test_TN_train.py:323-332) is the function of the other demos. -/
def train {σ : Type} (upd : σ → List ℝ → List (List ℝ) → List (List ℝ) → σ × List ℝ) (sched : σ → σ)
    (net : List ℝ → List (List ℝ) → Py (Tensor ℝ)) (batch_size : ℕ) (features labels : List (List ℝ)) :
    List (List ℕ) → σ → List ℝ → Option ℝ → Py (List ℝ × List ℝ)
  | [], _, w, _ => .ok ([], w)
  | indices :: rest, st, w, l => do
    let bs ← DemoNet.data_iter batch_size features labels indices
    let r ← inner upd net bs st w l
    match r.2.2 with
    | none => .error .unboundLocal
    | some l => do
      let s ← train upd sched net batch_size features labels rest (sched r.1) r.2.1 (some l)
      .ok (l :: s.1, s.2)

/-- `float(t)`: only for one element. -/
def toFloat (t : Tensor ℝ) : Py ℝ := do
  raiseIf (t.shape.prod ≠ 1) .valueError
  .ok (t.get (unravel t.shape 0))

/-- test_TN_train2.py:391-393 = test_TN_train.py:402-404: the values of the plot, one sample at a time. -/
def plotted (net : List ℝ → List (List ℝ) → Py (Tensor ℝ)) (w : List ℝ) (features : List (List ℝ)) : Py (List ℝ) :=
  (List.range features.length).mapM (fun i => do
    let t ← net w ((features.drop i).take 1)
    toFloat t.squeeze)

end TrainNet

end

end QTN
