import Verif.Model.Qnn

/-!
# `qnet`, `data_iter` and the training loop of test_qnn_demo.py and test_qcnn_demo.py

The initial parameters of the linear layers are random, so they are arbitrary tensors of the right shapes; numbers
are exact reals.  A tensor of samples or labels is a list of rows.  `random.shuffle` is represented by its
outcome, a list of indices.  The optimiser is an arbitrary function; its gradients and the plots are not modelled.
-/

namespace QTN

noncomputable section

namespace DemoNet

/-- `nn.Linear`: the tensors `weight` and `bias`. -/
structure Linear where
  W : Tensor ℝ
  b : Tensor ℝ

/-- `nn.Linear(n, m)(x)` for a matrix `x`: `x @ W.T + b`. -/
def Linear.apply (L : Linear) (x : Tensor ℝ) : Py (Tensor ℝ) := do
  let k := x.shape.getD 1 0
  raiseIf (x.rank ≠ 2 ∨ k ≠ L.W.shape.getD 1 0) .runtimeError
  .ok (Tensor.ofFn [x.shape.getD 0 0, L.W.shape.getD 0 0] (fun idx =>
    (∑ j ∈ Finset.range k, x.get [idx.getD 0 0, j] * L.W.get [idx.getD 1 0, j]) + L.b.get [idx.getD 1 0]))

/-- `nn.functional.leaky_relu(x)` with the default slope. -/
def leaky_relu (x : Tensor ℝ) : Tensor ℝ := x.mapT (fun z => if z > 0 then z else 0.01 * z)

/-- test_qnn_demo.py:113-120 = test_qcnn_demo.py:112-119: the parameters of a `qnet`. -/
structure Net where
  weight : List ℝ
  FC1 : Linear
  FC2 : Linear
  FC3 : Linear

/-- test_qnn_demo.py:124-136 = test_qcnn_demo.py:123-134 `qnet.forward`. -/
def Net.forward (layers : ℕ → List ℝ → Py Circuit) (N : ℕ) (p : Net) (x_batch : List (List ℝ)) : Py (Tensor ℝ) := do
  let cir_out ← Qnn.forward layers N p.weight x_batch
  let out := leaky_relu (← p.FC1.apply cir_out)
  let out := leaky_relu (← p.FC2.apply out)
  .ok (leaky_relu (← p.FC3.apply out))

/-- `nn.MSELoss()(a, b)`; shapes that differ are broadcast. -/
def MSELoss (a b : Tensor ℝ) : Py ℝ :=
  match Tensor.bcast a.shape b.shape with
  | none => .error .runtimeError
  | some s => .ok ((∑ k ∈ Finset.range s.prod, (a.get (Tensor.bIdx a.shape (unravel s k)) -
      b.get (Tensor.bIdx b.shape (unravel s k))) ^ 2) / s.prod)

/-- test_qnn_demo.py:207-209 = test_qcnn_demo.py:201-203: the loss of one batch. -/
def batchLoss (layers : ℕ → List ℝ → Py Circuit) (N : ℕ) (p : Net) (x y : List (List ℝ)) : Py ℝ := do
  let output ← p.forward layers N x
  MSELoss output.squeeze (Tensor.ofRows y).squeeze

/-- test_qnn_demo.py:167-171 = test_qcnn_demo.py:165-169: the index lists; `indices` is the outcome of
`random.shuffle(list(range(num_examples)))`.  `range` with step zero raises ValueError. -/
def batchIndices (batch_size : ℕ) (indices : List ℕ) : Py (List (List ℕ)) := do
  raiseIf (batch_size = 0) .valueError
  .ok ((List.range ((indices.length + batch_size - 1) / batch_size)).map (fun i =>
    (indices.take (min (i * batch_size + batch_size) indices.length)).drop (i * batch_size)))

/-- `t.index_select(0, j)` for a tensor given by its rows. -/
def selectRows (t : List (List ℝ)) (j : List ℕ) : Py (List (List ℝ)) := j.mapM (fun i : ℕ => pyGet t (i : ℤ))

/-- test_qnn_demo.py:164-173 = test_qcnn_demo.py:162-171 `data_iter`: all batches. -/
def data_iter (batch_size : ℕ) (features labels : List (List ℝ)) (indices : List ℕ) :
    Py (List (List (List ℝ) × List (List ℝ))) := do
  (← batchIndices batch_size indices).mapM (fun j => do .ok (← selectRows features j, ← selectRows labels j))

/-- test_qnn_demo.py:204-214 = test_qcnn_demo.py:198-208: the inner loop.  `upd` is what `optimizer.step()` makes of
the optimiser's state and the parameters after `backward()` on a batch.  `l` is the variable of this name; `none`
means it is not assigned yet. -/
def inner {σ : Type} (upd : σ → Net → List (List ℝ) → List (List ℝ) → σ × Net) (layers : ℕ → List ℝ → Py Circuit) (N : ℕ) :
    List (List (List ℝ) × List (List ℝ)) → σ → Net → Option ℝ → Py (σ × Net × Option ℝ)
  | [], st, p, l => .ok (st, p, l)
  | b :: bs, st, p, _ => do
    let l ← batchLoss layers N p b.1 b.2
    let r := upd st p b.1 b.2
    inner upd layers N bs r.1 r.2 (some l)

/-- test_qnn_demo.py:203-220 = test_qcnn_demo.py:197-215: the epochs, one outcome of the shuffle for each; the list
`loss_lst` and the trained parameters. -/
def train {σ : Type} (upd : σ → Net → List (List ℝ) → List (List ℝ) → σ × Net) (layers : ℕ → List ℝ → Py Circuit) (N : ℕ)
    (batch_size : ℕ) (features labels : List (List ℝ)) : List (List ℕ) → σ → Net → Option ℝ → Py (List ℝ × Net)
  | [], _, p, _ => .ok ([], p)
  | indices :: rest, st, p, l => do
    let bs ← data_iter batch_size features labels indices
    let r ← inner upd layers N bs st p l
    match r.2.2 with
    | none => .error .unboundLocal
    | some l => do
      let s ← train upd layers N batch_size features labels rest r.1 r.2.1 (some l)
      .ok (l :: s.1, s.2)

/-- test_qnn_demo.py:142-144 = test_qcnn_demo.py:140-142 `foo`. -/
def foo (x1 : ℝ) : ℝ := 2 * Real.sin x1

/-- test_qnn_demo.py:161-162 = test_qcnn_demo.py:159-160: the labels; `us` are the results of `random.random()`. -/
def makeLabels (features : List (List ℝ)) (us : List ℝ) : List (List ℝ) :=
  List.zipWith (fun x u => [foo (x.getD 0 0) + 1e-3 * u]) features us

end DemoNet

end

end QTN
