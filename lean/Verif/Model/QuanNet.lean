import Verif.Model.Quanv
import Verif.Model.DemoNet

/-!
# `Net` of quanv.py and the script test_quan_demo.py

The initial parameters are random, so they are arbitrary; numbers are exact reals.  A data set is the list of its
images, tensors of shape `[1, h, w]`, with their labels.  The optimiser is an arbitrary function; moving tensors between
devices, the printing of the numbers and the files of the data set are not modelled.
-/

namespace QTN

noncomputable section

namespace QuanNet

open DemoNet (Linear)

/-- An image and its label. -/
abbrev Sample := Tensor ℝ × ℕ

/-- quanv.py:113-117 = test_quan_demo.py:53-57: the parameters of a `Net`. -/
structure Net where
  quan1 : QuanConv
  fc1 : Linear
  fc2 : Linear

/-- `torch.flatten(x, 1)` for a tensor with at least two dimensions. -/
def flatten1 (x : Tensor ℝ) : Tensor ℝ :=
  match x.shape with
  | [] => x
  | s :: rest => Tensor.ofFn [s, rest.prod] (fun idx => x.get (idx.getD 0 0 :: unravel rest (idx.getD 1 0)))

/-- `F.relu`. -/
def relu (x : Tensor ℝ) : Tensor ℝ := x.mapT (fun z => if z > 0 then z else 0)

/-- quanv.py:119-124 = test_quan_demo.py:59-64 `Net.forward`. -/
def Net.forward (p : Net) (x : Tensor ℝ) : Py (Tensor ℝ) := do
  let x ← p.quan1.forward x
  let x := flatten1 x
  let x := relu (← p.fc1.apply x)
  p.fc2.apply x

/-- `torch.stack` of the images of a batch, as done by `DataLoader`. -/
def stack : List (Tensor ℝ) → Py (Tensor ℝ)
  | [] => .error .runtimeError
  | t :: ts => do
    raiseIf (∃ u ∈ ts, u.shape ≠ t.shape) .runtimeError
    .ok (Tensor.ofFn ((t :: ts).length :: t.shape) (fun idx => ((t :: ts).getD (idx.getD 0 0) t).get idx.tail))

/-- test_quan_demo.py:73-79 `DataLoader(dataset, batch_size, shuffle=False)`: the batches in order, the last one may be
smaller. -/
def DataLoader (batch_size : ℕ) (data : List Sample) : Py (List (List Sample)) := do
  raiseIf (batch_size = 0) .valueError
  .ok ((List.range ((data.length + batch_size - 1) / batch_size)).map (fun i =>
    (data.take (min (i * batch_size + batch_size) data.length)).drop (i * batch_size)))

/-- `nn.CrossEntropyLoss()(output, target)` for a matrix `output` with at least one row. -/
def CrossEntropyLoss (output : Tensor ℝ) (target : List ℕ) : Py ℝ := do
  let n := output.shape.getD 0 0
  let k := output.shape.getD 1 0
  raiseIf (target.length ≠ n) .valueError
  raiseIf (∃ y ∈ target, k ≤ y) .indexError
  .ok ((∑ b ∈ Finset.range n, (Real.log (∑ c ∈ Finset.range k, Real.exp (output.get [b, c])) -
    output.get [b, target.getD b 0])) / n)

/-- test_quan_demo.py:89-95 and 112-117: the output for a batch and its loss. -/
def batchLoss (p : Net) (b : List Sample) : Py (Tensor ℝ × ℝ) := do
  let data ← stack (b.map Prod.fst)
  let output ← p.forward data
  let loss ← CrossEntropyLoss output (b.map Prod.snd)
  .ok (output, loss)

/-- test_quan_demo.py:86-103: the batches of one epoch; the last component is the list `total_loss`.  `upd` is what
`optimizer.step()` makes of the optimiser's state and the parameters after `backward()` on a batch. -/
def epoch {σ : Type} (upd : σ → Net → List Sample → σ × Net) : List (List Sample) → σ → Net → Py (σ × Net × List ℝ)
  | [], st, p => .ok (st, p, [])
  | b :: bs, st, p => do
    let r ← batchLoss p b
    let s := upd st p b
    let t ← epoch upd bs s.1 s.2
    .ok (t.1, t.2.1, r.2 :: t.2.2)

/-- `sum(l) / len(l)`. -/
def average (l : List ℝ) : Py ℝ := do
  raiseIf (l.length = 0) .zeroDivision
  .ok (l.sum / l.length)

/-- test_quan_demo.py:84-105: the list `loss_list` and the trained parameters. -/
def train {σ : Type} (upd : σ → Net → List Sample → σ × Net) (batch_size : ℕ) (data : List Sample) :
    ℕ → σ → Net → Py (List ℝ × Net)
  | 0, _, p => .ok ([], p)
  | n + 1, st, p => do
    let bs ← DataLoader batch_size data
    let t ← epoch upd bs st p
    let l ← average t.2.2
    let r ← train upd batch_size data n t.1 t.2.1
    .ok (l :: r.1, r.2)

/-- `output.argmax(dim=1)` for one row; the first one of equal entries. -/
def argmax (output : Tensor ℝ) (b : ℕ) : ℕ :=
  (List.range (output.shape.getD 1 0)).foldl (fun m c => if output.get [b, c] > output.get [b, m] then c else m) 0

/-- test_quan_demo.py:115-116: how many rows of a batch have their label as argmax. -/
def correctIn (output : Tensor ℝ) (target : List ℕ) : ℕ :=
  ((List.range target.length).filter (fun b => argmax output b = target.getD b 0)).length

/-- test_quan_demo.py:111-118: the loop over the test data; `correct` and `total_loss`. -/
def testLoop (p : Net) : List (List Sample) → Py (ℕ × List ℝ)
  | [] => .ok (0, [])
  | b :: bs => do
    let r ← batchLoss p b
    let t ← testLoop p bs
    .ok (correctIn r.1 (b.map Prod.snd) + t.1, r.2 :: t.2)

/-- test_quan_demo.py:107-121: the loss and the accuracy that are printed. -/
def test (p : Net) (batch_size : ℕ) (data : List Sample) : Py (ℝ × ℝ) := do
  let test_loader ← DataLoader batch_size data
  let r ← testLoop p test_loader
  let loss ← average r.2
  raiseIf (test_loader.length = 0) .zeroDivision
  .ok (loss, (r.1 : ℝ) / test_loader.length * 100 / batch_size)

/-- test_quan_demo.py:22-25 and 68-121: training followed by the test. -/
def script {σ : Type} (upd : σ → Net → List Sample → σ × Net) (EPOCHS BATCH_SIZE : ℕ) (train_data test_data : List Sample)
    (st : σ) (p : Net) : Py (List ℝ × ℝ × ℝ) := do
  let r ← train upd BATCH_SIZE train_data EPOCHS st p
  let t ← test r.2 BATCH_SIZE test_data
  .ok (r.1, t.1, t.2)

end QuanNet

end

end QTN
