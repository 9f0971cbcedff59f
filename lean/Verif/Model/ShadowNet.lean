import Verif.Model.Shadow
import Verif.Model.QuanNet

/-!
# `qnet` and the script of shadow_circuit_demo.py

As in Model/QuanNet.lean: parameters are arbitrary, numbers are exact, a data set is the list of its images with their
labels, and the optimiser is an arbitrary function.  The outcome of the shuffle of an epoch is the list of the samples in
the order in which they are visited.
-/

namespace QTN

noncomputable section

namespace ShadowNet

open DemoNet (Linear)
open QuanNet (Sample stack DataLoader CrossEntropyLoss argmax)

/-- shadow_circuit_demo.py:229-239 and 137-138: the parameters of a `qnet`. -/
structure Net where
  weight : List ℝ
  FC1 : Linear

/-- shadow_circuit_demo.py:243-263 `qnet.forward`; the circuit of `qcircuit` has four entangling layers. -/
def Net.forward (p : Net) (N n : ℕ) (x_batch : Tensor ℝ) : Py (Tensor ℝ) := do
  let cir_out ← Shadow.forward N n 4 p.weight x_batch
  p.FC1.apply cir_out

/-- shadow_circuit_demo.py:339-348 and 372-376: the images of a batch as rows, and the output. -/
def output (p : Net) (N n : ℕ) (b : List Sample) : Py (Tensor ℝ) := do
  let x ← stack (b.map Prod.fst)
  let x ← x.squeeze.view [-1, 784]
  p.forward N n x

/-- shadow_circuit_demo.py:338-359: the batches of one epoch; `l` is the variable of this name, `none` if it is not
assigned yet. -/
def epoch {σ : Type} (upd : σ → Net → List Sample → σ × Net) (N n : ℕ) :
    List (List Sample) → σ → Net → Option ℝ → Py (σ × Net × Option ℝ)
  | [], st, p, l => .ok (st, p, l)
  | b :: bs, st, p, _ => do
    let l ← CrossEntropyLoss (← output p N n b) (b.map Prod.snd)
    let r := upd st p b
    epoch upd N n bs r.1 r.2 (some l)

/-- shadow_circuit_demo.py:335-363: the epochs, one order of the samples for each; `loss_lst` and the parameters. -/
def train {σ : Type} (upd : σ → Net → List Sample → σ × Net) (N n batch_size : ℕ) :
    List (List Sample) → σ → Net → Option ℝ → Py (List ℝ × Net)
  | [], _, p, _ => .ok ([], p)
  | data :: rest, st, p, l => do
    let bs ← DataLoader batch_size data
    let r ← epoch upd N n bs st p l
    match r.2.2 with
    | none => .error .unboundLocal
    | some l => do
      let s ← train upd N n batch_size rest r.1 r.2.1 (some l)
      .ok (l :: s.1, s.2)

/-- `nn.functional.softmax(output, dim=1)`. -/
def softmax (t : Tensor ℝ) : Tensor ℝ :=
  Tensor.ofFn t.shape (fun idx => Real.exp (t.get idx) /
    ∑ c ∈ Finset.range (t.shape.getD 1 0), Real.exp (t.get [idx.getD 0 0, c]))

/-- shadow_circuit_demo.py:370-381: one pass of the loop over the test data.  `int(idx)` and `int(y)` raise ValueError
unless there is exactly one number. -/
def testStep (p : Net) (N n : ℕ) (score : ℕ) (b : List Sample) : Py ℕ := do
  let out := softmax (← output p N n b)
  raiseIf (out.shape.getD 0 0 ≠ 1 ∨ b.length ≠ 1) .valueError
  .ok (if argmax out 0 = (b.map Prod.snd).getD 0 0 then score + 1 else score)

/-- shadow_circuit_demo.py:315-317 and 369-382: the printed accuracy. -/
def test (p : Net) (N n : ℕ) (n_test : ℕ) (data : List Sample) : Py ℝ := do
  let score ← (← DataLoader 1 data).foldlM (testStep p N n) 0
  raiseIf (n_test = 0) .zeroDivision
  .ok (100 * (score : ℝ) / n_test)

/-- shadow_circuit_demo.py:304-307: the part of the data set that is used for the test. -/
def testData (n_bias n_test : ℕ) (full : List Sample) : List Sample := (full.take (n_bias + n_test)).drop n_bias

end ShadowNet

end

end QTN
