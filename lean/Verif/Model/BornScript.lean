import Verif.Model.Qnn
import Mathlib.Data.EReal.Operations
import Mathlib.Analysis.SpecialFunctions.Log.Basic
import Mathlib.Analysis.SpecialFunctions.Trigonometric.Basic
import Mathlib.Algebra.Order.Floor.Semiring

/-!
# deepquantum/tests/test_born_machine.py: the target, the loss and the training loop

Floating-point numbers are exact reals; `inf` is a value (the loss of a distribution with a zero), `nan` is
not modelled.  The number of qubits `N = 6` (line 39) is a parameter.  Plots and `input` (lines 51-53,
173-184) and the elapsed time in the printed line are left out.  The optimizer and the gradient (lines
149-150, 158) are an arbitrary function from its own state, the weights and the learning rate to the next
state and weights.
-/

namespace QTN.Born

noncomputable section

/-- test_born_machine.py:29. -/
def a0 : ℝ := 1.327193070989003
/-- test_born_machine.py:30. -/
def a1 : ℝ := 1.4274476074643232
/-- test_born_machine.py:31. -/
def a2 : ℝ := 0.869014090579638
/-- test_born_machine.py:32. -/
def a3 : ℝ := -2.3608178731399994
/-- test_born_machine.py:33. -/
def a4 : ℝ := 0.06435617509603819

/-- test_born_machine.py:35-37 `rand_func`. -/
def rand_func (x : ℝ) : ℝ :=
  1.5 + a1 * x + 1 * Real.sin (4 * a0 * Real.pi * x) + 1 + a2 * x ^ 2 + a3 * x ^ 3 + a4 * x ^ 4

/-- `np.arange(start, stop, step)` for a positive step: `⌈(stop - start) / step⌉` points. -/
def arange (start stop step : ℝ) : List ℝ :=
  (List.range ⌈(stop - start) / step⌉₊).map (fun i : ℕ => start + i * step)

/-- test_born_machine.py:40-41. -/
def xx (N : ℕ) : List ℝ :=
  let epsilon : ℝ := 1.0 / 2 ^ N
  arange epsilon (1 + epsilon) epsilon

/-- test_born_machine.py:42-49. -/
def target (N : ℕ) : Py (List ℝ) := do
  let yy := (xx N).map rand_func
  pyAssert (yy.length = 2 ^ N)
  let summ := yy.sum
  let target := yy.map (fun y => 1.0 * y / summ)
  pyAssert (|target.sum - 1.0| < (1e-6 : ℝ))
  target.forM (fun each => pyAssert (each > 0.0))
  .ok target

/-- `torch.log` of a number that is not negative. -/
def torchLog (x : ℝ) : EReal := if x = 0 then ⊥ else (Real.log x : ℝ)

/-- `nn.KLDivLoss(reduction='sum')` of line 120: the sum of `target * (log target - input)`; the targets
of the script are positive.  Other lengths (broadcasting) do not occur and raise here. -/
def KLDivLoss (input : List EReal) (target : List ℝ) : Py EReal := do
  raiseIf (input.length ≠ target.length) .runtimeError
  .ok ((List.zipWith (fun (i : EReal) (t : ℝ) => (t : EReal) * (torchLog t - i)) input target).sum)

/-- test_born_machine.py:147. -/
def loss (output : Tensor ℝ) (target : List ℝ) : Py EReal :=
  KLDivLoss (((List.range (output.shape.getD 0 0)).map (fun k => output.get [k])).map torchLog) target

/-- test_born_machine.py:132. -/
def milestones : List ℕ := [50, 100, 150, 250, 350, 500, 800, 1000, 2300]

/-- The state of `optim.lr_scheduler.MultiStepLR`: `last_epoch` and the learning rate of the optimizer. -/
structure Sched where
  last_epoch : ℕ
  lr : ℝ

/-- test_born_machine.py:130-132. -/
def Sched.init : Sched := ⟨0, 0.5⟩

/-- `MultiStepLR.step()`: multiply by `gamma` once for each occurrence of the new epoch in `milestones`. -/
def Sched.step (s : Sched) : Sched :=
  ⟨s.last_epoch + 1, s.lr * 0.8 ^ (milestones.count (s.last_epoch + 1))⟩

/-- What lines 162-164 print: the epoch, the loss and the learning rate. -/
structure Line where
  epoch : ℕ
  l : EReal
  lr : ℝ

/-- test_born_machine.py:139-164, the passes of the loop over `epochs`; the printed lines and the weights
afterwards. -/
def train {σ : Type} (upd : σ → List ℝ → ℝ → σ × List ℝ) (N : ℕ) (target : List ℝ) :
    List ℕ → σ → List ℝ → Sched → Py (List Line × List ℝ)
  | [], _, w, _ => .ok ([], w)
  | epoch :: epochs, st, w, s => do
    let output ← forward N w
    let l ← loss output target
    let r := upd st w s.lr
    let s' := s.step
    let rest ← train upd N target epochs r.1 r.2 s'
    .ok (⟨epoch, l, s'.lr⟩ :: rest.1, rest.2)

/-- test_born_machine.py: the whole script, from the initial weights: the printed lines and the final
distribution (lines 169-172). -/
def script {σ : Type} (upd : σ → List ℝ → ℝ → σ × List ℝ) (N : ℕ) (st : σ) (w : List ℝ) :
    Py (List Line × Tensor ℝ) := do
  let target ← target N
  let r ← train upd N target ((List.range 3000).map (· + 1)) st w Sched.init
  let output ← forward N r.2
  pyAssert (output.shape.getD 0 0 = (xx N).length)
  .ok (r.1, output)

end

end QTN.Born
