import Verif.Model.Qnn
import Mathlib.Analysis.SpecialFunctions.Trigonometric.Inverse

/-!
# The classifier of deepquantum/tests/test_classification_demo.py

`qcir`, `qnet`, the labels and the loss of one batch are modelled; the optimiser and the plots are not.  The linear
layers `FC1`, `FC2`, `FC3` of `qnet` are not used by the script.
-/

namespace QTN

noncomputable section

namespace Classify

/-- test_classification_demo.py:60-65: one pass of the loop. -/
def encodeStep (N : ℕ) (batch : List (List ℝ)) (phi : Tensor ℂ) (i : ℕ) : Py (Tensor ℂ) := do
  let inputs ← pyGet batch ((i : ℕ) : ℤ)
  let e1 ← mkPauliEnc N inputs (pyRange N) "Y"
  let e2 ← mkPauliEnc N inputs (pyRange N) "Z"
  let E1 ← e1.U_expand
  let E2 ← e2.U_expand
  phi.setFirst i (← (← E2.matmul E1).matmul (Circuit.new N).state_init)

/-- test_classification_demo.py:58-65: the encoded states, one per row. -/
def encodeBatch (N : ℕ) (batch : List (List ℝ)) : Py (Tensor ℂ) :=
  (List.range batch.length).foldlM (encodeStep N batch) (Tensor.zeros [batch.length, 2 ^ N])

/-- test_classification_demo.py:68-76: the variational circuit, `repeat = 6`. -/
def layers (N : ℕ) (w : List ℝ) : Py Circuit := do
  let ws := pyRange N
  let c1 := Circuit.new N
  let c1 ← c1.basicEntangleLayer ws (slc w 0 (3 * 6 * N)) 6
  c1.yzyLayer ws (slc w (3 * 6 * N) (3 * (6 + 1) * N))

/-- test_classification_demo.py:49-81 `build_circuit` and line 88: the final states, one per column. -/
def evolve (N : ℕ) (w : List ℝ) (batch : List (List ℝ)) : Py (Tensor ℂ) := do
  let phi ← encodeBatch N batch
  let U ← (← layers N w).U
  U.matmul (← phi.permute [1, 0])

/-- test_classification_demo.py:84-111 `qcir.forward`. -/
def forward (N : ℕ) (w : List ℝ) (batch : List (List ℝ)) : Py (Tensor ℝ) := do
  let M_lst ← Hybrid.Zmeasure N
  let phi ← (← evolve N w batch).permute [1, 0]
  let measure_rst ← M_lst.mapM (Qnn.readOut phi)
  let rst ← Tensor.catList Tensor.cat1 measure_rst
  .ok ((rst.smul 4).mapT Complex.re)

/-- `torch.sigmoid` of a number. -/
def sigmoid (x : ℝ) : ℝ := 1 / (1 + Real.exp (-x))

/-- test_classification_demo.py:138-149 `qnet.forward`.  `torch.arcsin` gives NaN outside of [-1, 1], `Real.arcsin`
does not: the function is only meant for entries in [-1, 1]. -/
def net (N : ℕ) (w : List ℝ) (x_batch : List (List ℝ)) : Py (List ℝ) := do
  let pre_batch := x_batch.map (fun x => x.map Real.arcsin)
  let cir_out ← forward N w pre_batch
  if cir_out.shape.getD 1 0 = 0 then .error .indexError
  else .ok ((List.range (cir_out.shape.getD 0 0)).map (fun k => sigmoid (cir_out.get [k, 0])))

/-- test_classification_demo.py:159-164 `foo`. -/
def foo (x1 x2 : ℝ) : ℝ := if x1 ^ 2 + x2 ^ 2 > 0.5 then 1 else 0

/-- test_classification_demo.py:181-182: the label of a sample. -/
def label (x : List ℝ) : ℝ := foo (x.getD 0 0) (x.getD 1 0)

/-- test_classification_demo.py:199, 223-225: the mean squared error of one batch.  The calls of `squeeze` give both
tensors the same shape, `[batch_size]` or `[]`. -/
def loss (N : ℕ) (w : List ℝ) (x_batch : List (List ℝ)) : Py ℝ := do
  let output ← net N w x_batch
  let y := x_batch.map label
  .ok ((List.zipWith (fun o l => (o - l) ^ 2) output y).sum / x_batch.length)

/-- test_classification_demo.py:252-253: the predicted class. -/
def predicted (o : ℝ) : Bool := decide (o > 0.5)

end Classify

end

end QTN
