import Verif.Model.Qnn

/-!
# The circuits of shadow_circuit_demo.py

`qcircuit2` (lines 22-128, one sample and one window at a time) and `qcircuit` (lines 131-219, all at once).  They differ
also in the number of repetitions of the entangling layers (2 and 4), which is a parameter here.  The linear layer and
the training script behind them are in Model/ShadowNet.lean; inputs are real matrices.
-/

namespace QTN

noncomputable section

namespace Shadow

/-- shadow_circuit_demo.py:37-57, 144-149 `normlization`: `torch.nn.functional.normalize(x, p=2, dim=1)` divides each
row by its norm, or by `1e-12` if the norm is smaller. -/
def normalization (x : Tensor ℝ) : Py (Tensor ℝ) :=
  match x.shape with
  | [m, n] => .ok (Tensor.ofFn [m, n] (fun idx =>
      x.get idx / max (Real.sqrt (∑ j ∈ Finset.range n, x.get [idx.getD 0 0, j] ^ 2)) 1e-12))
  | _ => .error .indexError

/-- shadow_circuit_demo.py:59-73, 151-163 `amplitude_encoding`. -/
def amplitude_encoding (N : ℕ) (x : Tensor ℂ) : Py (Tensor ℂ) :=
  match x.shape with
  | [num_row, num_col] => do
    raiseIf (num_col > 2 ^ N) .valueError
    x.cat1 (Tensor.zeros [num_row, 2 ^ N - num_col])
  | _ => .error .indexError

/-- shadow_circuit_demo.py:75-94, 165-181 `build_circuit`. -/
def build_circuit (n repeats : ℕ) (w : List ℝ) : Py (Tensor ℂ) := do
  let wires := pyRange n
  let cir := Circuit.new n
  let cir ← cir.basicEntangleLayer wires (slc w 0 (3 * n * repeats)) repeats
  let cir ← cir.yzyLayer wires (slc w (3 * n * repeats) (3 * n * (repeats + 1)))
  cir.U

/-- shadow_circuit_demo.py:34, 141 (`self.M`) and lines 99-100, 191-192: the observable of the window, `U† X…X U`. -/
def observable (n repeats : ℕ) (w : List ℝ) : Py (Tensor ℂ) := do
  let M ← multi_kron (pyRep pauliXMat n)
  let U ← build_circuit n repeats w
  (← (← dag U).matmul M).matmul U

/-- shadow_circuit_demo.py:101-109: one pass of the loop of `qcircuit2.cal_o_lst`.  The value is a `1 × 1` matrix; the
assignment drops its dimensions. -/
def loopStep (N n : ℕ) (temp state : Tensor ℂ) (o_lst : Tensor ℝ) (start : ℤ) : Py (Tensor ℝ) := do
  let temp_lst := pyRep (Tensor.eye 2) start ++ [temp] ++ pyRep (Tensor.eye 2) ((N : ℤ) - n - start)
  let l ← dag (← state.view [-1, 1])
  let o := (← (← l.matmul (← multi_kron temp_lst)).matmul (← state.view [-1, 1])).mapT Complex.re
  o_lst.setFirst start.toNat (← o.view [])

/-- shadow_circuit_demo.py:96-110 `qcircuit2.cal_o_lst`; a negative size raises RuntimeError. -/
def cal_o_loop (N n repeats : ℕ) (w : List ℝ) (state : Tensor ℂ) : Py (Tensor ℝ) := do
  let shadows : ℤ := (N : ℤ) - n + 1
  raiseIf (shadows < 0) .runtimeError
  let temp ← observable n repeats w
  (pyRange shadows).foldlM (loopStep N n temp state) (Tensor.zeros [shadows.toNat])

/-- shadow_circuit_demo.py:119-125: one pass of the loop of `qcircuit2.forward`; `o_batch` is unbound at first. -/
def forwardStep (N n repeats : ℕ) (w : List ℝ) (state_batch : Tensor ℂ) (o_batch : Option (Tensor ℝ)) (idx : ℕ) :
    Py (Option (Tensor ℝ)) := do
  let state ← state_batch.select0 idx
  let o ← (← cal_o_loop N n repeats w state).view [1, -1]
  match o_batch with
  | none => .ok (some o)
  | some b => do .ok (some (← b.catFirst o))

/-- shadow_circuit_demo.py:113-128 `qcircuit2.forward`. -/
def forward2 (N n repeats : ℕ) (w : List ℝ) (x : Tensor ℝ) : Py (Tensor ℝ) := do
  let state_batch ← amplitude_encoding N ((← normalization x).mapT Complex.ofReal)
  match ← (List.range (state_batch.shape.getD 0 0)).foldlM (forwardStep N n repeats w state_batch) none with
  | none => .error .unboundLocal
  | some o => .ok o

/-- shadow_circuit_demo.py:195-203: one pass of the loop of `qcircuit.cal_o_lst`; `U_lst` is unbound at first. -/
def collectStep (N n : ℕ) (temp : Tensor ℂ) (U_lst : Option (Tensor ℂ)) (start : ℤ) : Py (Option (Tensor ℂ)) := do
  let temp_lst := [Tensor.eye (2 ^ start.toNat), temp, Tensor.eye (2 ^ ((N : ℤ) - n - start).toNat)]
  let cur_M ← (← multi_kron temp_lst).view [1, ((2 ^ N : ℕ) : ℤ), ((2 ^ N : ℕ) : ℤ)]
  match U_lst with
  | none => .ok (some cur_M)
  | some U => do .ok (some (← U.catFirst cur_M))

/-- shadow_circuit_demo.py:183-212 `qcircuit.cal_o_lst`. -/
def cal_o_batch (N n repeats : ℕ) (w : List ℝ) (state_batch : Tensor ℂ) : Py (Tensor ℝ) := do
  let batchsize := state_batch.shape.getD 0 0
  let Hdim := state_batch.shape.getD 1 0
  let state_batch ← state_batch.view [(batchsize : ℤ), 1, (Hdim : ℤ)]
  let state_batch_l := state_batch.conj
  let state_batch_r ← state_batch.permute [0, 2, 1]
  let temp ← observable n repeats w
  let shadows : ℤ := (N : ℤ) - n + 1
  match ← (pyRange shadows).foldlM (collectStep N n temp) none with
  | none => .error .unboundLocal
  | some U_lst => do
    let U_lst ← U_lst.view [shadows, 1, ((2 ^ N : ℕ) : ℤ), ((2 ^ N : ℕ) : ℤ)]
    let rst := (← (← state_batch_l.matmul U_lst).matmul state_batch_r).mapT Complex.re
    let rst ← (← rst.squeezeDim (-1)).squeezeDim (-1)
    rst.permute [1, 0]

/-- shadow_circuit_demo.py:215-219 `qcircuit.forward`. -/
def forward (N n repeats : ℕ) (w : List ℝ) (x : Tensor ℝ) : Py (Tensor ℝ) := do
  let state_batch ← amplitude_encoding N ((← normalization x).mapT Complex.ofReal)
  cal_o_batch N n repeats w state_batch

end Shadow

end

end QTN
