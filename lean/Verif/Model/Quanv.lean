import Verif.Model.QCircuit
import Verif.Model.Measure

/-!
# `QuanConv2D` of deepquantum/nn/modules/quanv.py

Images are tensors of exact real numbers.  `kernel_size`, `stride` and `n_qubits` are natural numbers.
The initial weights are random and trainable, so they are an arbitrary list of real numbers; the
scale `w_mul` is an arbitrary real number.  `Net` (lines 112-124) adds
ordinary linear layers; it is in Model/QuanNet.lean.
-/

namespace QTN

open Finset

noncomputable section

/-- A `QuanConv2D` object (quanv.py:29-47); the attribute `M_lst` is not used by `forward`. -/
structure QuanConv where
  n_qubits : ℕ
  stride : ℕ
  kernel_size : ℕ
  weight : List ℝ
  w_mul : ℝ

/-- quanv.py:29-47 `__init__` with the outcome `weight` of the random initialisation (`n_qubits * 3`
numbers).  `Zmeasure` (50-57) does not raise on its valid wires and is left out. -/
def mkQuanConv (n stride k : ℕ) (weight : List ℝ) (w_mul : ℝ) : Py QuanConv := do
  raiseIf (n ≠ k ^ 2) .valueError
  .ok ⟨n, stride, k, weight, w_mul⟩

namespace QuanConv

/-- quanv.py:58-63 `_input`. -/
def input (m : QuanConv) (data : List ℝ) : Py (Tensor ℂ) := do
  let cir1 ← (List.range m.n_qubits).foldlM (fun (c : Circuit) (q : ℕ) => do
    .ok (c.add (.gate (mkRy (Real.pi * (← pyGet data (q : ℤ))) m.n_qubits (.int q))))) (Circuit.new m.n_qubits)
  cir1.U

/-- quanv.py:65-79 `_qconv`. -/
def qconv (m : QuanConv) (rho : Tensor ℂ) : Py (Tensor ℂ) := do
  let w := m.weight.map (fun x => x * m.w_mul)
  let cir2 ← (List.range m.n_qubits).foldlM (fun (c : Circuit) (q : ℕ) => do
    let c := c.add (.gate (mkRx (← pyGet w ((3 * q + 0 : ℕ) : ℤ)) m.n_qubits (.int q)))
    let c := c.add (.gate (mkRz (← pyGet w ((3 * q + 1 : ℕ) : ℤ)) m.n_qubits (.int q)))
    .ok (c.add (.gate (mkRx (← pyGet w ((3 * q + 2 : ℕ) : ℤ)) m.n_qubits (.int q))))) (Circuit.new m.n_qubits)
  let cir2 := (List.range m.n_qubits).foldl (fun (c : Circuit) (q : ℕ) =>
    c.add (.gate (mkCnot m.n_qubits (.list [q, ((q + 1) % m.n_qubits : ℕ)])))) cir2
  let U ← cir2.U
  (← U.matmul rho).matmul (← dag U)

/-- quanv.py:96 `input[b, 0, j:j+k, l:l+k].reshape(-1)` of an image batch of shape `[batch, channel,
lx, ly]`; slices are cut off at the border. -/
def patch (img : Tensor ℝ) (channel lx ly b j l k : ℕ) : Py (List ℝ) := do
  raiseIf (channel = 0) .indexError
  .ok ((List.range (min (j + k) lx - j)).flatMap (fun dx =>
    (List.range (min (l + k) ly - l)).map (fun dy => img.get [b, 0, j + dx, l + dy])))

/-- quanv.py:98-104: the measured values for one patch. -/
def cell (m : QuanConv) (x : List ℝ) : Py (List ℝ) := do
  let init := Tensor.ofFn [2 ^ m.n_qubits, 2 ^ m.n_qubits] (fun idx => if idx = [0, 0] then 1 else 0)
  let U1 ← m.input x
  let rho1 ← (← U1.matmul init).matmul (← dag U1)
  let rho2 ← m.qconv rho1
  measure m.n_qubits rho2 .none

/-- The tensor `out` together with the positions assigned so far, in order; the list of positions
is not part of the code. -/
structure Out where
  t : Tensor ℝ
  written : List (List ℕ)

/-- The assignment `out[idx] = v` for non-negative indices. -/
def Out.assign (o : Out) (idx : List ℕ) (v : ℝ) : Py Out := do
  raiseIf (inB o.t.shape idx = false) .indexError
  .ok ⟨Tensor.ofFn o.t.shape (fun i => if i = idx then v else o.t.get i), o.written ++ [idx]⟩

/-- `range(0, n, step)` for a positive step. -/
def rangeStep (n step : ℕ) : List ℕ := (List.range ((n + step - 1) / step)).map (· * step)

/-- quanv.py:81-107 `forward`, returning also the positions assigned. -/
def forwardOut (m : QuanConv) (img : Tensor ℝ) : Py Out :=
  match img.shape with
  | [batch, channel, lx, ly] => do
    raiseIf (m.stride = 0) .zeroDivision
    let lxo : ℤ := ((lx : ℤ) - m.kernel_size) / m.stride + 1
    let lyo : ℤ := ((ly : ℤ) - m.kernel_size) / m.stride + 1
    let out_channel := m.kernel_size ^ 2
    raiseIf (lxo < 0 ∨ lyo < 0) .runtimeError
    (List.range batch).foldlM (fun out b =>
      (rangeStep lx m.stride).foldlM (fun out j =>
        (rangeStep ly m.stride).foldlM (fun out k => do
          let x ← patch img channel lx ly b j k m.kernel_size
          let v ← m.cell x
          (List.range out_channel).foldlM (fun (out : Out) (c : ℕ) => do
            out.assign [b, c, j / m.stride, k / m.stride] (← pyGet v (c : ℤ))) out) out) out)
      ⟨Tensor.zeros [batch, out_channel, lxo.toNat, lyo.toNat], []⟩
  | _ => .error .valueError

/-- quanv.py:81-107 `forward`. -/
def forward (m : QuanConv) (img : Tensor ℝ) : Py (Tensor ℝ) := do .ok (← m.forwardOut img).t

end QuanConv

end

end QTN
