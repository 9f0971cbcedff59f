import Verif.Model.QLayers
import Mathlib.Analysis.SpecialFunctions.Pow.Complex

/-!
# deepquantum/embeddings/qembedding.py and deepquantum/embeddings/qstate.py

Inputs are lists or tensors of exact numbers.  Lines that are commented out in the source are not
modelled, nor are the unused attributes `state0` and `rho0` of `AmplitudeEncoding`.
-/

namespace QTN

open Finset

noncomputable section

/-! ## PauliEncoding -/

/-- A `PauliEncoding` object: the attributes set by its constructor.  There is no `supportTN`,
`num_params` or `label`, because the constructor does not call the one of the base class. -/
structure PauliEnc where
  nqubits : ℤ
  inputs : List ℝ
  wires : List ℤ
  pauli : String

/-- qembedding.py:65-72 `PauliEncoding.__init__`. -/
def mkPauliEnc (N : ℤ) (inputs : List ℝ) (wires : List ℤ) (pauli : String) : Py PauliEnc := do
  raiseIf (N < inputs.length) .valueError
  .ok ⟨N, inputs, wires, pauli⟩

namespace PauliEnc

/-- The right-hand side of lines 87, 90, 93: `r(input_lst[i % num]).matrix` where `r` is the gate
class with generator `P`.  `i % 0` raises ZeroDivisionError. -/
def wireMat (e : PauliEnc) (P : Tensor ℂ) (i : ℕ) : Py (Tensor ℂ) := do
  let num := e.inputs.length
  raiseIf (num = 0) .zeroDivision
  .ok (rotMat P (← pyGet e.inputs ((i % num : ℕ) : ℤ)))

/-- qembedding.py:82-96 `PauliEncoding._cal_single_gates`. -/
def calSingleGates (e : PauliEnc) : Py (List (Tensor ℂ)) :=
  if e.pauli = "X" then SingleLayer.calGates e.nqubits e.wires (e.wireMat pauliXMat)
  else if e.pauli = "Y" then SingleLayer.calGates e.nqubits e.wires (e.wireMat pauliYMat)
  else if e.pauli = "Z" then SingleLayer.calGates e.nqubits e.wires (e.wireMat pauliZMat)
  else .error .valueError

/-- qembedding.py:98-100 `PauliEncoding.U_expand`. -/
def U_expand (e : PauliEnc) : Py (Tensor ℂ) := do multi_kron (← e.calSingleGates)

/-- `TN_operation`, inherited from `SingleGateLayer` (qlayers.py:37-48). -/
def TN_operation (e : PauliEnc) (mps : List (Tensor ℂ)) : Py (List (Tensor ℂ)) :=
  SingleLayer.TN_operation e.calSingleGates e.wires mps

/-- `TN_contract`, inherited from `SingleGateLayer` (qlayers.py:50-69). -/
def TN_contract (e : PauliEnc) (T : Tensor ℂ) (batch : Bool) : Py (Tensor ℂ) :=
  SingleLayer.TN_contract e.calSingleGates e.nqubits e.wires T batch

end PauliEnc

/-! ## AmplitudeEncoding -/

/-- An `AmplitudeEncoding` object; `inputs` are the entries of the one-dimensional tensor
`input_lst`. -/
structure AmpEnc where
  nqubits : ℕ
  inputs : List ℂ

/-- qembedding.py:109-122 `AmplitudeEncoding.__init__`.  For negative `N` the power `2**N` is a
fraction smaller than 1: nonempty inputs raise ValueError, and for empty inputs
`torch.zeros` of a fraction raises TypeError. -/
def mkAmpEnc (N : ℤ) (inputs : List ℂ) : Py AmpEnc :=
  if N < 0 then (if inputs = [] then .error .typeError else .error .valueError)
  else do
    raiseIf (2 ^ N.toNat < inputs.length) .valueError
    .ok ⟨N.toNat, inputs⟩

/-- qembedding.py:124-137 `AmplitudeEncoding.encoded_state`.  With no inputs `norm` stays the Python
number `0.0` and `torch.sqrt` raises TypeError.  If all inputs are zero the code divides by zero and
returns NaN entries; such values are outside the exact model, where the division gives 0. -/
def AmpEnc.encoded_state (e : AmpEnc) : Py (Tensor ℂ) := do
  let num := e.inputs.length
  raiseIf (num = 0) .typeError
  let norm : ℝ := e.inputs.foldl (fun s z => s + ‖z‖ ^ 2) 0.0
  let scaled := e.inputs.map (fun z => ((1.0 / Real.sqrt norm : ℝ) : ℂ) * z)
  let state ← (List.range num).foldlM (fun (st : List ℂ) (i : ℕ) => do
    pySet st (i : ℤ) (← pyGet scaled (i : ℤ))) (List.replicate (2 ^ e.nqubits) 0)
  .ok (Tensor.ofList state)

/-! ## gram_encoding -/

/-- `m.norm()` of a matrix: the square root of the sum of the squared moduli of its entries. -/
def matNorm (m : Tensor ℂ) : ℝ :=
  Real.sqrt (∑ i ∈ range (m.shape.getD 0 0), ∑ j ∈ range (m.shape.getD 1 0), ‖m.get [i, j]‖ ^ 2)

/-- qembedding.py:44-62 `gram_encoding` of a matrix `x` (the docstring asks for shape `1 × n`).
`x.T` is the transpose without conjugation.  `sqrt` is the principal square root, which is what torch
computes for complex tensors, and equals the real square root on the nonnegative diagonal of a real
tensor.  The conversions to complex64 are the identity here. -/
def gram_encoding (x : Tensor ℂ) : Py (Tensor ℂ) := do
  let x ← (← x.permute [1, 0]).matmul x
  if matNorm x ≠ 1 then do
    let xd := x.diagVec
    let xds ← (xd.mapT (fun z => z ^ (1 / 2 : ℂ))).unsqueeze 1
    let xdsn := xds.mapT (fun z => z / ((matNorm xds + 1e-12 : ℝ) : ℂ))
    xdsn.matmul (← dag xdsn)
  else .ok x

/-! ## qstate.py -/

/-- qstate.py:8-9 `PrepareState`. -/
def PrepareState (state : List ℂ) : Tensor ℂ := Tensor.ofList state

/-- qstate.py:12-14 `PrepareRho`. -/
def PrepareRho (state : List ℂ) : Py (Tensor ℂ) := do
  let basic_rho ← (PrepareState state).unsqueeze 0
  (← basic_rho.permute [1, 0]).matmul basic_rho

end

end QTN
