import Verif.Model.Embedding
import Verif.Model.Info
import Verif.Model.Measure
import Verif.Model.Methods
import Verif.Model.QGate
import Verif.Model.QLayer

/-!
# The self-tests at the end of the modules

The blocks `if __name__ == '__main__'` of the modules of the package.  A function returns what the block prints; the
random draws are arguments and the timing is left out.
-/

namespace QTN

noncomputable section

namespace SelfTest

/-- qgate.py:416-419: the printed tensor.  `measure` does not use the `Circuit(10)` it is called on. -/
def qgate : Py (Tensor ℝ) := Legacy.measure (Tensor.ofRows [[1, 0], [0, 0]]) 1

/-- qcircuit.py:490-502: the methods called on `cir`; `p` is the random draw of line 500. -/
def calls (p : List ℝ) : List Method :=
  [.cphase 1.234 [1, 2], .Hadamard (.many [0, 1]), .PauliX 0, .cnot [1, 0], .rx (Real.pi / 5.0) 1,
   .BasicEntangleLayer [0, 1, 2] p 1, .SWAP [0, 2]]

/-- What qcircuit.py prints: the labels (504-505), `U()` (507), `cir_params` (511), the gradient (520). -/
structure QCircuitOut where
  labels : List String
  U : Tensor ℂ
  params : ℕ → Option (Option PV)
  grad : List ℝ

/-- qcircuit.py:513-516: the observable `Z` on qubit 0 of `n`. -/
def observable (n : ℕ) : Py (Tensor ℂ) := do
  let lst := pyRep (Tensor.eye 2) n
  let lst := lst.set 0 (mkPauliZ (-1) (.int (-1))).matrix
  multi_kron lst

/-- qcircuit.py:486-520. -/
def qcircuit (svd : SVDOracle) (p : List ℝ) : TNM QCircuitOut := do
  let cir ← (methods 3 (calls p) : Py _)
  let labels ← (cir.labels : Py _)
  let U ← (cir.U : Py _)
  let _ ← (multi_kron (pyRep (Tensor.eye 2) 3) : Py _)
  let M ← (observable cir.nqubits : Py _)
  let init ← (cir.state_init.view [1, -1] : Py _)
  let grad ← (fun s => let r := (⟨init, M⟩ : PShift).cal_params_grad svd (cir, s); (r.1, r.2.2) : TNM (List ℝ))
  pure ⟨labels, U, cir.cir_params, grad⟩

/-- qtensornetwork.py:394-395, qlayers.py:1048: `normalize(x, p=2, dim=1)` divides each row by its norm, or by
`1e-12` if the norm is smaller. -/
def normalize (x : Tensor ℂ) : Py (Tensor ℂ) :=
  match x.shape with
  | [m, n] => .ok (Tensor.ofFn [m, n] (fun idx =>
      x.get idx / ((max (Real.sqrt (∑ j ∈ Finset.range n, ‖x.get [idx.getD 0 0, j]‖ ^ 2)) 1e-12 : ℝ) : ℂ)))
  | _ => .error .indexError

/-- qtensornetwork.py:392-403: the product of the vectors, which is printed first, and what the product of the sites
gives; `r1` and `r2` are the random draws of lines 394-395 (line 350 draws a vector that is not used). -/
def qtensornetwork (svd : SVDOracle) (N : ℕ) (r1 r2 : Tensor ℂ) : TNM (Tensor ℂ × Py (Tensor ℂ)) := do
  let psi1 ← (normalize r1 : Py _)
  let psi2 ← (normalize r2 : Py _)
  let t ← (psi1.permute [1, 0] : Py _)
  let direct ← (psi2.conj.matmul t : Py _)
  let lst1 ← StateVec2MPS svd psi1 N
  let lst2 ← StateVec2MPS svd psi2 N
  pure (direct.squeeze, MPS_inner_product lst1 lst2)

/-- qoperator.py:2182-2185: `U_expand()` and `info()` of the gate. -/
def qoperator : Py (Tensor ℂ × Info) := do
  let c1 ← mkMcnot 6 (.list [0, 1, 2, 3])
  let U ← c1.U_expand
  .ok (U, ← c1.info)

/-- qlayers.py:1044, 1051-1057: the two final states; `psi` is the state of line 1048. -/
def qlayers (svd : SVDOracle) (N : ℕ) (psi : Tensor ℂ) : TNM (Tensor ℂ × Tensor ℂ) := do
  let r1 ← (mkRing .ring N (pyRange N) : Py _)
  let u ← ((Op.ring r1).U_expand : Py _)
  let t ← (psi.permute [1, 0] : Py _)
  let t ← (u.matmul t : Py _)
  let psif ← (t.permute [1, 0] : Py _)
  let mps ← StateVec2MPS svd psi N
  let mps ← (Op.ring r1).TN_operation svd mps
  let sv ← (MPS2StateVec mps : Py _)
  let psi1 ← (sv.view [1, -1] : Py _)
  pure (psif, psi1)

/-- qlayers.py:1046-1048: the start state for `N` qubits. -/
def startState (N : ℕ) : Py (Tensor ℂ) :=
  normalize (Tensor.ofFn [1, 2 ^ N] (fun idx =>
    if idx.getD 1 0 = 2 ^ N - 1 then 0.5 else if idx.getD 1 0 = 0 then 1 else 0))

/-- qlayer.py:386-387. -/
def qlayer : Py (Tensor ℂ) := QLayer.XYZLayer QLayer.circuitClass 2 [1, 1, 1, 1, 1, 1]

/-- qstate.py:22-23. -/
def qstate : Py (Tensor ℂ × Tensor ℂ) := do .ok (PrepareState [0, 1], ← PrepareRho [0, 1])

/-- qmath.py:257-271: the values printed for the matrix and for the vector; `rm` and `state1` are the random draws.
Simplification: the draws are complex tensors with real entries, and the trace of `rm` is not zero. -/
def qmath (N : ℕ) (rm state1 : Tensor ℂ) : Py (List ℝ × List ℝ) := do
  let tr ← rm.trace
  let rho := Tensor.smul (1 / tr) rm
  let value ← measure N rho .none
  let value' ← measure N state1 .none
  .ok (value, value')

end SelfTest

end

end QTN
