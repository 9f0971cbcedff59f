import Verif.Model.RoundGrad
import Verif.SpecDescent

/-!
# Gradient descent with `cal_params_grad` in rounded arithmetic

The loop of deepquantum/tests/test_TN_parameter_shift_rule.py for an arbitrary circuit instead of the one of the file,
which is evaluated as a tensor network.  The same simplifications as in `Model/RoundGrad.lean`.
-/

namespace QTN

noncomputable section

namespace Arith

variable (A : Arith)

/-- `params_lst - lr*grad`, test_TN_parameter_shift_rule.py:133; `lr` is a Python float, which is first converted
(broadcasting of a single entry is not modelled). -/
def descend (lr : ℝ) (p g : List ℝ) : Py (List ℝ) :=
  if p.length = g.length then .ok (List.zipWith (fun x y => A.fl (x - A.fl (A.fl lr * y))) p g)
  else .error .runtimeError

/-- test_TN_parameter_shift_rule.py:117-133: `k` passes of the loop with the circuit `l`; the printed value is left
out. -/
def train {N : ℕ} (tn : Circuit → Tensor ℂ → Tensor ℂ → Py ℝ) (l : List (Spec.Item N)) (init M : Tensor ℂ) (lr : ℝ) :
    ℕ → List ℝ → Py (List ℝ)
  | 0, p => .ok p
  | k + 1, p => do
    let ops ← (Spec.setParams l p).mapM A.buildItem
    let (g, _) ← A.cal_params_grad tn (ops.foldl Circuit.add (Circuit.new N)) init M
    let q ← A.descend lr p g
    train tn l init M lr k q

end Arith

end

end QTN
