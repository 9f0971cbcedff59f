import Verif.Lemmas.Expect

/-! # Every operation only extends the list of decomposed matrices -/

namespace QTN

open Spec Matrix

/-- Prove `TNM.Mono` of a `do` block. -/
macro "mono" : tactic => `(tactic| repeat' with_reducible first
  | exact TNM.Mono.lift _
  | exact TNM.Mono.lift' _
  | exact TNM.Mono.pure _
  | refine TNM.Mono.bind ?_ (fun _ => ?_)
  | refine TNM.Mono.ite ?_ ?_
  | refine TNM.Mono.foldlM (fun _ _ => ?_) _ _)

theorem mono_swapTN (svd : SVDOracle) (m : Tensor ℂ) (w : List ℤ) (mps : List (Tensor ℂ)) :
    (Gate.swapTN svd m w mps).Mono := by
  unfold Gate.swapTN
  mono <;> exact mono_applyTwo _ _ _ _

theorem mono_swap (svd : SVDOracle) (g : Gate) (mps : List (Tensor ℂ)) :
    (g.swap_TN_operation svd mps).Mono := by
  unfold Gate.swap_TN_operation
  mono
  exact mono_swapTN _ _ _ _

theorem mono_swapCall (svd : SVDOracle) (N i j : ℤ) (mps : List (Tensor ℂ)) :
    (Gate.swapCall svd N i j mps).Mono := mono_swap _ _ _

theorem mono_cnot (svd : SVDOracle) (g : Gate) (mps : List (Tensor ℂ)) :
    (g.cnot_TN_operation svd mps).Mono := by
  unfold Gate.cnot_TN_operation
  mono <;> with_reducible first | exact mono_applyTwo _ _ _ _ | exact mono_swapCall _ _ _ _ _

theorem mono_ctrl (svd : SVDOracle) (g : Gate) (G : Py (Tensor ℂ)) (mps : List (Tensor ℂ)) :
    (g.ctrl_TN_operation svd G mps).Mono := by
  unfold Gate.ctrl_TN_operation
  mono <;> with_reducible first | exact mono_applyTwo _ _ _ _ | exact mono_swapCall _ _ _ _ _

theorem mono_toffoli (svd : SVDOracle) (g : Gate) (mps : List (Tensor ℂ)) :
    (g.toffoli_TN_operation svd mps).Mono := by
  unfold Gate.toffoli_TN_operation
  mono <;> with_reducible first | exact mono_applyThree _ _ _ _ | exact mono_swapCall _ _ _ _ _

theorem mono_gate (svd : SVDOracle) (g : Gate) (mps : List (Tensor ℂ)) : (g.TN_operation svd mps).Mono := by
  unfold Gate.TN_operation
  split <;> with_reducible first
    | exact TNM.Mono.lift' _
    | exact mono_cnot _ _ _
    | exact mono_ctrl _ _ _ _
    | exact mono_swap _ _ _
    | exact mono_toffoli _ _ _

theorem mono_cnotCall (svd : SVDOracle) (N a b : ℤ) (mps : List (Tensor ℂ)) :
    (Ring.cnotCall svd N a b mps).Mono := mono_gate _ _ _

theorem mono_wrap (svd : SVDOracle) (N L : ℤ) (mps : List (Tensor ℂ)) : (Ring.wrapCnot svd N L mps).Mono := by
  unfold Ring.wrapCnot
  mono <;> exact mono_gate _ _ _

theorem mono_ring (svd : SVDOracle) (r : Ring) (mps : List (Tensor ℂ)) : (r.TN_operation svd mps).Mono := by
  unfold Ring.TN_operation
  dsimp only
  split <;> mono <;> with_reducible first | exact mono_cnotCall _ _ _ _ _ | exact mono_wrap _ _ _ _

theorem mono_op (svd : SVDOracle) (o : Op) (mps : List (Tensor ℂ)) : (o.TN_operation svd mps).Mono := by
  unfold Op.TN_operation
  split
  · exact mono_gate _ _ _
  · exact TNM.Mono.lift' _
  · exact mono_ring _ _ _
  · exact TNM.Mono.lift' _

theorem mono_evolution (svd : SVDOracle) (c : Circuit) (mps : List (Tensor ℂ)) : (c.TN_evolution svd mps).Mono := by
  unfold Circuit.TN_evolution
  mono
  exact mono_op _ _ _

theorem mono_sv2mps (svd : SVDOracle) (v : Tensor ℂ) (n : ℕ) : (StateVec2MPS svd v n).Mono := by
  unfold StateVec2MPS
  mono
  all_goals exact mono_sv2mps_loop _ _ _

theorem mono_expectation (svd : SVDOracle) (c : Circuit) (i M : Tensor ℂ) (tn : Bool) :
    (c.cir_expectation svd i M tn).Mono := by
  unfold Circuit.cir_expectation
  mono <;> with_reducible first | exact mono_sv2mps _ _ _ | exact mono_evolution _ _ _

end QTN
