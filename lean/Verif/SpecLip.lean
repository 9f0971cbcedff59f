import Verif.SpecGrad

/-! # Changing all parameters of a circuit at once -/

namespace QTN.Spec

/-- The total change from the parameters `p` to the parameters `p'`. -/
noncomputable def paramDist (p p' : List ℝ) : ℝ := ∑ i ∈ Finset.range p.length, |p.getD i 0 - p'.getD i 0|

/-- The circuits consist of the same gates and layers on the same qubits and differ in their parameters only. -/
def SameForm {N : ℕ} (l l' : List (Item N)) : Prop :=
  List.Forall₂ (fun it it' => ∃ p, p.length = it.params.length ∧ it' = it.withParams p) l l'

/-- How fast the state can move with a parameter of a gate: a rotation turns by half its angle, a phase gate by its
whole angle. -/
noncomputable def Item.speed {N : ℕ} : Item N → ℝ
  | .gate (.u1 _ _) | .gate (.cphase _ _ _) => 1
  | _ => 1 / 2

/-- The total change of the parameters, every gate weighted with its speed. -/
noncomputable def stateDist {N : ℕ} (l l' : List (Item N)) : ℝ :=
  (List.zipWith (fun it it' => it.speed * paramDist it.params it'.params) l l').sum

end QTN.Spec
