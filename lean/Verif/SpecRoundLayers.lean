import Verif.SpecRoundMeasure
import Verif.SpecGrad

/-! # Specification: what a layer may cost in floating-point arithmetic -/

namespace QTN.Spec

/-- Error of a product of `m` rotation matrices on one qubit. -/
noncomputable def rotsEps (u δ : ℝ) (m : ℕ) : ℝ := (1 + 3 * δ) ^ m * (1 + 2 * sumErr u 2) ^ (m - 1) - 1

/-- What a layer on `k` qubits adds to the error of every column, if the matrix of each qubit has the error
`ε`: the errors of the `k` matrices, those of the `k - 1` Kronecker products, and those of the product with
the circuit so far, where every row of the layer has up to `2 ^ k` entries. -/
noncomputable def layerCost (u : ℝ) (k : ℕ) (ε : ℝ) : ℝ :=
  ((1 + ε) ^ k - 1) + ((1 + mulErr u) ^ k - 1) * (Real.sqrt 2 + ε) ^ k +
    sumErr u (2 ^ k) * ((1 + mulErr u) ^ k * (Real.sqrt 2 + ε) ^ k)

/-- What a gate or layer adds to the error of every column of the unitary matrix of a circuit. -/
noncomputable def Item.cost {N : ℕ} (u δ : ℝ) : Item N → ℝ
  | .gate ins => ins.cost u δ
  | .layer k ws _ => layerCost u ws.length (rotsEps u δ k.axes.length)
  | .hlayer ws => layerCost u ws.length (2 * u)
  | .ring _ | .ringDag _ | .ring2 _ => 0
  | .basic ws _ reps => prodErr u N ((1 + layerCost u ws.length (rotsEps u δ 3)) ^ reps - 1)

/-- The gates and layers whose matrices have only the entries 0, 1, -1, i and -i. -/
def Item.exact {N : ℕ} : Item N → Bool
  | .gate ins => ins.exact
  | .ring _ | .ringDag _ | .ring2 _ => true
  | _ => false

/-- The same gate or layer with other angles. -/
def Item.mapAngles {N : ℕ} (f : ℝ → ℝ) : Item N → Item N
  | .gate ins => .gate (ins.mapAngles f)
  | .layer k ws p => .layer k ws (p.map f)
  | .basic ws p reps => .basic ws (p.map f) reps
  | it => it

/-- The sum of the absolute values of all angles of a circuit. -/
noncomputable def itemAngles {N : ℕ} (l : List (Item N)) : ℝ := ((allParams l).map abs).sum

/-- The bound on the error of a circuit of gates and layers. -/
noncomputable def itemBound {N : ℕ} (u δ : ℝ) (l : List (Item N)) : ℝ :=
  (l.map (fun it => 1 + it.cost u δ)).prod - 1

end QTN.Spec
