import Verif.SpecLayer
import Verif.SpecExp

/-!
# Specification of the quantum convolution

The value of an output position is obtained from one image patch: every pixel turns one qubit, a
fixed circuit follows, and the value is the expectation of Z on one qubit.
-/

namespace QTN.Spec

open Matrix

/-- The successor of a qubit on the ring. -/
def ringNext {N : ℕ} (q : Fin N) : Fin N := ⟨(q + 1) % N, Nat.mod_lt _ q.pos⟩

/-- The circuit that encodes the pixels. -/
noncomputable def pixelItems {N : ℕ} (d : Fin N → ℝ) : List (Item N) :=
  (List.finRange N).map (fun q => .gate (.ry (Real.pi * d q) q))

/-- The trainable circuit with angles `w q 0`, `w q 1`, `w q 2` for qubit `q`. -/
def convItems {N : ℕ} (w : Fin N → Fin 3 → ℝ) : List (Item N) :=
  (List.finRange N).flatMap (fun q => [.gate (.rx (w q 0) q), .gate (.rz (w q 1) q), .gate (.rx (w q 2) q)]) ++
    (List.finRange N).map (fun q => .gate (.cnot q (ringNext q)))

/-- The state of the register after both circuits. -/
noncomputable def convState {N : ℕ} (w : Fin N → Fin 3 → ℝ) (d : Fin N → ℝ) : QState N :=
  circuitOp (convItems w) *ᵥ (circuitOp (pixelItems d) *ᵥ fun a => if a = 0 then 1 else 0)

/-- The output of channel `c` for a patch: the expectation of Z on qubit `c`. -/
noncomputable def convValue {N : ℕ} (w : Fin N → Fin 3 → ℝ) (d : Fin N → ℝ) (c : Fin N) : ℝ :=
  prob (fun a => ‖convState w d a‖ ^ 2) c 0 - prob (fun a => ‖convState w d a‖ ^ 2) c 1

/-- All windows of size `k` starting at multiples of `s` below `n` fit into `n` pixels. -/
def WindowsFit (n k s : ℕ) : Prop := ∀ a, a * s < n → a * s + k ≤ n

end QTN.Spec
