import Verif.SpecSpan

/-!
# Circuit identities

The laws by which gates are commonly rewritten, as pairs of gate lists (first gate first).  They mention only gates and
angles, no matrix.
-/

namespace QTN.Spec

/-- The two gate lists are two ways to write one operation.  All laws are exact, without a global phase. -/
inductive Rule {N : ℕ} : List (Instr N) → List (Instr N) → Prop
  -- gates that undo themselves
  | h_h (i) : Rule [.h i, .h i] []
  | x_x (i) : Rule [.x i, .x i] []
  | y_y (i) : Rule [.y i, .y i] []
  | z_z (i) : Rule [.z i, .z i] []
  | cnot_cnot (c t) (h : c ≠ t) : Rule [.cnot c t, .cnot c t] []
  | cz_cz (c t) (h : c ≠ t) : Rule [.cz c t, .cz c t] []
  | swap_swap (p q) (h : p ≠ q) : Rule [.swap p q, .swap p q] []
  | toffoli_toffoli (a b t) (h : a ≠ b ∧ a ≠ t ∧ b ≠ t) : Rule [.toffoli a b t, .toffoli a b t] []
  | mcnot_mcnot (cs t) (h : cs ≠ [] ∧ t ∉ cs) : Rule [.mcnot cs t, .mcnot cs t] []
  -- rotations by zero
  | rx_zero (i) : Rule [.rx 0 i] []
  | ry_zero (i) : Rule [.ry 0 i] []
  | rz_zero (i) : Rule [.rz 0 i] []
  | u1_zero (i) : Rule [.u1 0 i] []
  | u3_zero (i) : Rule [.u3 0 0 0 i] []
  | rxx_zero (p q) (h : p ≠ q) : Rule [.rxx 0 p q] []
  | ryy_zero (p q) (h : p ≠ q) : Rule [.ryy 0 p q] []
  | rzz_zero (p q) (h : p ≠ q) : Rule [.rzz 0 p q] []
  | cphase_zero (c t) (h : c ≠ t) : Rule [.cphase 0 c t] []
  | cu3_zero (c t) (h : c ≠ t) : Rule [.cu3 0 0 0 c t] []
  -- angles add up
  | rx_rx (α β i) : Rule [.rx α i, .rx β i] [.rx (α + β) i]
  | ry_ry (α β i) : Rule [.ry α i, .ry β i] [.ry (α + β) i]
  | rz_rz (α β i) : Rule [.rz α i, .rz β i] [.rz (α + β) i]
  | u1_u1 (α β i) : Rule [.u1 α i, .u1 β i] [.u1 (α + β) i]
  | rxx_rxx (α β p q) (h : p ≠ q) : Rule [.rxx α p q, .rxx β p q] [.rxx (α + β) p q]
  | ryy_ryy (α β p q) (h : p ≠ q) : Rule [.ryy α p q, .ryy β p q] [.ryy (α + β) p q]
  | rzz_rzz (α β p q) (h : p ≠ q) : Rule [.rzz α p q, .rzz β p q] [.rzz (α + β) p q]
  | cphase_cphase (α β c t) (h : c ≠ t) : Rule [.cphase α c t, .cphase β c t] [.cphase (α + β) c t]
  -- periods
  | rx_period (α i) : Rule [.rx (α + 4 * Real.pi) i] [.rx α i]
  | ry_period (α i) : Rule [.ry (α + 4 * Real.pi) i] [.ry α i]
  | rz_period (α i) : Rule [.rz (α + 4 * Real.pi) i] [.rz α i]
  | u1_period (α i) : Rule [.u1 (α + 2 * Real.pi) i] [.u1 α i]
  | cphase_period (α c t) (h : c ≠ t) : Rule [.cphase (α + 2 * Real.pi) c t] [.cphase α c t]
  | rxx_period (α p q) (h : p ≠ q) : Rule [.rxx (α + 4 * Real.pi) p q] [.rxx α p q]
  | ryy_period (α p q) (h : p ≠ q) : Rule [.ryy (α + 4 * Real.pi) p q] [.ryy α p q]
  | rzz_period (α p q) (h : p ≠ q) : Rule [.rzz (α + 4 * Real.pi) p q] [.rzz α p q]
  -- gates on one qubit expressed by others
  | z_u1 (i) : Rule [.z i] [.u1 Real.pi i]
  | x_hzh (i) : Rule [.x i] [.h i, .z i, .h i]
  | y_u1 (i) : Rule [.y i] [.u1 (-(Real.pi / 2)) i, .x i, .u1 (Real.pi / 2) i]
  | rx_hrz (θ i) : Rule [.rx θ i] [.h i, .rz θ i, .h i]
  | ry_u1 (θ i) : Rule [.ry θ i] [.u1 (-(Real.pi / 2)) i, .rx θ i, .u1 (Real.pi / 2) i]
  | rz_u1 (θ i) : Rule [.rz θ i] [.u1 (θ / 2) i, .x i, .u1 (-(θ / 2)) i, .x i]
  | ry_h (θ i) : Rule [.h i, .ry θ i] [.ry (-θ) i, .h i]
  | x_rz (θ i) : Rule [.x i, .rz θ i] [.rz (-θ) i, .x i]
  | x_ry (θ i) : Rule [.x i, .ry θ i] [.ry (-θ) i, .x i]
  | z_rx (θ i) : Rule [.z i, .rx θ i] [.rx (-θ) i, .z i]
  | z_ry (θ i) : Rule [.z i, .ry θ i] [.ry (-θ) i, .z i]
  | u3_rot (θ φ l i) : Rule [.u3 θ φ l i] [.rz l i, .ry θ i, .rz φ i]
  -- gates whose qubits play the same role
  | cz_symm (c t) (h : c ≠ t) : Rule [.cz c t] [.cz t c]
  | cphase_symm (θ c t) (h : c ≠ t) : Rule [.cphase θ c t] [.cphase θ t c]
  | swap_symm (p q) (h : p ≠ q) : Rule [.swap p q] [.swap q p]
  | rxx_symm (θ p q) (h : p ≠ q) : Rule [.rxx θ p q] [.rxx θ q p]
  | ryy_symm (θ p q) (h : p ≠ q) : Rule [.ryy θ p q] [.ryy θ q p]
  | rzz_symm (θ p q) (h : p ≠ q) : Rule [.rzz θ p q] [.rzz θ q p]
  | toffoli_symm (a b t) (h : a ≠ b ∧ a ≠ t ∧ b ≠ t) : Rule [.toffoli a b t] [.toffoli b a t]
  -- gates on several qubits expressed by others
  | cnot_mcnot (c t) (h : c ≠ t) : Rule [.cnot c t] [.mcnot [c] t]
  | toffoli_mcnot (a b t) (h : a ≠ b ∧ a ≠ t ∧ b ≠ t) : Rule [.toffoli a b t] [.mcnot [a, b] t]
  | cz_cphase (c t) (h : c ≠ t) : Rule [.cz c t] [.cphase Real.pi c t]
  | cz_cnot (c t) (h : c ≠ t) : Rule [.cz c t] [.h t, .cnot c t, .h t]
  | cnot_flip (c t) (h : c ≠ t) : Rule [.cnot t c] [.h c, .h t, .cnot c t, .h t, .h c]
  | swap_cnot (p q) (h : p ≠ q) : Rule [.swap p q] [.cnot p q, .cnot q p, .cnot p q]
  | rzz_cnot (θ p q) (h : p ≠ q) : Rule [.rzz θ p q] [.cnot p q, .rz θ q, .cnot p q]
  | rxx_rzz (θ p q) (h : p ≠ q) : Rule [.rxx θ p q] [.h p, .h q, .rzz θ p q, .h q, .h p]
  | ryy_rxx (θ p q) (h : p ≠ q) : Rule [.ryy θ p q]
      [.u1 (-(Real.pi / 2)) p, .u1 (-(Real.pi / 2)) q, .rxx θ p q, .u1 (Real.pi / 2) q, .u1 (Real.pi / 2) p]
  | cphase_cnot (θ c t) (h : c ≠ t) : Rule [.cphase θ c t]
      [.u1 (θ / 2) c, .u1 (θ / 2) t, .cnot c t, .u1 (-(θ / 2)) t, .cnot c t]
  | cu3_cnot (θ φ l c t) (h : c ≠ t) : Rule [.cu3 θ φ l c t]
      [.rz ((l - φ) / 2) t, .cnot c t, .rz (-((φ + l) / 2)) t, .ry (-(θ / 2)) t, .cnot c t, .ry (θ / 2) t, .rz φ t]
  | toffoli_cnot (a b t) (h : a ≠ b ∧ a ≠ t ∧ b ≠ t) : Rule [.toffoli a b t]
      [.h t, .cnot b t, .u1 (-(Real.pi / 4)) t, .cnot a t, .u1 (Real.pi / 4) t, .cnot b t, .u1 (-(Real.pi / 4)) t,
        .cnot a t, .u1 (Real.pi / 4) b, .u1 (Real.pi / 4) t, .h t, .cnot a b, .u1 (Real.pi / 4) a,
        .u1 (-(Real.pi / 4)) b, .cnot a b]
  -- how errors and exchanges move through other gates
  | x_control (c t) (h : c ≠ t) : Rule [.x c, .cnot c t] [.cnot c t, .x c, .x t]
  | x_target (c t) (h : c ≠ t) : Rule [.x t, .cnot c t] [.cnot c t, .x t]
  | z_control (c t) (h : c ≠ t) : Rule [.z c, .cnot c t] [.cnot c t, .z c]
  | z_target (c t) (h : c ≠ t) : Rule [.z t, .cnot c t] [.cnot c t, .z c, .z t]
  | rz_control (θ c t) (h : c ≠ t) : Rule [.rz θ c, .cnot c t] [.cnot c t, .rz θ c]
  | rx_target (θ c t) (h : c ≠ t) : Rule [.rx θ t, .cnot c t] [.cnot c t, .rx θ t]
  | swap_cnot_move (p q) (h : p ≠ q) : Rule [.swap p q, .cnot p q] [.cnot q p, .swap p q]
  -- gates on different qubits
  | disjoint (a b : Instr N) (ha : a.WF) (hb : b.WF) (h : ∀ i ∈ a.qubits, i ∉ b.qubits) : Rule [a, b] [b, a]

/-- One gate list is obtained from the other by applying laws anywhere, in either direction, any number of times. -/
inductive Rewrites {N : ℕ} : List (Instr N) → List (Instr N) → Prop
  | refl (l) : Rewrites l l
  | step (pre post) {a b l} (r : Rule a b) (h : Rewrites (pre ++ b ++ post) l) : Rewrites (pre ++ a ++ post) l
  | back (pre post) {a b l} (r : Rule a b) (h : Rewrites (pre ++ a ++ post) l) : Rewrites (pre ++ b ++ post) l

/-- The gates that are left when everything is expressed by Hadamards, phase gates and controlled NOTs. -/
def Instr.basic {N : ℕ} : Instr N → Prop
  | .h _ | .u1 _ _ | .cnot _ _ => True
  | _ => False

end QTN.Spec
