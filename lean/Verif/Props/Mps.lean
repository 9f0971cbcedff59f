import Verif.Lemmas.MpsCircuit
import Verif.Lemmas.LosslessEx
import Verif.Lemmas.SvdExists
import Verif.Props.Circuit

/-! # Properties C16–C22 and C26: matrix product states -/

namespace QTN.Props

open QTN QTN.Spec Matrix

variable {N : ℕ}

/-! ## C16 -/

/-- C16: a non-zero state vector survives the conversion to a matrix product state and back, for
every SVD routine that keeps its contract, whenever no non-zero singular value is discarded. -/
theorem C16_round_trip {svd : SVDOracle} (hv : ValidSVD svd) (hN : 0 < N) (psi : Tensor ℂ)
    (hs : psi.shape = [1, 2 ^ N]) (h0 : ∃ x, psi.get [0, x] ≠ 0) (s : List (Tensor ℂ))
    (hl : ∀ A ∈ (StateVec2MPS svd psi N s).2, Lossless A) :
    ∃ mps s', StateVec2MPS svd psi N s = (.ok mps, s') ∧
      HoldsState mps (fun a : Bits N => psi.get [0, enc a]) ∧ MPS2StateVec mps = .ok psi := by
  have hr := row_of_shape hs
  obtain ⟨mps, s', e, hm⟩ := sv2mps_exact hv hN hr (by
    obtain ⟨x, hx⟩ := h0
    intro h
    have hx' : inB psi.shape [0, x] = true := Tensor.inB_of_get_ne hx
    rw [hs] at hx'
    simp at hx'
    obtain ⟨a, rfl⟩ := exists_enc hx'
    exact hx (congrFun h a)) hl
  obtain ⟨sv, esv, rsv⟩ := mps2sv_rep hm hN
  exact ⟨mps, s', e, holds_iff.2 hm, by rw [esv, rsv.ext hr]⟩

/-- An SVD routine exists, and `|00⟩ + i|11⟩` meets all hypotheses with it. -/
example : ∃ svd, ValidSVD svd ∧ (bellVec 1 Complex.I).shape = [1, 2 ^ 2] ∧ (∃ x, (bellVec 1 Complex.I).get [0, x] ≠ 0) ∧
    ∀ A ∈ (StateVec2MPS svd (bellVec 1 Complex.I) 2 []).2, Lossless A := by
  obtain ⟨svd, hv⟩ := exists_validSVD
  refine ⟨svd, hv, rfl, ⟨0, ?_⟩, bell_lossless hv (by norm_num) (by norm_num)⟩
  rw [show (bellVec 1 Complex.I).get [0, 0] = 1 from Tensor.get_ofFn rfl]
  exact one_ne_zero

/-- C16: with one qubit nothing is decomposed, and the round trip holds for every vector. -/
theorem C16_one_qubit (svd : SVDOracle) (psi : Tensor ℂ) (hs : psi.shape = [1, 2]) (s : List (Tensor ℂ)) :
    ∃ mps, StateVec2MPS svd psi 1 s = (.ok mps, s) ∧ MPS2StateVec mps = .ok psi := by
  have hs' : psi.shape = [1, 2 ^ 1] := by rw [hs]; rfl
  obtain ⟨t, e, st, gt⟩ := loop_last svd hs s
  have hr := row_of_shape (N := 1) hs'
  have hm : IsMPS [t] (fun a : Bits 1 => psi.get [0, enc a]) :=
    ⟨rfl, ⟨by omega, 1, st, rfl⟩, fun a => by
      show _ = psi.get [0, enc a]
      rw [bl_one, amp_single st _ _ (by omega), gt _ _ (a 0).isLt (by omega), enc_one]⟩
  obtain ⟨sv, esv, rsv⟩ := mps2sv_rep hm (by omega)
  exact ⟨[t], by rw [sv2mps_unfold svd hs', e], by rw [esv, rsv.ext hr]⟩

/-- C16, boundary: the zero vector of two or more qubits raises RuntimeError. -/
theorem C16_zero_raises {svd : SVDOracle} (hv : ValidSVD svd) (hN : 2 ≤ N) (psi : Tensor ℂ)
    (hs : psi.shape = [1, 2 ^ N]) (h0 : ∀ x, psi.get [0, x] = 0) (s : List (Tensor ℂ)) :
    ∃ s', StateVec2MPS svd psi N s = (.error .runtimeError, s') := by
  rw [sv2mps_unfold svd hs]
  obtain ⟨k, rfl⟩ : ∃ k, N = k + 2 := ⟨N - 2, by omega⟩
  have hp : 0 < 2 ^ (k + 1) := by positivity
  obtain ⟨A, eA, sA, gA⟩ := foldHalves_ok (c := psi) (D := 1) hp (by rw [hs]; congr 2; ring)
  refine ⟨s ++ [A], ?_⟩
  unfold StateVec2MPS_loop
  rw [eA, TNM.lift_ok_bind, if_neg (by omega),
    TNM.bind_error (svdTrunc_zero hv sA (by omega) hp (fun i j hi hj => ?_) s)]
  have hi' : i < 2 := by omega
  have := gA i 0 j hi' (by omega) hj
  rw [mul_one, add_zero] at this
  rw [this, h0]

/-- C16, error branch: everything that is not a `1 × 2^N` matrix is rejected. -/
theorem C16_rejects (svd : SVDOracle) (psi : Tensor ℂ) (N : ℕ) (h : psi.shape ≠ [1, 2 ^ N])
    (s : List (Tensor ℂ)) : StateVec2MPS svd psi N s = (.error .valueError, s) := by
  unfold StateVec2MPS
  by_cases hr : psi.rank = 2
  · rw [raiseIf_false (by simpa using hr), TNM.lift_ok_bind, raiseIf_true, TNM.lift_error_bind]
    by_contra hno
    push Not at hno
    apply h
    unfold Tensor.rank at hr
    match hsh : psi.shape, hr, hno with
    | [a, b], _, hno => simp at hno; simp [hno]
  · rw [raiseIf_true (by simpa using hr), TNM.lift_error_bind]

example : (Tensor.zeros [1, 8] : Tensor ℂ).shape = [1, 2 ^ 3] ∧ ∀ x, (Tensor.zeros [1, 8] : Tensor ℂ).get [0, x] = 0 :=
  ⟨rfl, fun x => by simp [Tensor.zeros, Tensor.ofFn]⟩

example : (Tensor.zeros [8, 1] : Tensor ℂ).shape ≠ [1, 2 ^ 3] := by show [8, 1] ≠ [1, 8]; decide

/-! ## C17 -/

theorem bondDim_zero {S : List ℝ} (h : bondDim S = 0) : ∀ σ ∈ S, σ ≤ 1e-8 := by
  intro σ hσ
  have := List.length_eq_zero_iff.1 h
  rw [List.filter_eq_nil_iff] at this
  have h1 := this σ hσ
  simp at h1
  exact (le_abs_self σ).trans h1

/-- C17: for every vector of the right shape, either the conversion raises RuntimeError, because all
singular values of some decomposed matrix are at most `1e-8`; or `N - 1` matrices were decomposed and
the state vector of the result differs from the input by at most the sum over them of the
root-sum-square of the discarded singular values. -/
theorem C17_error_bound {svd : SVDOracle} (hv : ValidSVD svd) (hN : 0 < N) (psi : Tensor ℂ)
    (hs : psi.shape = [1, 2 ^ N]) (s : List (Tensor ℂ)) :
    (∃ As A, StateVec2MPS svd psi N s = (.error .runtimeError, s ++ As ++ [A]) ∧
      ∀ σ ∈ (svd (s ++ As) A).S, σ ≤ 1e-8) ∨
    (∃ mps As sv, StateVec2MPS svd psi N s = (.ok mps, s ++ As) ∧ As.length = N - 1 ∧
      ValidMPS N mps ∧ MPS2StateVec mps = .ok sv ∧ sv.shape = [1, 2 ^ N] ∧
      dist2 (fun a : Bits N => psi.get [0, enc a]) (fun a => sv.get [0, enc a]) ≤
        truncLoss svd s As) := by
  rw [sv2mps_unfold svd hs]
  obtain ⟨k, rfl⟩ : ∃ k, N = k + 1 := ⟨N - 1, by omega⟩
  rcases loop_err hv k 1 psi s (by omega) hs with ⟨As, A, e, hb⟩ | ⟨lst, As, R, e, hA, hlen, hc, hR, hn⟩
  · exact .inl ⟨As, A, e, bondDim_zero hb⟩
  · right
    have hm : IsMPS lst (fun a : Bits (k + 1) => amp lst (bl a) 0 0) := ⟨hlen, hc, fun _ => rfl⟩
    obtain ⟨sv, esv, rsv⟩ := mps2sv_rep hm hN
    refine ⟨lst, As, sv, e, by omega, (holds_iff.2 hm).valid, esv, rsv.1, le_of_eq_of_le ?_ hn⟩
    unfold dist2 nrm
    rw [Finset.sum_range_one, sum_enc]
    congr 1
    apply Finset.sum_congr rfl
    intro a _
    beta_reduce
    rw [rsv.2, hR 0 (by omega)]

/-- A vector with a small component. -/
example : ∃ svd, ValidSVD svd ∧ 0 < 2 ∧ (bellVec 1 1e-9).shape = [1, 2 ^ 2] := by
  obtain ⟨svd, hv⟩ := exists_validSVD
  exact ⟨svd, hv, by omega, rfl⟩

/-! ## Operations on matrix product states -/

/-- `U @ psi.view(-1,1)` as a row, the way a user would apply a matrix to a state vector. -/
noncomputable def applyRow (u : Py (Tensor ℂ)) (sv : Tensor ℂ) : Py (Tensor ℂ) := do
  let w ← (← u).matmul (← sv.view [-1, 1])
  w.view [1, -1]

theorem applyRow_rep {u : Py (Tensor ℂ)} {M : QOp N} (hu : Computes u M) {sv : Tensor ℂ} {v : QState N}
    (h : IsRow sv v) : ∃ sv', applyRow u sv = .ok sv' ∧ IsRow sv' (M *ᵥ v) := by
  obtain ⟨U, hU, rU⟩ := hu
  obtain ⟨c, hc, rc⟩ := row_view_col h
  obtain ⟨w, hw, rw'⟩ := rU.mulCol rc
  obtain ⟨r, hr, rr⟩ := col_view_row rw'
  exact ⟨r, by unfold applyRow; rw [hU, Py.ok_bind, hc, Py.ok_bind, hw, Py.ok_bind, hr], rr⟩

/-- The operation `f` on matrix product states does what the matrix `u` (with operator `M`) does to
state vectors: on every matrix product state for which no decomposition discards a non-zero
singular value, `f` returns a matrix product state of `M v`, and the state vector computed from it
is `u` times the state vector computed from the argument.  The only exception is the zero vector,
for which a RuntimeError is possible. -/
def Evolves (f : List (Tensor ℂ) → TNM (List (Tensor ℂ))) (u : Py (Tensor ℂ)) (M : QOp N) : Prop :=
  ∀ (mps : List (Tensor ℂ)) (v : QState N) (s : List (Tensor ℂ)), HoldsState mps v →
    (∀ A ∈ (f mps s).2, Lossless A) →
    (∃ mps' s' sv sv', f mps s = (.ok mps', s') ∧ HoldsState mps' (M *ᵥ v) ∧
      MPS2StateVec mps = .ok sv ∧ MPS2StateVec mps' = .ok sv' ∧ applyRow u sv = .ok sv') ∨
    (v = 0 ∧ ∃ s', f mps s = (.error .runtimeError, s'))

theorem evolves_of {f : List (Tensor ℂ) → TNM (List (Tensor ℂ))} {u : Py (Tensor ℂ)} {M : QOp N}
    (hN : 0 < N) (hf : ∀ mps (v : QState N) s, IsMPS mps v → (∀ A ∈ (f mps s).2, Lossless A) →
    (∃ mps' s', f mps s = (.ok mps', s') ∧ IsMPS mps' (M *ᵥ v)) ∨
      (v = 0 ∧ ∃ s', f mps s = (.error .runtimeError, s'))) (hu : Computes u M) : Evolves f u M := by
  intro mps v s hm hl
  rcases hf mps v s (holds_iff.1 hm) hl with ⟨mps', s', e, hm'⟩ | h
  · left
    obtain ⟨sv, esv, rsv⟩ := mps2sv_rep (holds_iff.1 hm) hN
    obtain ⟨sv', esv', rsv'⟩ := mps2sv_rep hm' hN
    obtain ⟨sv2, e2, r2⟩ := applyRow_rep hu rsv
    exact ⟨mps', s', sv, sv', e, holds_iff.2 hm', esv, esv', by rw [e2, r2.ext rsv']⟩
  · exact .inr h

/-! ## C18 -/

/-- The single-qubit gates and the layers of single-qubit gates. -/
def Single : Item N → Prop
  | .gate (.h _) | .gate (.x _) | .gate (.y _) | .gate (.z _) | .gate (.rx _ _) | .gate (.ry _ _)
  | .gate (.rz _ _) | .gate (.u1 _ _) | .gate (.u3 _ _ _ _) | .layer _ _ _ | .hlayer _ => True
  | _ => False

theorem item_pos (it : Item N) (h : it.WF) (hs : Single it) : 0 < N := by
  have hf : Fin N → 0 < N := fun i => lt_of_le_of_lt (Nat.zero_le _) i.isLt
  cases it with
  | gate ins => cases ins <;> first | exact hs.elim | (rename_i i; exact hf i)
  | layer k ws p => exact h.1
  | hlayer ws => exact h.1
  | _ => exact hs.elim

theorem single_item (svd : SVDOracle) (it : Item N) (h : it.WF) (hs : Single it) :
    ∃ o, buildItem it = .ok o ∧ ∀ (mps : List (Tensor ℂ)) (v : QState N), IsMPS mps v →
      ∃ mps', (∀ s, o.TN_operation svd mps s = (.ok mps', s)) ∧ IsMPS mps' (it.op *ᵥ v) := by
  have key : ∀ (g : Gate) (i : Fin N) (m : Mat2), g.nqubits = (N : ℤ) → g.wires = .int (wire i) →
      Represents2 g.matrix m → (∀ mps, g.TN_operation svd mps = TNM.lift (g.single_TN_operation mps)) →
      ∀ (mps : List (Tensor ℂ)) (v : QState N), IsMPS mps v →
      ∃ mps', (∀ s, (Op.gate g).TN_operation svd mps s = (.ok mps', s)) ∧ IsMPS mps' (onQubit i m *ᵥ v) := by
    intro g i m hn hw hm hc mps v hv
    obtain ⟨mps', e, h'⟩ := single_mps i hn hw hm mps v hv
    refine ⟨mps', fun s => ?_, h'⟩
    show g.TN_operation svd mps s = _
    rw [hc, e]; rfl
  cases it with
  | gate ins =>
    cases ins with
    | h i => exact ⟨_, rfl, key _ i _ rfl rfl hadamardMat_rep (fun _ => rfl)⟩
    | x i => exact ⟨_, rfl, key _ i _ rfl rfl pauliXMat_rep (fun _ => rfl)⟩
    | y i => exact ⟨_, rfl, key _ i _ rfl rfl pauliYMat_rep (fun _ => rfl)⟩
    | z i => exact ⟨_, rfl, key _ i _ rfl rfl pauliZMat_rep (fun _ => rfl)⟩
    | rx θ i => exact ⟨_, rfl, key _ i _ rfl rfl (rotMat_rep pauliXMat_rep θ) (fun _ => rfl)⟩
    | ry θ i => exact ⟨_, rfl, key _ i _ rfl rfl (rotMat_rep pauliYMat_rep θ) (fun _ => rfl)⟩
    | rz θ i => exact ⟨_, rfl, key _ i _ rfl rfl (rotMat_rep pauliZMat_rep θ) (fun _ => rfl)⟩
    | u1 θ i => exact ⟨_, rfl, key _ i _ rfl rfl (u1Mat_rep θ) (fun _ => rfl)⟩
    | u3 θ φ l i =>
      obtain ⟨u, hu, hr⟩ := u3Mat_rep θ φ l
      refine ⟨.gate ⟨.u3, N, .int (wire i), [θ, φ, l], u, noMat⟩, ?_,
        key _ i (U3 θ φ l) rfl rfl hr (fun _ => rfl)⟩
      simp [buildItem, build, mkU3, hu, Py.ok_bind]
    | _ => exact hs.elim
  | layer k ws p =>
    obtain ⟨hN, hw, hp⟩ := h
    refine ⟨.single ⟨layerCls k, N, wires ws, p⟩, by
      simp only [buildItem]
      rw [mkSLayer_ok hw (by rw [layerCls_arity]; exact hp.symm)]
      rfl, fun mps v hm => ?_⟩
    obtain ⟨mps', e, h'⟩ := sLayer_mps (⟨layerCls k, N, wires ws, p⟩ : SLayer) rfl ws hw rfl
      (fun i => seqRot k.axes (p.drop (k.axes.length * i))) (fun _ hi => wireMat_rep k hi hp) mps v hm
    refine ⟨mps', fun s => ?_, h'⟩
    show TNM.lift (SLayer.TN_operation _ mps) s = _
    rw [e]; rfl
  | hlayer ws =>
    obtain ⟨hN, hw⟩ := h
    refine ⟨.single ⟨.h, N, wires ws, []⟩, by
      simp only [buildItem]
      rw [mkSLayer_ok hw (by simp [LayerCls.arity])]
      rfl, fun mps v hm => ?_⟩
    obtain ⟨mps', e, h'⟩ := sLayer_mps (⟨.h, N, wires ws, []⟩ : SLayer) rfl ws hw rfl
      (fun _ => H) (fun _ _ => ⟨_, rfl, hadamardMat_rep⟩) mps v hm
    refine ⟨mps', fun s => ?_, h'⟩
    show TNM.lift (SLayer.TN_operation _ mps) s = _
    rw [e]; rfl
  | _ => exact hs.elim

/-- C18: `TN_operation` of every single-qubit gate and every layer of single-qubit gates on distinct
wires, on every matrix product state: it calls no SVD, succeeds, and the state vector of the result
is `U_expand()` times the state vector of the argument. -/
theorem C18_single (svd : SVDOracle) (it : Item N) (h : it.WF) (hs : Single it) :
    ∃ o, buildItem it = .ok o ∧ ∀ (mps : List (Tensor ℂ)) (v : QState N), HoldsState mps v →
      ∃ mps' sv sv', (∀ s, o.TN_operation svd mps s = (.ok mps', s)) ∧ HoldsState mps' (it.op *ᵥ v) ∧
        MPS2StateVec mps = .ok sv ∧ MPS2StateVec mps' = .ok sv' ∧ applyRow o.U_expand sv = .ok sv' := by
  have hN := item_pos it h hs
  obtain ⟨o, ho, hf⟩ := single_item svd it h hs
  obtain ⟨o', ho', hu⟩ := item_ok it h
  rw [ho] at ho'; cases ho'
  refine ⟨o, ho, fun mps v hm => ?_⟩
  obtain ⟨mps', e, hm'⟩ := hf mps v (holds_iff.1 hm)
  obtain ⟨sv, esv, rsv⟩ := mps2sv_rep (holds_iff.1 hm) hN
  obtain ⟨sv', esv', rsv'⟩ := mps2sv_rep hm' hN
  obtain ⟨sv2, e2, r2⟩ := applyRow_rep hu rsv
  exact ⟨mps', sv, sv', e, holds_iff.2 hm', esv, esv', by rw [e2, r2.ext rsv']⟩

/-- C18: every list of tensors of matching shapes is a matrix product state of some vector, so C18
applies to it. -/
theorem C18_every_mps (mps : List (Tensor ℂ)) (h : ValidMPS N mps) :
    ∃ v : QState N, HoldsState mps v := h.holds

example : (Item.layer .yzy [2, 0] [1, 2, 3, 4, 5, 6] : Item 3).WF ∧
    Single (Item.layer .yzy [2, 0] [1, 2, 3, 4, 5, 6] : Item 3) :=
  ⟨⟨by decide, by decide, rfl⟩, trivial⟩

/-- A chain with bond dimensions 2 and 3. -/
example : ValidMPS 3 [Tensor.zeros [2, 1, 2], Tensor.ofFn [2, 2, 3] (fun _ => 1), Tensor.zeros [2, 3, 1]] :=
  ⟨rfl, fun i => match i with | 1 => 2 | 2 => 3 | _ => 1, rfl, rfl, fun i => by beta_reduce; split <;> omega,
    fun i h => by
      match i, h with
      | 0, _ => rfl
      | 1, _ => rfl
      | 2, _ => rfl⟩

/-! ## C19, C20 -/

theorem evolves_gate {svd : SVDOracle} (hv : ValidSVD svd) (hN : 0 < N) (ins : Instr N) (h : ins.WF)
    (hc : Spec.Instr.mpsOp ins) :
    ∃ g, build ins = .ok g ∧ Evolves (g.TN_operation svd) g.U_expand ins.op := by
  obtain ⟨g, hg, ha⟩ := gate_mps hv ins h hc
  obtain ⟨g', hg', hu⟩ := build_ok ins h
  rw [hg] at hg'; cases hg'
  exact ⟨g, hg, evolves_of hN ha.2.2 hu⟩

/-- The two-qubit gates with a `TN_operation` of their own. -/
def TwoQubit : Instr N → Prop
  | .cnot _ _ | .cz _ _ | .cphase _ _ _ | .cu3 _ _ _ _ _ | .swap _ _ => True
  | _ => False

/-- C19: cnot, cz, cphase, cu3 and SWAP on distinct wires, in either order and at any distance. -/
theorem C19_two_qubit {svd : SVDOracle} (hv : ValidSVD svd) (ins : Instr N) (h : ins.WF)
    (h2 : TwoQubit ins) :
    ∃ g, build ins = .ok g ∧ Evolves (g.TN_operation svd) g.U_expand ins.op := by
  have hf : Fin N → 0 < N := fun i => lt_of_le_of_lt (Nat.zero_le _) i.isLt
  cases ins
  all_goals first
    | exact h2.elim
    | (rename_i a b; exact evolves_gate hv (hf a) _ h trivial)

/-- CNOT on `(|0⟩ + 2i|1⟩)|0⟩` meets the hypotheses of `Evolves` and does not raise. -/
example : ∃ svd, ValidSVD svd ∧ ∃ (mps : List (Tensor ℂ)) (v : QState 2), HoldsState mps v ∧ v ≠ 0 ∧
    TwoQubit (.cnot 0 1 : Instr 2) ∧ (Instr.WF (.cnot 0 1 : Instr 2)) ∧
    build (.cnot 0 1 : Instr 2) = .ok (mkCnot 2 (.list [0, 1])) ∧
    ∀ A ∈ ((mkCnot 2 (.list [0, 1])).TN_operation svd mps []).2, Lossless A := by
  obtain ⟨svd, hv⟩ := exists_validSVD
  refine ⟨svd, hv, _, _, holds_iff.2 (site1_pair 1 (2 * Complex.I) 1 0), fun h => ?_, trivial,
    show (0 : Fin 2) ≠ 1 by decide, rfl, cnot_run_lossless hv (by norm_num) (by norm_num)⟩
  have := congrFun h ![0, 0]
  simp at this

/-- C20: toffoli on three distinct wires in any order. -/
theorem C20_toffoli {svd : SVDOracle} (hv : ValidSVD svd) (a b t : Fin N) (hab : a ≠ b) (hat : a ≠ t)
    (hbt : b ≠ t) :
    ∃ g, build (.toffoli a b t) = .ok g ∧
      Evolves (g.TN_operation svd) g.U_expand (controlled [a, b] t X) :=
  evolves_gate hv (lt_of_le_of_lt (Nat.zero_le _) a.isLt) (.toffoli a b t) ⟨hab, hat, hbt⟩ trivial

/-- Toffoli on `|110⟩` meets the hypotheses of `Evolves` and does not raise. -/
example : ∃ svd, ValidSVD svd ∧ ∃ (mps : List (Tensor ℂ)) (v : QState 3) (g : Gate), HoldsState mps v ∧ v ≠ 0 ∧
    build (.toffoli 0 1 2 : Instr 3) = .ok g ∧ ∀ A ∈ (g.TN_operation svd mps []).2, Lossless A := by
  obtain ⟨svd, hv⟩ := exists_validSVD
  refine ⟨svd, hv, [site1 0 1, site1 0 1, site1 1 0], fun a => if a 0 = 1 ∧ a 1 = 1 ∧ a 2 = 0 then 1 else 0, _,
    holds_iff.2 ⟨rfl, ⟨by omega, 1, rfl, by omega, 1, rfl, by omega, 1, rfl, rfl⟩, fun a => ?_⟩, fun h => ?_, rfl,
    toffoli_run_lossless hv rfl⟩
  · rw [bl_three, amp_triple (A := site1 0 1) (B := site1 0 1) (C := site1 1 0) rfl rfl rfl _ _ _ _
      (by omega : 0 < 1)]
    simp only [Finset.sum_range_one]
    generalize a 0 = x, a 1 = y, a 2 = z
    fin_cases x <;> fin_cases y <;> fin_cases z <;> simp [site1_get0, site1_get1]
  · have := congrFun h ![1, 1, 0]
    simp at this

/-! ## C21 -/

/-- C21: `ring_of_cnot` and its dagger on the wires `0, …, N-1`. -/
theorem C21_ring {svd : SVDOracle} (hv : ValidSVD svd) (h2 : 2 ≤ N) :
    Evolves ((⟨.ring, N, wires (List.finRange N)⟩ : Ring).TN_operation svd)
      (⟨.ring, N, wires (List.finRange N)⟩ : Ring).U_expand (ringOp 1 (List.finRange N)) ∧
    Evolves ((⟨.dagger, N, wires (List.finRange N)⟩ : Ring).TN_operation svd)
      (⟨.dagger, N, wires (List.finRange N)⟩ : Ring).U_expand (ringDagOp (List.finRange N)) := by
  have hw : (Item.ring (List.finRange N)).WF := ⟨List.nodup_finRange N, by simpa using h2⟩
  have hw' : (Item.ringDag (List.finRange N)).WF := ⟨List.nodup_finRange N, by simpa using h2⟩
  constructor
  · obtain ⟨o, ho, -, ha⟩ := item_mps hv _ hw rfl
    obtain ⟨o', ho', hu⟩ := item_ok _ hw
    rw [ho] at ho'; cases ho'
    obtain rfl : o = .ring ⟨.ring, N, wires (List.finRange N)⟩ := by
      simp only [buildItem] at ho
      rw [mkRing_ok (List.nodup_finRange N) (by simpa using h2)] at ho
      exact (Except.ok.inj ho).symm
    exact evolves_of (by omega) ha.2.2 hu
  · obtain ⟨o, ho, -, ha⟩ := item_mps hv _ hw' rfl
    obtain ⟨o', ho', hu⟩ := item_ok _ hw'
    rw [ho] at ho'; cases ho'
    obtain rfl : o = .ring ⟨.dagger, N, wires (List.finRange N)⟩ := by
      simp only [buildItem] at ho
      rw [mkRing_ok (List.nodup_finRange N) (by simpa using h2)] at ho
      exact (Except.ok.inj ho).symm
    exact evolves_of (by omega) ha.2.2 hu

/-- The ring on two qubits on `(|0⟩ + 2i|1⟩)|0⟩`. -/
example : ∃ svd, ValidSVD svd ∧ ∃ (mps : List (Tensor ℂ)) (v : QState 2), HoldsState mps v ∧ v ≠ 0 ∧
    (∀ A ∈ ((⟨.ring, 2, wires (List.finRange 2)⟩ : Ring).TN_operation svd mps []).2, Lossless A) ∧
    ∀ A ∈ ((⟨.dagger, 2, wires (List.finRange 2)⟩ : Ring).TN_operation svd mps []).2, Lossless A := by
  obtain ⟨svd, hv⟩ := exists_validSVD
  have hl := cnot_run_lossless hv (p := 1) (q := 2 * Complex.I) (by norm_num) (by norm_num)
  refine ⟨svd, hv, _, _, holds_iff.2 (site1_pair 1 (2 * Complex.I) 1 0), fun h => ?_, ?_, ?_⟩
  · have := congrFun h ![0, 0]
    simp at this
  · have e : (⟨.ring, 2, wires (List.finRange 2)⟩ : Ring).TN_operation svd [site1 1 (2 * Complex.I), site1 1 0] =
        (((mkCnot 2 (.list [0, 1])).TN_operation svd [site1 1 (2 * Complex.I), site1 1 0] >>= fun a => pure a)
          >>= fun a => pure a) := rfl
    rw [e, TNM.bind_pure, TNM.bind_pure]
    exact hl
  · have e : (⟨.dagger, 2, wires (List.finRange 2)⟩ : Ring).TN_operation svd [site1 1 (2 * Complex.I), site1 1 0] =
        (mkCnot 2 (.list [0, 1])).TN_operation svd [site1 1 (2 * Complex.I), site1 1 0] := rfl
    rw [e]
    exact hl

/-- C21: these objects are what the constructors `ring_of_cnot(N, list(range(N)))` and
`ring_of_cnot_dagger(N, list(range(N)))` return. -/
theorem C21_constructed (h2 : 2 ≤ N) :
    mkRing .ring N (pyRange (N : ℤ)) = .ok ⟨.ring, N, wires (List.finRange N)⟩ ∧
    mkRing .dagger N (pyRange (N : ℤ)) = .ok ⟨.dagger, N, wires (List.finRange N)⟩ := by
  rw [← wires_finRange]
  exact ⟨mkRing_ok (List.nodup_finRange N) (by simpa using h2),
    mkRing_ok (List.nodup_finRange N) (by simpa using h2)⟩

/-- C21, error branch: rings on any other wire list raise ValueError, whatever the list of tensors. -/
theorem C21_other_wires (svd : SVDOracle) (n : ℤ) (ws : List ℤ) (h : ws ≠ pyRange n)
    (mps s : List (Tensor ℂ)) :
    (⟨.ring, n, ws⟩ : Ring).TN_operation svd mps s = (.error .valueError, s) ∧
    (⟨.dagger, n, ws⟩ : Ring).TN_operation svd mps s = (.error .valueError, s) := by
  constructor
  · unfold Ring.TN_operation
    dsimp only
    rw [raiseIf_true h, TNM.lift_error_bind]
  · unfold Ring.TN_operation
    dsimp only
    rw [raiseIf_true h, TNM.lift_error_bind]

example : ([1, 0, 2] : List ℤ) ≠ pyRange 3 := by decide

/-! ## C22 -/

/-- The operations with a working `TN_operation`: not rxx, ryy, rzz, multi_control_cnot,
ring_of_cnot2, BasicEntangleLayer (no such method), and CNOT rings only on the wires `0, …, N-1`. -/
def HasTN : Item N → Prop
  | .gate (.rxx _ _ _) | .gate (.ryy _ _ _) | .gate (.rzz _ _ _) | .gate (.mcnot _ _) => False
  | .ring ws | .ringDag ws => ws = List.finRange N
  | .ring2 _ | .basic _ _ _ => False
  | _ => True

theorem hasTN_iff {it : Item N} (h : HasTN it) : Spec.Item.mpsOp it := by
  cases it with
  | gate ins => cases ins <;> trivial
  | ring ws => exact h
  | ringDag ws => exact h
  | ring2 ws => exact h.elim
  | basic ws p r => exact h.elim
  | _ => trivial

/-- C22: `TN_evolution` of every circuit of operations with a `TN_operation` does to matrix product
states what `U()` does to state vectors. -/
theorem C22_evolution {svd : SVDOracle} (hv : ValidSVD svd) (hN : 0 < N) (l : List (Item N))
    (h : ∀ it ∈ l, it.WF) (hc : ∀ it ∈ l, HasTN it) :
    ∃ ops, l.mapM buildItem = .ok ops ∧
      Evolves ((circ N ops).TN_evolution svd) (circ N ops).U (circuitOp l) := by
  obtain ⟨ops, hops, hF, hU⟩ := items_mps hv l h (fun it hit => hasTN_iff (hc it hit))
  refine ⟨ops, hops, evolves_of hN ?_ (C13_circuit_U N ops _ hU).1⟩
  exact (circuit_acts (circ N ops) (circ_nqubits N ops) _ (by rw [circ_gate]; exact hF)).2.2

/-- The Bell circuit on `|00⟩`. -/
example : ∃ svd, ValidSVD svd ∧ ∃ (mps : List (Tensor ℂ)) (v : QState 2) (ops : List Op), HoldsState mps v ∧ v ≠ 0 ∧
    [Item.gate (.h (0 : Fin 2)), .gate (.cnot 0 1)].mapM buildItem = .ok ops ∧
    ∀ A ∈ ((circ 2 ops).TN_evolution svd mps []).2, Lossless A := by
  obtain ⟨svd, hv⟩ := exists_validSVD
  have hm := site1_pair 1 0 1 0
  obtain ⟨o, ho, hf⟩ := single_item svd (Item.gate (.h (0 : Fin 2))) trivial trivial
  obtain ⟨mps', e, hm'⟩ := hf _ _ hm
  refine ⟨svd, hv, _, _, [o, .gate (mkCnot 2 (.list [0, 1]))], holds_iff.2 hm, fun h => ?_, ?_, ?_⟩
  · have := congrFun h ![0, 0]
    simp at this
  · rw [List.mapM_cons, ho, Py.ok_bind]; rfl
  · obtain ⟨A', eA, sA, gA⟩ := cnot_log_state hv hm' []
    have : ((circ 2 [o, .gate (mkCnot 2 (.list [0, 1]))]).TN_evolution svd [site1 1 0, site1 1 0] []).2 = [A'] := by
      unfold Circuit.TN_evolution
      have hs : o.supportTN = true := by cases ho; rfl
      rw [raiseIf_false (by simp [circ_nqubits]), TNM.lift_ok_bind, circ_gate, List.foldlM_cons, if_pos hs,
        TNM.bind_ok (e [])]
      show ((((mkCnot 2 (.list [0, 1])).TN_operation svd mps') >>= fun a => pure a) []).2 = _
      rw [TNM.bind_pure, eA]; rfl
    rw [this]
    intro A hA
    obtain rfl := List.mem_singleton.1 hA
    have hn : ‖(((Real.sqrt 2)⁻¹ : ℝ) : ℂ)‖ > 1e-8 := by
      rw [Complex.norm_real, Real.norm_eq_abs, abs_of_pos (by positivity)]
      have h2 : Real.sqrt 2 < 2 := by
        rw [Real.sqrt_lt' (by norm_num)]; norm_num
      have := inv_strictAnti₀ (by positivity) h2
      norm_num at this ⊢
      linarith
    refine lossless_diag2 sA hn hn ?_
    rw [gA]
    ext i j
    simp only [Matrix.mulVec, dotProduct]
    rw [sum_bits2]
    simp only [sum_bits2]
    fin_cases i <;> fin_cases j <;>
      simp [controlled, onQubit, Spec.X, H, Fin.forall_fin_two, Matrix.one_apply, Item.op, Instr.op]

/-- C22, error branch: a list of tensors of the wrong length raises ValueError. -/
theorem C22_wrong_length (svd : SVDOracle) (c : Circuit) (mps s : List (Tensor ℂ))
    (h : mps.length ≠ c.nqubits) : c.TN_evolution svd mps s = (.error .valueError, s) := by
  unfold Circuit.TN_evolution
  rw [raiseIf_true h, TNM.lift_error_bind]

theorem tnm_foldlM_raises {α β : Type} (f : β → α → TNM β) : ∀ (l : List α) (x : α), x ∈ l →
    (∀ b s, ∃ e s', f b x s = (.error e, s')) → ∀ b s, ∃ e s', l.foldlM f b s = (.error e, s') := by
  intro l
  induction l with
  | nil => intro x hx; simp at hx
  | cons y l ih =>
    intro x hx h b s
    rw [List.foldlM_cons]
    rcases hy : f b y s with ⟨e | b', s'⟩
    · exact ⟨e, s', TNM.bind_error hy _⟩
    · rw [TNM.bind_ok hy]
      rcases List.mem_cons.1 hx with rfl | hx
      · obtain ⟨e, s'', he⟩ := h b s
        rw [hy] at he
        simp at he
      · exact ih x hx h b' s'

theorem tnm_foldlM_append {α β : Type} {f : β → α → TNM β} {l l' : List α} {b b' : β}
    {s s' : List (Tensor ℂ)} (h : l.foldlM f b s = (.ok b', s')) :
    (l ++ l').foldlM f b s = l'.foldlM f b' s' := by
  induction l generalizing b s with
  | nil => cases h; rfl
  | cons y l ih =>
    rw [List.foldlM_cons] at h
    rw [List.cons_append, List.foldlM_cons]
    rcases hy : f b y s with ⟨e | b1, s1⟩
    · rw [TNM.bind_error hy] at h
      cases h
    · rw [TNM.bind_ok hy] at h ⊢
      exact ih h

/-- C22, error branch: a circuit with an operation flagged `supportTN=False` raises. -/
theorem C22_unsupported_raises (svd : SVDOracle) (N : ℕ) (ops : List Op) (o : Op) (ho : o ∈ ops)
    (hs : o.supportTN = false) (mps s : List (Tensor ℂ)) :
    ∃ e s', (circ N ops).TN_evolution svd mps s = (.error e, s') := by
  by_cases hl : mps.length = (circ N ops).nqubits
  · unfold Circuit.TN_evolution
    rw [raiseIf_false (by simpa using hl), TNM.lift_ok_bind, circ_gate]
    exact tnm_foldlM_raises _ ops o ho (fun b s => ⟨.valueError, s, by
      rw [if_neg (by simp [hs])]; rfl⟩) mps s
  · exact ⟨_, _, C22_wrong_length svd _ mps s hl⟩

/-- C22, error branch: the error is ValueError when the operations before the unsupported one succeed. -/
theorem C22_unsupported (svd : SVDOracle) (N : ℕ) (pre post : List Op) (o : Op)
    (hs : o.supportTN = false) (mps mps' s s' : List (Tensor ℂ)) (hl : mps.length = N)
    (hpre : (circ N pre).TN_evolution svd mps s = (.ok mps', s')) :
    (circ N (pre ++ o :: post)).TN_evolution svd mps s = (.error .valueError, s') := by
  unfold Circuit.TN_evolution at hpre ⊢
  rw [raiseIf_false (by simp [circ_nqubits, hl]), TNM.lift_ok_bind, circ_gate] at hpre ⊢
  rw [tnm_foldlM_append hpre, List.foldlM_cons, if_neg (by simp [hs])]
  exact TNM.lift_error_bind _ _ _

example : ∀ it ∈ [Item.gate (.h (0 : Fin 3)), .ring (List.finRange 3), .layer .yzy [2, 0] [1, 2, 3, 4, 5, 6],
    .gate (.toffoli 2 0 1), .gate (.cu3 1 2 3 2 0)], Item.WF it ∧ HasTN it := by
  intro it hit
  simp only [List.mem_cons, List.not_mem_nil, or_false] at hit
  rcases hit with rfl | rfl | rfl | rfl | rfl
  · exact ⟨trivial, trivial⟩
  · exact ⟨⟨by decide, by decide⟩, rfl⟩
  · exact ⟨⟨by decide, by decide, rfl⟩, trivial⟩
  · exact ⟨⟨by decide, by decide, by decide⟩, trivial⟩
  · exact ⟨by show (2 : Fin 3) ≠ 0; decide, trivial⟩

example : ∃ o, buildItem (.ring2 [0, 1, 2] : Item 3) = .ok o ∧ o.supportTN = false := ⟨_, rfl, rfl⟩

/-! ## C26 -/

/-- C26: for every matrix product state of at least one site, `MPS2StateVec(mps, return_sv=False)` is
the rank-`N` tensor of the amplitudes, and its row-major flattening is `MPS2StateVec(mps)`. -/
theorem C26_modes_agree (hN : 0 < N) (mps : List (Tensor ℂ)) (v : QState N) (h : HoldsState mps v) :
    ∃ T sv, MPS2StateVec_tensor mps = .ok T ∧ MPS2StateVec mps = .ok sv ∧ IsTen T v ∧ IsRow sv v ∧
      T.view [1, -1] = .ok sv := by
  obtain ⟨T, eT, rT⟩ := mps2ten_rep (holds_iff.1 h) hN
  obtain ⟨sv, esv, rsv⟩ := mps2sv_rep (holds_iff.1 h) hN
  refine ⟨T, sv, eT, esv, rT, rsv, ?_⟩
  have hn : T.numel = 2 ^ N := by simp [Tensor.numel, rT.1]
  have e := Tensor.view_neg_last T 1 (2 ^ N) (by simp [hn]) (by simp)
  refine e.trans (congrArg _ (Spec.IsRow.ext (v := v) ⟨rfl, fun a => ?_⟩ rsv))
  rw [Tensor.reshapeN_get_eq (idx' := bl a) (by simp [enc_lt]) (by rw [rT.1]; exact inB_bl a)
    (by rw [rT.1, ← enc_eq_ravel]; simp [ravel]), rT.2]

/-- C26, boundary: both modes raise on the empty list (the accumulator is never assigned). -/
theorem C26_empty : MPS2StateVec [] = .error .unboundLocal ∧
    MPS2StateVec_tensor [] = .error .unboundLocal := ⟨rfl, rfl⟩

end QTN.Props
