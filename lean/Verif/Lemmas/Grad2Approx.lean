import Verif.Lemmas.GradApprox
import Verif.Props.Grad2

/-! # Runs of `save_mid_MPS` and `cal_params_grad2` when decompositions discard something -/

namespace QTN

open Spec Matrix QTN.Props

variable {N : ℕ}

/-- What one decomposition can discard. -/
noncomputable def cutUnit (N : ℕ) : ℝ := 1e-8 * Real.sqrt (2 ^ (N / 2))

theorem cutUnit_nonneg (N : ℕ) : 0 ≤ cutUnit N := by unfold cutUnit; positivity

/-- Decompositions made by the operations. -/
def cuts (l : List (Item N)) : ℕ := (l.map Item.decomps).sum

theorem cuts_append (l m : List (Item N)) : cuts (l ++ m) = cuts l + cuts m := by simp [cuts]

theorem cuts_cons (a : Item N) (m : List (Item N)) : cuts (a :: m) = a.decomps + cuts m := by simp [cuts]

theorem accuracy_eq (l : List (Item N)) : accuracy l = ((N - 1 + cuts l : ℕ) : ℝ) * cutUnit N := rfl

/-- The sites hold `w` up to what `k` decompositions can discard. -/
def Near (mps : List (Tensor ℂ)) (w : QState N) (k : ℕ) : Prop :=
  ∃ w', IsMPS mps w' ∧ BoundedMPS N mps ∧ (∀ t ∈ mps, Contr t) ∧ dist2 w' w ≤ k * cutUnit N

theorem near_step {svd : SVDOracle} (hv : ValidSVD svd) {it : Item N} {o : Op} (h : it.WF) (hc : HasTN it)
    (hb : Built it o) {mps : List (Tensor ℂ)} {w : QState N} {k : ℕ} (hm : Near mps w k)
    (hk : ((k + it.decomps : ℕ) : ℝ) * cutUnit N < norm2 w) (s : List (Tensor ℂ)) :
    ∃ mps' s', o.TN_operation svd mps s = (.ok mps', s') ∧ Near mps' (it.op *ᵥ w) (k + it.decomps) := by
  obtain ⟨o1, ho1, -, hw⟩ := (withinTheory N hv).item it h (hasTN_iff hc)
  obtain ⟨o2, ho2, -, hs⟩ := (smallTheory N hv).item it h (hasTN_iff hc)
  have e1 : o1 = o := by unfold Built at hb; rw [ho1] at hb; cases hb; rfl
  have e2 : o2 = o := by unfold Built at hb; rw [ho2] at hb; cases hb; rfl
  subst e1; subst e2
  obtain ⟨w', m1, b1, c1, d1⟩ := hm
  obtain ⟨Cs, ec, hsm, hbd⟩ := hs mps s b1
  push_cast at hk ⊢
  rw [add_mul] at hk
  have hU : IsUnitaryOp it.op := hw.1
  rcases hw.2 mps w' s m1 c1 with ⟨mps', As, v', e, l1, m2, c2, d2⟩ | ⟨As, e, l1, d2⟩
  · refine ⟨mps', _, e, v', m2, hbd mps' (by rw [e]), c2, ?_⟩
    rw [e, List.append_cancel_left_eq] at ec
    have h1 := truncLoss_le hv As s (by rw [ec]; exact hsm)
    rw [l1] at h1
    have h2 := dist2_triangle v' (it.op *ᵥ w') (it.op *ᵥ w)
    rw [dist2_unitary hU] at h2
    have h3 : (it.decomps : ℝ) * (1e-8 * Real.sqrt (2 ^ (N / 2))) = it.decomps * cutUnit N := rfl
    push_cast
    rw [add_mul]
    linarith
  · exfalso
    rw [e, List.append_cancel_left_eq] at ec
    have h1 := truncLoss_le hv As s (by rw [ec]; exact hsm)
    have h2 : (As.length : ℝ) * cutUnit N ≤ it.decomps * cutUnit N := by
      have : (As.length : ℝ) ≤ it.decomps := by exact_mod_cast l1
      exact mul_le_mul_of_nonneg_right this (cutUnit_nonneg N)
    have h3 : (As.length : ℝ) * (1e-8 * Real.sqrt (2 ^ (N / 2))) = As.length * cutUnit N := rfl
    have h4 := norm2_le_dist w w'
    linarith

theorem near_start {svd : SVDOracle} (hv : ValidSVD svd) (hN : 0 < N) {psi : Tensor ℂ} {v : QState N}
    (h : IsRow psi v) (hn : norm2 v ≤ 1) (hk : ((N - 1 : ℕ) : ℝ) * cutUnit N < norm2 v) (s : List (Tensor ℂ)) :
    ∃ mps s', StateVec2MPS svd psi N s = (.ok mps, s') ∧ Near mps v (N - 1) := by
  obtain ⟨As, hA, ⟨mps, v', e1, l1, m1, b1, c1, d1⟩ | ⟨e1, l1, d1⟩⟩ := sv2mps_within hv hN h hn s
  · refine ⟨mps, _, e1, v', m1, b1, c1, ?_⟩
    have := truncLoss_le hv As s hA
    rw [l1] at this
    exact d1.trans this
  · exfalso
    have h1 := truncLoss_le hv As s hA
    have h2 : (As.length : ℝ) * cutUnit N ≤ ((N - 1 : ℕ) : ℝ) * cutUnit N := by
      have : (As.length : ℝ) ≤ ((N - 1 : ℕ) : ℝ) := by exact_mod_cast l1
      exact mul_le_mul_of_nonneg_right this (cutUnit_nonneg N)
    have h3 : (As.length : ℝ) * (1e-8 * Real.sqrt (2 ^ (N / 2))) = As.length * cutUnit N := rfl
    linarith

theorem cut_mono {a b : ℕ} (h : a ≤ b) : (a : ℝ) * cutUnit N ≤ b * cutUnit N :=
  mul_le_mul_of_nonneg_right (by exact_mod_cast h) (cutUnit_nonneg N)

/-- Key `k` holds the state before operation `k + 1`, approximately. -/
def NearF (l : List (Item N)) (v : QState N) (d : PShift.Saved) (m : ℕ) : Prop :=
  ∀ k it, k < m → l[k + 1]? = some it → it.params ≠ [] →
    ∃ mps, d k = some mps ∧ Near mps (circuitOp (l.take (k + 1)) *ᵥ v) (N - 1 + cuts (l.take (k + 1)))

/-- Key `2n-k-2` holds the measured state taken back to just after operation `k`, approximately. -/
def NearB (l : List (Item N)) (w : QState N) (K : ℕ) (d : PShift.Saved) (m : ℕ) : Prop :=
  ∀ k it, m ≤ k + 1 → l[k]? = some it → it.params ≠ [] →
    ∃ mps, d (2 * l.length - k - 2) = some mps ∧ Near mps ((circuitOp (l.drop (k + 1)))ᴴ *ᵥ w)
      (K + cuts (l.drop (k + 1)))

theorem nearF_update {l : List (Item N)} {v : QState N} {d : PShift.Saved} (hF : NearF l v d l.length)
    {j : ℕ} (hj : l.length - 1 ≤ j) (p : Prop) [Decidable p] (m : List (Tensor ℂ)) :
    NearF l v (if p then Function.update d j (some m) else d) l.length := by
  intro k x hk hx hp
  obtain ⟨m2, e2, h2⟩ := hF k x hk hx hp
  refine ⟨m2, ?_, h2⟩
  have hlt : k + 1 < l.length := by
    by_contra hge
    rw [List.getElem?_eq_none (by omega)] at hx
    cases hx
  split_ifs
  · rw [Function.update_of_ne (by omega)]; exact e2
  · exact e2

section
variable {svd : SVDOracle} {v : QState N} {l : List (Item N)} {ops : List Op}

theorem forward_near (hv : ValidSVD svd) (hw : ∀ it ∈ l, it.WF) (hc : ∀ it ∈ l, HasTN it)
    (hk : accuracy l < norm2 v)
    (hb : List.Forall₂ Built l ops) {post : List (Item N)} {opost : List Op}
    (hpost : List.Forall₂ Built post opost) : ∀ (pre : List (Item N)), pre ++ post = l →
    ∀ (mps : List (Tensor ℂ)) (d : PShift.Saved) (s : List (Tensor ℂ)),
    Near mps (circuitOp pre *ᵥ v) (N - 1 + cuts pre) → NearF l v d pre.length →
    ∃ mps' d' s', PShift.saveForward svd ops pre.length opost mps d s = (.ok (mps', d'), s') ∧
      Near mps' (circuitOp l *ᵥ v) (N - 1 + cuts l) ∧ NearF l v d' l.length := by
  induction hpost with
  | nil =>
    intro pre hpre mps d s hm hF
    rw [List.append_nil] at hpre
    subst hpre
    exact ⟨mps, d, s, rfl, hm, hF⟩
  | @cons it o post opost ho hpost ih =>
    intro pre hpre mps d s hm hF
    have hmem : it ∈ l := by rw [← hpre]; simp
    have hs := (built_acts hv (hw it hmem) (hc it hmem) ho).1
    have hwp : ∀ x ∈ pre, x.WF := fun x hx => hw x (by rw [← hpre]; simp [hx])
    unfold PShift.saveForward
    rw [if_pos hs]
    obtain ⟨m1, s1, e1, h1⟩ := near_step hv (hw it hmem) (hc it hmem) ho hm (by
      rw [norm2_unitary (circuitOp_unitary pre hwp)]
      refine lt_of_le_of_lt ?_ hk
      rw [accuracy_eq]
      refine cut_mono ?_
      rw [← hpre, cuts_append, cuts_cons]
      omega) s
    rw [TNM.bind_ok e1]
    have hpre' : (pre ++ [it]) ++ post = l := by rw [List.append_assoc, List.singleton_append, hpre]
    have hlen : (pre ++ [it]).length = pre.length + 1 := by simp
    have htake : l.take (pre.length + 1) = pre ++ [it] := by rw [← hpre', ← hlen, List.take_left']; rfl
    rw [Matrix.mulVec_mulVec, ← circuitOp_snoc, show N - 1 + cuts pre + it.decomps = N - 1 + cuts (pre ++ [it]) by
      rw [cuts_append, cuts_cons]; simp [cuts]; omega] at h1
    have ih' := ih (pre ++ [it]) hpre' m1
    rw [hlen] at ih'
    refine ih' _ s1 h1 ?_
    intro k x hk hx hp
    have hn : ops.length = l.length := hb.length_eq.symm
    rcases Nat.lt_succ_iff_lt_or_eq.1 hk with hk | rfl
    · obtain ⟨m2, e2, h2⟩ := hF k x hk hx hp
      refine ⟨m2, ?_, h2⟩
      split_ifs
      · rw [Function.update_of_ne (by omega)]; exact e2
      · exact e2
    · refine ⟨m1, ?_, by rw [htake]; exact h1⟩
      obtain ⟨o', ho', hnum⟩ := built_num hw hb hx hp
      have hlt : pre.length + 1 < l.length := by
        by_contra hge
        rw [List.getElem?_eq_none (by omega)] at hx
        cases hx
      rw [if_pos ⟨by omega, o', ho', hnum⟩, Function.update_self]

theorem backward_near (hv : ValidSVD svd) {w : QState N} {K : ℕ} (hK : ((K + cuts l : ℕ) : ℝ) * cutUnit N < norm2 w)
    (hw : ∀ it ∈ l, it.WF) (hc : ∀ it ∈ l, HasTN it) (hb : List.Forall₂ Built l ops) : ∀ (m : ℕ), m ≤ l.length →
    ∀ (mps : List (Tensor ℂ)) (d : PShift.Saved) (s : List (Tensor ℂ)),
    Near mps ((circuitOp (l.drop m))ᴴ *ᵥ w) (K + cuts (l.drop m)) → NearF l v d l.length → NearB l w K d m →
    ∃ mps' d' s', PShift.saveBackward svd ops m mps d s = (.ok (mps', d'), s') ∧
      NearF l v d' l.length ∧ NearB l w K d' 0 := by
  intro m
  induction m with
  | zero => intro _ mps d s _ hF hB; exact ⟨mps, d, s, rfl, hF, hB⟩
  | succ idx ih =>
    intro hm mps d s hmps hF hB
    have hn : ops.length = l.length := hb.length_eq.symm
    have hidx : idx < l.length := by omega
    have hmem : l[idx] ∈ l := List.getElem_mem hidx
    obtain ⟨o, it', o', hbo, hw', hc', hop, hbo', hdag, hcut⟩ := item_dagger_tn l[idx] (hw _ hmem) (hc _ hmem)
    have hs := (built_acts hv hw' hc' hbo').1
    obtain ⟨o2, ho2, hbo2⟩ := built_get hb (List.getElem?_eq_getElem hidx)
    have : o2 = o := by unfold Built at hbo hbo2; rw [hbo] at hbo2; cases hbo2; rfl
    subst this
    have hget : pyGet ops (idx : ℤ) = .ok o2 := by
      rw [pyGet_nat (by omega)]
      congr 1
      rw [List.getElem?_eq_getElem (by omega)] at ho2
      exact Option.some.inj ho2
    have hwd : ∀ x ∈ l.drop (idx + 1), x.WF := fun x hx => hw x (List.drop_subset _ _ hx)
    have hUd := circuitOp_unitary _ hwd
    have hUd' : IsUnitaryOp (circuitOp (l.drop (idx + 1)))ᴴ :=
      ⟨by rw [Matrix.conjTranspose_conjTranspose]; exact hUd.2, by rw [Matrix.conjTranspose_conjTranspose]; exact hUd.1⟩
    have hcd : cuts (l.drop idx) = it'.decomps + cuts (l.drop (idx + 1)) := by
      rw [List.drop_eq_getElem_cons hidx, cuts_cons, hcut]
    have hle : cuts (l.drop idx) ≤ cuts l := by
      conv_rhs => rw [← List.take_append_drop idx l, cuts_append]
      omega
    unfold PShift.saveBackward
    rw [hget, TNM.lift_ok_bind, hdag, TNM.lift_ok_bind]
    dsimp only
    rw [if_pos hs]
    obtain ⟨m1, s1, e1, h1⟩ := near_step hv hw' hc' hbo' hmps (by
      rw [norm2_unitary hUd']
      exact lt_of_le_of_lt (cut_mono (by omega)) hK) s
    rw [TNM.bind_ok e1]
    have hdrop : (circuitOp (l.drop idx))ᴴ *ᵥ w = it'.op *ᵥ ((circuitOp (l.drop (idx + 1)))ᴴ *ᵥ w) := by
      rw [List.drop_eq_getElem_cons hidx, circuitOp_cons, Matrix.conjTranspose_mul, Matrix.mulVec_mulVec, hop]
    rw [← hdrop, show K + cuts (l.drop (idx + 1)) + it'.decomps = K + cuts (l.drop idx) by omega] at h1
    refine ih (by omega) m1 _ s1 h1 ?_ ?_
    · exact nearF_update hF (by omega) _ _
    · intro k x hk hx hp
      have hlt : k < l.length := by
        by_contra hge
        rw [List.getElem?_eq_none (by omega)] at hx
        cases hx
      rcases Nat.lt_or_ge k idx with hki | hki
      · obtain rfl : idx = k + 1 := by omega
        refine ⟨m1, ?_, h1⟩
        obtain ⟨o', ho', hnum⟩ := built_num hw hb hx hp
        rw [if_pos ⟨by omega, o', by simpa using ho', hnum⟩,
          show 2 * l.length - k - 2 = 2 * ops.length - (k + 1) - 1 by omega, Function.update_self]
      · obtain ⟨m2, e2, h2⟩ := hB k x (by omega) hx hp
        refine ⟨m2, ?_, h2⟩
        split_ifs
        · rw [Function.update_of_ne (by omega)]; exact e2
        · exact e2

theorem save_near (hv : ValidSVD svd) (hN : 0 < N) (hn1 : norm2 v ≤ 1) (hw : ∀ it ∈ l, it.WF)
    (hc : ∀ it ∈ l, HasTN it) (hb : List.Forall₂ Built l ops) (hne : l ≠ []) {ps : PShift}
    (hi : IsRow ps.init_state v) {c : Circuit} (hn : c.nqubits = N) (hg : c.gate = ops) {m : Item N} {mo : Op}
    (hm : m.WF) (hmc : HasTN m) (hmo : Built m mo) (ha : accuracy (l ++ m :: l) < norm2 v)
    (s : List (Tensor ℂ)) :
    ∃ d psi w s', ps.save_mid_MPS svd c mo s = (.ok (d, psi), s') ∧ IsRow psi w ∧
      dist2 w (circuitOp l *ᵥ v) ≤ accuracy l ∧
      NearF l v d l.length ∧ NearB l (m.op *ᵥ (circuitOp l *ᵥ v)) (N - 1 + cuts l + m.decomps) d 0 := by
  subst hg
  have hlen : c.gate.length = l.length := hb.length_eq.symm
  have hpos : 0 < l.length := List.length_pos_iff.2 hne
  rw [accuracy_eq, cuts_append, cuts_cons] at ha
  unfold PShift.save_mid_MPS
  rw [hn]
  obtain ⟨m1, s1, e1, h1⟩ := near_start hv hN hi hn1 (lt_of_le_of_lt (cut_mono (by omega)) ha) s
  rw [TNM.bind_ok e1]
  have hl1 : m1.length = N := by
    obtain ⟨w', hh, -⟩ := h1
    exact hh.1
  rw [show raiseIf (m1.length ≠ N) PyErr.valueError = .ok () by simp [raiseIf, hl1], TNM.lift_ok_bind]
  have hm0 : Near m1 (circuitOp ([] : List (Item N)) *ᵥ v) (N - 1 + cuts ([] : List (Item N))) := by
    have : circuitOp ([] : List (Item N)) = 1 := rfl
    rw [this, Matrix.one_mulVec]; exact h1
  have hal : accuracy l < norm2 v := by
    rw [accuracy_eq]
    exact lt_of_le_of_lt (cut_mono (by omega)) ha
  obtain ⟨m2, d2, s2, e2, h2, hF2⟩ := forward_near hv hw hc hal hb hb [] rfl m1 (fun _ => none) s1 hm0
    (fun k _ hk => absurd hk (by simp))
  have e2' : PShift.saveForward svd c.gate 0 c.gate m1 (fun _ => none) s1 = (.ok (m2, d2), s2) := e2
  rw [TNM.bind_ok e2']
  dsimp only
  obtain ⟨w, hm2, -, -, hd2⟩ := id h2
  obtain ⟨psi, e3, h3⟩ := mps2sv_rep hm2 hN
  rw [e3, TNM.lift_ok_bind]
  have hUl := circuitOp_unitary l hw
  obtain ⟨m4', s4, e4, h4⟩ := near_step hv hm hmc hmo h2 (by
    rw [norm2_unitary hUl]
    exact lt_of_le_of_lt (cut_mono (by omega)) ha) s2
  rw [TNM.bind_ok e4]
  obtain ⟨o, ho, hbo⟩ := built_get hb (List.getElem?_eq_getElem (show l.length - 1 < l.length by omega))
  have hget : pyGet c.gate ((c.gate.length : ℤ) - 1) = .ok o := by
    rw [show (c.gate.length : ℤ) - 1 = ((l.length - 1 : ℕ) : ℤ) by omega, pyGet_nat (by omega)]
    congr 1
    rw [List.getElem?_eq_getElem (by omega)] at ho
    exact Option.some.inj ho
  rw [hget, TNM.lift_ok_bind]
  rw [hlen]
  have hdr : l.drop l.length = [] := List.drop_length
  have h4' : Near m4' ((circuitOp (l.drop l.length))ᴴ *ᵥ (m.op *ᵥ (circuitOp l *ᵥ v)))
      (N - 1 + cuts l + m.decomps + cuts (l.drop l.length)) := by
    rw [hdr]
    have : circuitOp ([] : List (Item N)) = 1 := rfl
    rw [this, Matrix.conjTranspose_one, Matrix.one_mulVec]; exact h4
  obtain ⟨m5', d5, s5, e5, hF5, hB5⟩ := backward_near (v := v) (w := m.op *ᵥ (circuitOp l *ᵥ v))
    (K := N - 1 + cuts l + m.decomps) hv (by
      rw [norm2_unitary (item_unitary _ hm), norm2_unitary hUl]
      exact lt_of_le_of_lt (cut_mono (by omega)) ha) hw hc hb l.length le_rfl m4'
    (if o.numParams ≠ 0 then Function.update d2 (l.length - 1) (some m4') else d2) s4 h4'
    (nearF_update hF2 le_rfl _ _) (by
      intro k x hk hx hp
      have hlt : k < l.length := by
        by_contra hge
        rw [List.getElem?_eq_none (by omega)] at hx
        cases hx
      obtain rfl : k = l.length - 1 := by omega
      obtain ⟨o', ho', hnum⟩ := built_num hw hb hx hp
      obtain rfl : o' = o := by rw [ho] at ho'; exact (Option.some.inj ho').symm
      refine ⟨m4', ?_, by rw [show l.length - 1 + 1 = l.length by omega]; exact h4'⟩
      rw [if_pos hnum, show 2 * l.length - (l.length - 1) - 2 = l.length - 1 by omega, Function.update_self])
  rw [TNM.bind_ok e5]
  exact ⟨d5, psi, w, s5, rfl, h3, hd2, hF5, hB5⟩

end

/-! ## The overlaps -/

theorem ip_norm (x y : QState N) : ‖ip x y‖ ≤ norm2 x * norm2 y := by
  rw [norm2_eq, norm2_eq]
  have := norm_inner_le_norm (𝕜 := ℂ) (WithLp.toLp 2 x : EuclideanSpace ℂ (Bits N)) (WithLp.toLp 2 y)
  refine le_trans (le_of_eq ?_) this
  congr 1
  rw [PiLp.inner_apply]
  exact Finset.sum_congr rfl (fun a _ => by simp [mul_comm])

theorem ip_diff {b b' f f' : QState N} (hb : norm2 b' ≤ 1) (hf : norm2 f ≤ 1) :
    ‖ip b' f' - ip b f‖ ≤ dist2 f' f + dist2 b' b := by
  have e : ip b' f' - ip b f = ip b' (f' - f) + ip (b' - b) f := by
    unfold ip
    rw [← Finset.sum_sub_distrib, ← Finset.sum_add_distrib]
    refine Finset.sum_congr rfl fun a _ => ?_
    simp only [Pi.sub_apply, star_sub]
    ring
  rw [e]
  refine (norm_add_le _ _).trans (add_le_add ((ip_norm _ _).trans ?_) ((ip_norm _ _).trans ?_))
  · rw [← dist2_eq]
    have : 0 ≤ dist2 f' f := Real.sqrt_nonneg _
    nlinarith
  · rw [← dist2_eq]
    have : 0 ≤ dist2 b' b := Real.sqrt_nonneg _
    nlinarith

section
variable {svd : SVDOracle} {v : QState N} {m : Item N} {c : Circuit} {d : PShift.Saved} {m0 : List (Tensor ℂ)}

/-- The bound on one entry. -/
noncomputable def savedError (l : List (Item N)) (m : Item N) : ℝ := accuracy l + accuracy (l ++ m :: l)

theorem overlap_near (hv : ValidSVD svd) (hN : 0 < N) (hn1 : norm2 v ≤ 1) {pre post : List (Item N)} {it : Item N}
    (ha : accuracy (pre ++ it :: post) < norm2 v)
    (hw : ∀ x ∈ pre ++ it :: post, x.WF) (hc : ∀ x ∈ pre ++ it :: post, HasTN x)
    (hm0 : Near m0 v (N - 1)) (hF : NearF (pre ++ it :: post) v d (pre ++ it :: post).length)
    (hB : NearB (pre ++ it :: post) (m.op *ᵥ (circuitOp (pre ++ it :: post) *ᵥ v))
      (N - 1 + cuts (pre ++ it :: post) + m.decomps) d 0)
    {opre opost : List Op} (hpre : opre.length = pre.length) (hpost : opost.length = post.length)
    (hne : it.params ≠ []) (x : List ℝ) (hx : x.length = it.params.length) {o : Op}
    (ho : Built (it.withParams x) o) (s : List (Tensor ℂ)) :
    ∃ r s', PShift.overlap svd m0 d opre.length ({ c with gate := opre ++ o :: opost }, s) =
      (.ok r, ({ c with gate := opre ++ o :: opost }, s')) ∧
      |r - -(ip ((circuitOp post)ᴴ *ᵥ (m.op *ᵥ (circuitOp (pre ++ it :: post) *ᵥ v)))
        ((it.withParams x).op *ᵥ (circuitOp pre *ᵥ v))).re| ≤ savedError (pre ++ it :: post) m := by
  have hmem : it ∈ pre ++ it :: post := by simp
  have hget : pyGet (opre ++ o :: opost) (opre.length : ℤ) = .ok o := by
    rw [pyGet_nat (by simp)]
    simp
  obtain ⟨mk, ek, hk⟩ : ∃ mk, (if opre.length = 0 then .ok m0 else PShift.savedGet d ((opre.length : ℤ) - 1) : Py _) =
      .ok mk ∧ Near mk (circuitOp pre *ᵥ v) (N - 1 + cuts pre) := by
    split_ifs with h
    · obtain rfl : pre = [] := List.length_eq_zero_iff.1 (by omega)
      refine ⟨m0, rfl, ?_⟩
      have : circuitOp ([] : List (Item N)) = 1 := rfl
      rw [this, Matrix.one_mulVec]; exact hm0
    · obtain ⟨mk, e1, e2⟩ := hF (pre.length - 1) it (by simp; omega) (by
        rw [show pre.length - 1 + 1 = pre.length by omega, List.getElem?_append_right (le_refl _), Nat.sub_self]
        rfl) hne
      refine ⟨mk, savedGet_nat (by omega) e1, ?_⟩
      rw [show pre.length - 1 + 1 = pre.length by omega, List.take_left'] at e2
      · exact e2
      · rfl
  obtain ⟨mb, eb, hb⟩ := hB pre.length it (by omega) (by
    rw [List.getElem?_append_right (le_refl _), Nat.sub_self]; rfl) hne
  have hdrop : (pre ++ it :: post).drop (pre.length + 1) = post := by
    rw [List.drop_append, List.drop_eq_nil_of_le (by omega)]; simp
  rw [hdrop] at hb
  have eb' : PShift.savedGet d (2 * ((opre ++ o :: opost).length : ℤ) - (opre.length : ℤ) - 2) = .ok mb := by
    refine savedGet_nat ?_ eb
    simp only [List.length_append, List.length_cons]
    omega
  have hwp : ∀ x ∈ pre, x.WF := fun x hx => hw x (by simp [hx])
  have hUp := circuitOp_unitary pre hwp
  have hWx := wf_withParams (hw it hmem) hx
  have hcx : N - 1 + cuts pre + (it.withParams x).decomps ≤ N - 1 + cuts (pre ++ it :: post) := by
    rw [decomps_withParams, cuts_append, cuts_cons]; omega
  unfold PShift.overlap CM.read
  dsimp only
  rw [hget, TNM.lift_ok_bind, ek, TNM.lift_ok_bind]
  obtain ⟨m1, s1, e1, h1⟩ := near_step hv hWx (hasTN_withParams (hc it hmem) hx) ho hk (by
    rw [norm2_unitary hUp]
    exact lt_of_le_of_lt (cut_mono hcx) ha) s
  obtain ⟨f', hf', -, cf, df⟩ := h1
  obtain ⟨b', hb', -, cb, db⟩ := hb
  obtain ⟨p1, ep1, hp1⟩ := mps2sv_rep hf' hN
  obtain ⟨p2, ep2, hp2⟩ := mps2sv_rep hb' hN
  obtain ⟨pc, epc, hpc⟩ := row_view_col hp1
  obtain ⟨t, et, st, gt⟩ := (row_conj hp2).mulCol hpc
  refine ⟨-(ip b' f').re, s1, ?_, ?_⟩
  · rw [TNM.bind_ok e1, ep1, TNM.lift_ok_bind, eb', TNM.lift_ok_bind, ep2, TNM.lift_ok_bind, epc, TNM.lift_ok_bind,
      et, TNM.lift_ok_bind, squeeze11 st, gt]
    have : (-1.0 : ℝ) = -1 := by norm_num
    rw [this, neg_one_mul]
    rfl
  · rw [sub_neg_eq_add, neg_add_eq_sub, abs_sub_comm, ← Complex.sub_re]
    refine (Complex.abs_re_le_norm _).trans ((ip_diff (contr_norm hb' cb) ?_).trans ?_)
    · rw [norm2_unitary (item_unitary _ hWx), norm2_unitary hUp]; exact hn1
    · unfold savedError
      refine add_le_add (df.trans ?_) (db.trans ?_)
      · rw [accuracy_eq]; exact cut_mono hcx
      · rw [accuracy_eq]
        refine cut_mono ?_
        have e1 : cuts (pre ++ it :: post ++ m :: (pre ++ it :: post)) =
          cuts (pre ++ it :: post) + (m.decomps + cuts (pre ++ it :: post)) := by rw [cuts_append, cuts_cons]
        have e2 : cuts post ≤ cuts (pre ++ it :: post) := by rw [cuts_append, cuts_cons]; omega
        rw [e1]
        omega

/-- One shifted evaluation. -/
theorem eval_near (hv : ValidSVD svd) (hN : 0 < N) (hn1 : norm2 v ≤ 1) {pre post : List (Item N)} {it : Item N}
    (ha : accuracy (pre ++ it :: post) < norm2 v)
    (hw : ∀ x ∈ pre ++ it :: post, x.WF) (hc : ∀ x ∈ pre ++ it :: post, HasTN x)
    (hm0 : Near m0 v (N - 1)) (hF : NearF (pre ++ it :: post) v d (pre ++ it :: post).length)
    (hB : NearB (pre ++ it :: post) (m.op *ᵥ (circuitOp (pre ++ it :: post) *ᵥ v))
      (N - 1 + cuts (pre ++ it :: post) + m.decomps) d 0)
    {opre opost : List Op} (hpre : opre.length = pre.length) (hpost : opost.length = post.length)
    (hne : it.params ≠ []) {o : Op} (ho : Built it o) (x : List ℝ) (hx : x.length = it.params.length)
    {β : Type} (f : ℝ → CM β) (s : List (Tensor ℂ)) :
    ∃ o' r s', Built (it.withParams x) o' ∧
      |r - -(ip ((circuitOp post)ᴴ *ᵥ (m.op *ᵥ (circuitOp (pre ++ it :: post) *ᵥ v)))
        ((it.withParams x).op *ᵥ (circuitOp pre *ᵥ v))).re| ≤ savedError (pre ++ it :: post) m ∧
      (do CM.update opre.length x; let e ← PShift.overlap svd m0 d opre.length; f e)
        ({ c with gate := opre ++ o :: opost }, s) = f r ({ c with gate := opre ++ o' :: opost }, s') := by
  obtain ⟨-, -, hup⟩ := built_facts (hw it (by simp)) ho
  obtain ⟨o', e1, hb⟩ := hup x hx hne
  rw [CM.bind_ok (update_ok x e1 s)]
  obtain ⟨r, s', e2, h2⟩ := overlap_near (c := c) hv hN hn1 ha hw hc hm0 hF hB hpre hpost hne x hx hb s
  exact ⟨o', r, s', hb, h2, CM.bind_ok e2⟩

theorem grad2Vec_near (hv : ValidSVD svd) (hN : 0 < N) (hn1 : norm2 v ≤ 1) {pre post : List (Item N)} {it : Item N}
    (ha : accuracy (pre ++ it :: post) < norm2 v)
    (hw : ∀ x ∈ pre ++ it :: post, x.WF) (hc : ∀ x ∈ pre ++ it :: post, HasTN x)
    (hm0 : Near m0 v (N - 1)) (hF : NearF (pre ++ it :: post) v d (pre ++ it :: post).length)
    (hB : NearB (pre ++ it :: post) (m.op *ᵥ (circuitOp (pre ++ it :: post) *ᵥ v))
      (N - 1 + cuts (pre ++ it :: post) + m.decomps) d 0)
    {opre opost : List Op} (hpre : opre.length = pre.length) (hpost : opost.length = post.length)
    (hne : it.params ≠ []) {o : Op} (ho : Built it o) :
    ∀ (is : List ℕ) (_ : ∀ i ∈ is, i < it.params.length) (s : List (Tensor ℂ)),
    ∃ g s', PShift.grad2Vec svd m0 d opre.length is it.params ({ c with gate := opre ++ o :: opost }, s) =
        (.ok g, ({ c with gate := opre ++ o :: opost }, s')) ∧
      List.Forall₂ (fun i y => |y - overlapValue m.op v pre it post i| ≤ savedError (pre ++ it :: post) m) is g := by
  intro is
  induction is with
  | nil => intro _ s; exact ⟨[], s, rfl, .nil⟩
  | cons i is ih =>
    intro his s
    have hil := his i (by simp)
    set p := it.params with hp
    have hb1 : PShift.bump p i (-Real.pi) = p.set i (p.getD i 0 - Real.pi) := by
      rw [bump_eq _ _ _ hil, sub_eq_add_neg]
    have hb2 : PShift.bump (PShift.bump p i (-Real.pi)) i Real.pi = p := by
      rw [hb1, bump_eq _ _ _ (by simpa using hil), List.set_set]
      rw [List.getD_eq_getElem?_getD (l := p.set _ _), List.getElem?_set_self (by simpa using hil), Option.getD_some]
      rw [sub_add_cancel, List.getD_eq_getElem?_getD, List.getElem?_eq_getElem hil, Option.getD_some,
        List.set_getElem_self]
    unfold PShift.grad2Vec
    dsimp only
    rw [hb2, hb1]
    obtain ⟨o1, r1, s1, ho1, d1, e1⟩ := eval_near (c := c) hv hN hn1 ha hw hc hm0 hF hB hpre hpost hne ho
      (p.set i (p.getD i 0 - Real.pi)) (by simp [hp]) _ s
    rw [e1]
    have e3 := reset_ok (hw it (by simp)) hne (by simp [hp]) ho1 ho
    rw [CM.bind_ok (update_ok p e3 s1)]
    obtain ⟨g, s4, e4, h4⟩ := ih (fun i h => his i (by simp [h])) s1
    rw [CM.bind_ok e4]
    exact ⟨_, s4, rfl, .cons d1 h4⟩

theorem grad2At_near (hv : ValidSVD svd) (hN : 0 < N) (hn1 : norm2 v ≤ 1) {pre post : List (Item N)} {it : Item N}
    (ha : accuracy (pre ++ it :: post) < norm2 v)
    (hw : ∀ x ∈ pre ++ it :: post, x.WF) (hc : ∀ x ∈ pre ++ it :: post, HasTN x)
    (hm0 : Near m0 v (N - 1)) (hF : NearF (pre ++ it :: post) v d (pre ++ it :: post).length)
    (hB : NearB (pre ++ it :: post) (m.op *ᵥ (circuitOp (pre ++ it :: post) *ᵥ v))
      (N - 1 + cuts (pre ++ it :: post) + m.decomps) d 0)
    {opre opost : List Op} (hpre : opre.length = pre.length) (hpost : opost.length = post.length)
    {o : Op} (ho : Built it o) (hrec : Recorded c opre.length it) (s : List (Tensor ℂ)) :
    ∃ g s', PShift.grad2At svd m0 d opre.length ({ c with gate := opre ++ o :: opost }, s) =
        (.ok g, ({ c with gate := opre ++ o :: opost }, s')) ∧
      List.Forall₂ (fun i y => |y - overlapValue m.op v pre it post i| ≤ savedError (pre ++ it :: post) m)
        (List.range it.params.length) g := by
  obtain ⟨hnum, -, -⟩ := built_facts (hw it (by simp)) ho
  have hg : ({ c with gate := opre ++ o :: opost } : Circuit).gate[opre.length]? = some o := by
    dsimp only
    rw [List.getElem?_append_right (le_refl _), Nat.sub_self]
    rfl
  by_cases hp : it.params = []
  · have h0 : o.numParams = 0 := by rw [hnum, hp]; rfl
    rw [grad2At_zero svd m0 d (s := s) hg h0, hp]
    exact ⟨[], s, rfl, .nil⟩
  · have hn0 : o.numParams ≠ 0 := by
      rw [hnum]; exact fun h => hp (List.length_eq_zero_iff.1 h)
    obtain ⟨or, hor, hcp⟩ := hrec hp
    obtain ⟨-, hpv, -⟩ := built_facts (hw it (by simp)) hor
    rcases hpv hp with hvv | ⟨x, hx, hvv⟩
    · have e1 : PShift.readParams { c with gate := opre ++ o :: opost } opre.length = .ok (.vec it.params) := by
        unfold PShift.readParams
        dsimp only
        rw [hcp, hvv]
      rw [grad2At_vec svd m0 d (s := s) hg hn0 e1]
      exact grad2Vec_near (c := c) hv hN hn1 ha hw hc hm0 hF hB hpre hpost hp ho _ (fun i h => List.mem_range.1 h) s
    · have e1 : PShift.readParams { c with gate := opre ++ o :: opost } opre.length = .ok (.scalar x) := by
        unfold PShift.readParams
        dsimp only
        rw [hcp, hvv]
      rw [grad2At_scalar svd m0 d (s := s) hg hn0 e1]
      unfold PShift.grad2Scalar
      obtain ⟨o1, r1, s1, ho1, d1, e1⟩ := eval_near (c := c) hv hN hn1 ha hw hc hm0 hF hB hpre hpost hp ho
        [x - Real.pi] (by simp [hx]) (fun e => do
          CM.update opre.length [x - Real.pi + Real.pi]
          pure e) s
      have e3 := reset_ok (hw it (by simp)) hp (by simp [hx]) ho1 ho
      rw [hx] at e3
      have e5 : (fun e => do
          CM.update opre.length [x - Real.pi + Real.pi]
          pure e : ℝ → CM ℝ) r1 ({ c with gate := opre ++ o1 :: opost }, s1) =
          (.ok r1, ({ c with gate := opre ++ o :: opost }, s1)) := by
        beta_reduce
        rw [sub_add_cancel, CM.bind_ok (update_ok [x] e3 s1)]
        rfl
      refine ⟨[r1], s1, ?_, ?_⟩
      · rw [CM.bind_ok (e1.trans e5)]
        rfl
      · rw [hx]
        refine .cons ?_ .nil
        unfold overlapValue
        have h0 : it.params.getD 0 0 = x := by rw [hx]; rfl
        have hset : ∀ y, it.params.set 0 y = [y] := fun y => by rw [hx]; rfl
        rw [h0, hset]
        exact d1

theorem grad2Loop_near (hv : ValidSVD svd) (hN : 0 < N) (hn1 : norm2 v ≤ 1) {l : List (Item N)}
    (ha : accuracy l < norm2 v) (hw : ∀ x ∈ l, x.WF) (hc : ∀ x ∈ l, HasTN x) (hm0 : Near m0 v (N - 1))
    (hF : NearF l v d l.length)
    (hB : NearB l (m.op *ᵥ (circuitOp l *ᵥ v)) (N - 1 + cuts l + m.decomps) d 0)
    {post : List (Item N)} {opost : List Op} (hpost : List.Forall₂ Built post opost) :
    ∀ (pre : List (Item N)) (opre : List Op), pre ++ post = l → opre.length = pre.length →
      (∀ k it, post[k]? = some it → Recorded c (opre.length + k) it) → ∀ s : List (Tensor ℂ),
      ∃ g s', PShift.grad2Loop svd m0 d (List.range' opre.length post.length) ({ c with gate := opre ++ opost }, s) =
          (.ok g, ({ c with gate := opre ++ opost }, s')) ∧
        List.Forall₂ (fun e y => |y - e| ≤ savedError l m) (overlapGrad m.op v pre post) g := by
  induction hpost with
  | nil => intro pre opre _ _ _ s; exact ⟨[], s, rfl, .nil⟩
  | @cons it o post opost ho hpost ih =>
    intro pre opre hl' hpre hrec s
    subst hl'
    rw [List.length_cons, List.range'_succ]
    unfold PShift.grad2Loop
    obtain ⟨g1, s1, e1, h1⟩ := grad2At_near (c := c) hv hN hn1 ha hw hc hm0 hF hB hpre hpost.length_eq.symm ho
      (by have := hrec 0 it rfl; simpa using this) s
    rw [CM.bind_ok e1]
    have ih' := ih (pre ++ [it]) (opre ++ [o]) (by simp) (by simp [hpre]) (fun k x hk => by
        have := hrec (k + 1) x (by simpa using hk)
        rw [List.length_append, List.length_singleton, Nat.add_right_comm]
        exact this) s1
    rw [List.length_append, List.length_singleton, List.append_assoc, List.singleton_append] at ih'
    obtain ⟨g2, s', e2, h2⟩ := ih'
    rw [CM.bind_ok e2]
    refine ⟨g1 ++ g2, s', rfl, List.rel_append ?_ h2⟩
    rw [List.forall₂_map_left_iff]
    exact h1

/-- The whole call. -/
theorem grad2_near (hv : ValidSVD svd) (hN : 0 < N) (hn1 : norm2 v ≤ 1) {l : List (Item N)}
    (ha : accuracy l < norm2 v) (hw : ∀ x ∈ l, x.WF) (hc : ∀ x ∈ l, HasTN x) {ps : PShift}
    (hi : IsRow ps.init_state v) (hn : c.nqubits = N) (hF : NearF l v d l.length)
    (hB : NearB l (m.op *ᵥ (circuitOp l *ᵥ v)) (N - 1 + cuts l + m.decomps) d 0)
    (hb : List.Forall₂ Built l c.gate)
    (hrec : ∀ k it, l[k]? = some it → Recorded c k it) (hnum : (allParams l).length = c.cir_num_params)
    (s : List (Tensor ℂ)) :
    ∃ g s', ps.cal_params_grad2 svd d (c, s) = (.ok g, (c, s')) ∧
      List.Forall₂ (fun e y => |y - e| ≤ savedError l m) (overlapGrad m.op v [] l) g := by
  have e0 : (CM.read (fun c => TNM.lift (.ok c.gate.length)) : CM ℕ) (c, s) = (.ok c.gate.length, (c, s)) := rfl
  unfold PShift.cal_params_grad2
  rw [CM.bind_ok e0]
  obtain ⟨m1, s1, e1, h1⟩ := near_start hv hN hi hn1 (lt_of_le_of_lt (by
    rw [accuracy_eq]; exact cut_mono (by omega)) ha) s
  have e1' : (CM.read (fun c => StateVec2MPS svd ps.init_state c.nqubits) : CM _) (c, s) = (.ok m1, (c, s1)) := by
    unfold CM.read
    dsimp only
    rw [hn, e1]
  rw [CM.bind_ok e1']
  have hlen : c.gate.length = l.length := hb.length_eq.symm
  rw [hlen, List.range_eq_range']
  obtain ⟨g, s', h2, h3⟩ := grad2Loop_near (c := c) hv hN hn1 ha hw hc h1 hF hB hb [] [] rfl rfl
    (by simpa using hrec) s1
  have h2' : PShift.grad2Loop svd m1 d (List.range' 0 l.length) (c, s1) = (.ok g, (c, s')) := h2
  refine ⟨g, s', ?_, h3⟩
  rw [CM.bind_ok h2']
  have hgl : g.length = c.cir_num_params := by rw [← h3.length_eq, overlapGrad_length, hnum]
  have e3 : (CM.read (fun c => TNM.lift (pyAssert (g.length = c.cir_num_params))) : CM Unit)
        (c, s') = (.ok (), (c, s')) := by
    unfold CM.read TNM.lift
    dsimp only
    rw [hgl]
    simp [pyAssert]
  rw [CM.bind_ok e3]
  rfl

end

end QTN
