import Verif.Lemmas.Grad

/-! # Runs of `save_mid_MPS` and `cal_params_grad2` -/

namespace QTN

open Spec Matrix QTN.Props

variable {N : ℕ}

/-! ## Derivative as one overlap -/

/-- `⟨u|w⟩` -/
noncomputable def ip (u w : QState N) : ℂ := ∑ a, star (u a) * w a

theorem ip_adj (A : QOp N) (u w : QState N) : ip (Aᴴ *ᵥ u) w = ip u (A *ᵥ w) := by
  unfold ip Matrix.mulVec dotProduct
  simp only [star_sum, Finset.sum_mul, Finset.mul_sum]
  rw [Finset.sum_comm]
  refine Finset.sum_congr rfl fun a _ => Finset.sum_congr rfl fun b _ => ?_
  rw [star_mul', Matrix.conjTranspose_apply, star_star]
  ring

theorem herm_conj {O : QOp N} (hO : Hermitian O) : Oᴴ = O := by
  ext a b
  rw [Matrix.conjTranspose_apply, hO a b]

theorem ip_add_smul (O : QOp N) (C S : QState N) (c s : ℝ) :
    ip ((c : ℂ) • C + (s : ℂ) • S) (O *ᵥ ((s : ℂ) • C - (c : ℂ) • S)) =
      ((c * s : ℝ) : ℂ) * braket O C - ((c * s : ℝ) : ℂ) * braket O S -
        ((c ^ 2 : ℝ) : ℂ) * ip C (O *ᵥ S) + ((s ^ 2 : ℝ) : ℂ) * ip S (O *ᵥ C) := by
  unfold ip braket Matrix.mulVec dotProduct
  simp only [Finset.mul_sum, ← Finset.sum_sub_distrib, ← Finset.sum_add_distrib]
  refine Finset.sum_congr rfl fun a _ => Finset.sum_congr rfl fun b _ => ?_
  simp only [Pi.add_apply, Pi.sub_apply, Pi.smul_apply, smul_eq_mul, star_add, star_mul', Complex.star_def,
    Complex.conj_ofReal]
  push_cast
  ring

theorem ip_comm_re (u w : QState N) : (ip u w).re = (ip w u).re := by
  have : ip u w = star (ip w u) := by
    unfold ip
    rw [star_sum]
    refine Finset.sum_congr rfl fun a _ => ?_
    rw [star_mul', star_star, mul_comm]
  rw [this]
  rfl

theorem cross_ip {O : QOp N} (hO : Hermitian O) (C S : QState N) : crossRe O C S = 2 * (ip C (O *ᵥ S)).re := by
  have h1 : (∑ a, ∑ b, (star (C a) * O a b * S b + star (S a) * O a b * C b)) = ip C (O *ᵥ S) + ip S (O *ᵥ C) := by
    unfold ip Matrix.mulVec dotProduct
    simp only [Finset.mul_sum, ← Finset.sum_add_distrib]
    refine Finset.sum_congr rfl fun a _ => Finset.sum_congr rfl fun b _ => ?_
    ring
  unfold crossRe
  rw [h1, Complex.add_re]
  have : (ip S (O *ᵥ C)).re = (ip C (O *ᵥ S)).re := by
    rw [ip_comm_re]
    conv_lhs => rw [← herm_conj hO]
    rw [ip_adj]
  rw [this]
  ring

/-- For operators trigonometric in the half parameter and Hermitian observables the derivative is one
overlap with the operator shifted by `-π`. -/
theorem pi_shift {F : ℝ → QOp N} (h : Trig F) {O : QOp N} (hO : Hermitian O) (v : QState N) (x : ℝ) :
    HasDerivAt (fun y => (braket O (F y *ᵥ v)).re)
      (-(ip (O *ᵥ (F x *ᵥ v)) (F (x - Real.pi) *ᵥ v)).re) x := by
  obtain ⟨C, S, hF⟩ := h
  have hv : ∀ y, F y *ᵥ v = (Real.cos (y / 2) : ℂ) • (C *ᵥ v) + (Real.sin (y / 2) : ℂ) • (S *ᵥ v) := by
    intro y
    rw [hF, Matrix.add_mulVec, Matrix.smul_mulVec, Matrix.smul_mulVec]
  generalize C *ᵥ v = c at hv
  generalize S *ᵥ v = d at hv
  simp only [hv, braket_trig_eq]
  set p := (braket O c).re with hp
  set q := (braket O d).re with hq
  have hd : HasDerivAt (fun y => (p + q) / 2 + (p - q) / 2 * Real.cos y + crossRe O c d / 2 * Real.sin y)
      ((p - q) / 2 * (-Real.sin x) + crossRe O c d / 2 * Real.cos x) x :=
    (((Real.hasDerivAt_cos x).const_mul _).const_add _).add ((Real.hasDerivAt_sin x).const_mul _)
  convert hd using 1
  have e1 : (x - Real.pi) / 2 = x / 2 - Real.pi / 2 := by ring
  have h3 : ip (O *ᵥ ((Real.cos (x / 2) : ℂ) • c + (Real.sin (x / 2) : ℂ) • d))
      ((Real.sin (x / 2) : ℂ) • c + ((-Real.cos (x / 2) : ℝ) : ℂ) • d) =
      ip ((Real.cos (x / 2) : ℂ) • c + (Real.sin (x / 2) : ℂ) • d)
        (O *ᵥ ((Real.sin (x / 2) : ℂ) • c - (Real.cos (x / 2) : ℂ) • d)) := by
    rw [← ip_adj, herm_conj hO]
    congr 1
    rw [Complex.ofReal_neg, neg_smul, sub_eq_add_neg]
  rw [e1, Real.cos_sub_pi_div_two, Real.sin_sub_pi_div_two, h3, ip_add_smul, Complex.add_re, Complex.sub_re,
    Complex.sub_re, Complex.re_ofReal_mul, Complex.re_ofReal_mul, Complex.re_ofReal_mul, Complex.re_ofReal_mul,
    ← hp, ← hq, cross_ip hO]
  have h2 : (ip d (O *ᵥ c)).re = (ip c (O *ᵥ d)).re := by
    have := cross_ip hO d c
    have h4 : crossRe O d c = crossRe O c d := by
      unfold crossRe
      congr 1
      refine Finset.sum_congr rfl fun a _ => Finset.sum_congr rfl fun b _ => ?_
      ring
    rw [h4, cross_ip hO] at this
    linarith
  have hc : Real.cos x = Real.cos (x / 2) ^ 2 - Real.sin (x / 2) ^ 2 := by
    rw [← Real.cos_two_mul']; congr 1; ring
  have hs : Real.sin x = 2 * Real.sin (x / 2) * Real.cos (x / 2) := by
    rw [← Real.sin_two_mul]; congr 1; ring
  rw [h2, hc, hs]
  ring

/-! ## Items -/

/-- The items all of whose parameters enter through the half angle only. -/
def Spec.Item.trigOk : Item N → Prop
  | .gate (.cu3 _ _ _ _ _) | .gate (.u1 _ _) | .gate (.cphase _ _ _) => False
  | _ => True

theorem item_trig (it : Item N) (h : it.WF) (hs : Spec.Item.trigOk it) (i : ℕ) (hi : i < it.params.length) :
    Trig (fun x => (it.withParams (it.params.set i x)).op) := by
  cases it with
  | gate ins =>
    cases ins with
    | rx θ j => obtain rfl : i = 0 := by simpa [Item.params, Instr.params] using hi
                exact (trig_rot X).onQubit j
    | ry θ j => obtain rfl : i = 0 := by simpa [Item.params, Instr.params] using hi
                exact (trig_rot Y).onQubit j
    | rz θ j => obtain rfl : i = 0 := by simpa [Item.params, Instr.params] using hi
                exact (trig_rot Z).onQubit j
    | u1 θ j => exact hs.elim
    | rxx θ p q => obtain rfl : i = 0 := by simpa [Item.params, Instr.params] using hi
                   exact trig_rot2 X p q
    | ryy θ p q => obtain rfl : i = 0 := by simpa [Item.params, Instr.params] using hi
                   exact trig_rot2 Y p q
    | rzz θ p q => obtain rfl : i = 0 := by simpa [Item.params, Instr.params] using hi
                   exact trig_rot2 Z p q
    | cphase θ c t => exact hs.elim
    | u3 θ φ l j =>
      have : i = 0 ∨ i = 1 ∨ i = 2 := by
        simp [Item.params, Instr.params] at hi; omega
      rcases this with rfl | rfl | rfl
      · exact (trig_U3_theta φ l).onQubit j
      · exact (trig_U3_phi θ l).onQubit j
      · exact (trig_U3_lambda θ φ).onQubit j
    | cu3 => exact hs.elim
    | _ => simp [Item.params, Instr.params] at hi
  | layer k ws p =>
    obtain ⟨-, hw, hp⟩ := h
    exact trig_layerOp k.axes ws hw p i (by rw [← hp]; exact hi) hi
  | basic ws p reps =>
    obtain ⟨hw, h2, -, hp⟩ := h
    exact trig_basicOp ws hw h2 p reps i (by rw [← hp]; exact hi) hi
  | _ => simp [Item.params] at hi

/-- The value `cal_params_grad2` computes for the `i`-th parameter of the item `it` between `pre` and
`post`. -/
noncomputable def overlapValue (O : QOp N) (v : QState N) (pre : List (Item N)) (it : Item N)
    (post : List (Item N)) (i : ℕ) : ℝ :=
  -(ip ((circuitOp post)ᴴ *ᵥ (O *ᵥ (circuitOp (pre ++ it :: post) *ᵥ v)))
    ((it.withParams (it.params.set i (it.params.getD i 0 - Real.pi))).op *ᵥ (circuitOp pre *ᵥ v))).re

theorem overlap_partial {O : QOp N} (hO : Hermitian O) (v : QState N) (pre : List (Item N)) (it : Item N)
    (post : List (Item N)) (i : ℕ) (h : it.WF) (hs : Spec.Item.trigOk it) (hi : i < it.params.length) :
    IsPartial O v (pre ++ it :: post) ((allParams pre).length + i) (overlapValue O v pre it post i) := by
  unfold IsPartial overlapValue energy
  simp only [setParam_append _ _ _ _ hi, circuitOp_split, allParams_getD _ _ _ _ hi]
  have hT := ((item_trig it h hs i hi).mul_left (circuitOp post)).mul_right (circuitOp pre)
  have := pi_shift hT hO v (it.params.getD i 0)
  beta_reduce at this
  have e : it.params.set i (it.params.getD i 0) = it.params := by
    rw [List.getD_eq_getElem?_getD, List.getElem?_eq_getElem hi, Option.getD_some, List.set_getElem_self]
  rw [e, withParams_self] at this
  have e2 : circuitOp post *ᵥ ((it.withParams (it.params.set i (it.params.getD i 0 - Real.pi))).op *ᵥ
      (circuitOp pre *ᵥ v)) = (circuitOp post * (it.withParams (it.params.set i
        (it.params.getD i 0 - Real.pi))).op * circuitOp pre) *ᵥ v := by
    rw [Matrix.mulVec_mulVec, Matrix.mulVec_mulVec, Matrix.mul_assoc]
  rw [ip_adj, e2]
  exact this

theorem item_dagger_tn (it : Item N) (h : it.WF) (hc : HasTN it) :
    ∃ o it' o', Built it o ∧ it'.WF ∧ HasTN it' ∧ it'.op = (it.op)ᴴ ∧ Built it' o' ∧
      o.operation_dagger = .ok (some o') ∧ it'.decomps = it.decomps := by
  cases it with
  | gate ins =>
    obtain ⟨g, hg, rg⟩ := build_ok ins h
    obtain ⟨g', hg', rg'⟩ := build_ok (Instr.adj ins) (Instr.adj_WF h)
    refine ⟨.gate g, .gate (Instr.adj ins), .gate g', by simp [Built, buildItem, hg], Instr.adj_WF h, ?_,
      Instr.adj_op ins h, by simp [Built, buildItem, hg'], ?_, ?_⟩
    · cases ins <;> exact hc
    · simp [Op.operation_dagger, build_cls hg, hg']
    · cases ins <;> rfl
  | layer k ws p =>
    obtain ⟨hN, hw, hp⟩ := h
    obtain ⟨q, hq, h1, h2⟩ := layer_dagger k ws p hw hp
    refine ⟨.single ⟨layerCls k, N, wires ws, p⟩, .layer k.adj ws q, .single ⟨layerCls k.adj, N, wires ws, q⟩, ?_,
      ⟨hN, hw, hq⟩, trivial, h2, ?_, ?_, rfl⟩
    · simp only [Built, buildItem]
      rw [mkSLayer_ok hw (by rw [layerCls_arity]; exact hp.symm)]
      rfl
    · simp only [Built, buildItem]
      rw [mkSLayer_ok hw (by rw [layerCls_arity]; exact hq.symm)]
      rfl
    · simp [Op.operation_dagger, h1]
  | hlayer ws =>
    obtain ⟨hN, hw⟩ := h
    have hb : buildItem (.hlayer ws) = .ok (.single ⟨.h, N, wires ws, []⟩) := by
      simp only [buildItem]
      rw [mkSLayer_ok hw (by simp [LayerCls.arity])]
      rfl
    exact ⟨_, .hlayer ws, _, hb, ⟨hN, hw⟩, trivial, (hOp_conj ws).symm, hb, rfl, rfl⟩
  | ring ws =>
    obtain ⟨hw, h2⟩ := h
    refine ⟨.ring ⟨.ring, N, wires ws⟩, .ringDag ws, .ring ⟨.dagger, N, wires ws⟩,
      by simp only [Built, buildItem]; rw [mkRing_ok hw h2]; rfl,
      ⟨hw, h2⟩, hc, (ringOp_conjTranspose hw h2).symm,
      by simp only [Built, buildItem]; rw [mkRing_ok hw h2]; rfl, ?_, rfl⟩
    simp only [Op.operation_dagger, Ring.operation_dagger]
    rw [mkRing_ok hw h2]; rfl
  | ringDag ws =>
    obtain ⟨hw, h2⟩ := h
    refine ⟨.ring ⟨.dagger, N, wires ws⟩, .ring ws, .ring ⟨.ring, N, wires ws⟩,
      by simp only [Built, buildItem]; rw [mkRing_ok hw h2]; rfl,
      ⟨hw, h2⟩, hc, ?_, by simp only [Built, buildItem]; rw [mkRing_ok hw h2]; rfl, ?_, rfl⟩
    · show ringOp 1 ws = (ringDagOp ws)ᴴ
      rw [← ringOp_conjTranspose hw h2, conjTranspose_conjTranspose]
    · simp only [Op.operation_dagger, Ring.operation_dagger]
      rw [mkRing_ok hw h2]; rfl
  | ring2 ws => exact hc.elim
  | basic ws p reps => exact hc.elim

/-! ## The saved states -/

theorem circuitOp_snoc (l : List (Item N)) (it : Item N) : circuitOp (l ++ [it]) = it.op * circuitOp l := by
  rw [circuitOp_split]
  have : circuitOp ([] : List (Item N)) = 1 := rfl
  rw [this, Matrix.one_mul]

theorem circuitOp_cons (l : List (Item N)) (it : Item N) : circuitOp (it :: l) = circuitOp l * it.op := by
  have := circuitOp_split [] l it
  rw [List.nil_append] at this
  rw [this]
  have : circuitOp ([] : List (Item N)) = 1 := rfl
  rw [this, Matrix.mul_one]

theorem built_get {l : List (Item N)} {ops : List Op} (hb : List.Forall₂ Built l ops) {k : ℕ} {it : Item N}
    (hk : l[k]? = some it) : ∃ o, ops[k]? = some o ∧ Built it o := by
  induction hb generalizing k with
  | nil => simp at hk
  | @cons a b l m h _ ih =>
    cases k with
    | zero => simp at hk; subst hk; exact ⟨b, rfl, h⟩
    | succ k => simp at hk; simpa using ih hk

theorem built_num {l : List (Item N)} {ops : List Op} (hw : ∀ it ∈ l, it.WF) (hb : List.Forall₂ Built l ops)
    {k : ℕ} {it : Item N} (hk : l[k]? = some it) (hp : it.params ≠ []) :
    ∃ o, ops[k]? = some o ∧ o.numParams ≠ 0 := by
  obtain ⟨o, ho, hbo⟩ := built_get hb hk
  refine ⟨o, ho, ?_⟩
  rw [(built_facts (hw it (List.mem_of_getElem? hk)) hbo).1]
  exact fun h => hp (List.length_eq_zero_iff.1 h)

theorem built_acts {svd : SVDOracle} (hv : ValidSVD svd) {it : Item N} {o : Op} (h : it.WF) (hc : HasTN it)
    (hb : Built it o) : o.supportTN = true ∧ Acts (o.TN_operation svd) it.op := by
  obtain ⟨o', ho', h1, h2⟩ := item_mps hv it h (hasTN_iff hc)
  have : o' = o := by unfold Built at hb; rw [ho'] at hb; cases hb; rfl
  subst this
  exact ⟨h1, h2⟩

/-- Key `k` holds the state before operation `k + 1`, for the operations with parameters below `m`. -/
def SavedF (l : List (Item N)) (v : QState N) (d : PShift.Saved) (m : ℕ) : Prop :=
  ∀ k it, k < m → l[k + 1]? = some it → it.params ≠ [] →
    ∃ mps, d k = some mps ∧ IsMPS mps (circuitOp (l.take (k + 1)) *ᵥ v)

/-- Key `2n-k-2` holds the measured state taken back to just after operation `k`, for the operations with
parameters from `m - 1` on. -/
def SavedB (l : List (Item N)) (w : QState N) (d : PShift.Saved) (m : ℕ) : Prop :=
  ∀ k it, m ≤ k + 1 → l[k]? = some it → it.params ≠ [] →
    ∃ mps, d (2 * l.length - k - 2) = some mps ∧ IsMPS mps ((circuitOp (l.drop (k + 1)))ᴴ *ᵥ w)

theorem mono_saveForward (svd : SVDOracle) (gates : List Op) : ∀ (ops : List Op) (idx : ℕ) (mps : List (Tensor ℂ))
    (d : PShift.Saved), (PShift.saveForward svd gates idx ops mps d).Mono
  | [], _, _, _ => TNM.Mono.pure _
  | o :: ops, idx, mps, d => by
    unfold PShift.saveForward
    split
    · exact (mono_op svd o mps).bind fun _ => mono_saveForward svd gates ops _ _ _
    · exact TNM.Mono.lift' _

theorem mono_saveBackward (svd : SVDOracle) (gates : List Op) : ∀ (k : ℕ) (mps : List (Tensor ℂ))
    (d : PShift.Saved), (PShift.saveBackward svd gates k mps d).Mono
  | 0, _, _ => TNM.Mono.pure _
  | k + 1, mps, d => by
    unfold PShift.saveBackward
    refine (TNM.Mono.lift _).bind fun o => (TNM.Mono.lift _).bind fun od => ?_
    split
    · exact TNM.Mono.lift' _
    · split
      · exact (mono_op svd _ mps).bind fun _ => mono_saveBackward svd gates k _ _
      · exact TNM.Mono.lift' _

section
variable {svd : SVDOracle} {v : QState N} {l : List (Item N)} {ops : List Op}

theorem forward_run (hv : ValidSVD svd) (h0 : v ≠ 0) (hw : ∀ it ∈ l, it.WF) (hc : ∀ it ∈ l, HasTN it)
    (hb : List.Forall₂ Built l ops) {post : List (Item N)} {opost : List Op}
    (hpost : List.Forall₂ Built post opost) : ∀ (pre : List (Item N)), pre ++ post = l →
    ∀ (mps : List (Tensor ℂ)) (d : PShift.Saved) (s : List (Tensor ℂ)),
    IsMPS mps (circuitOp pre *ᵥ v) → SavedF l v d pre.length →
    (∀ A ∈ (PShift.saveForward svd ops pre.length opost mps d s).2, Lossless A) →
    ∃ mps' d' s', PShift.saveForward svd ops pre.length opost mps d s = (.ok (mps', d'), s') ∧
      IsMPS mps' (circuitOp l *ᵥ v) ∧ SavedF l v d' l.length := by
  induction hpost with
  | nil =>
    intro pre hpre mps d s hm hF _
    rw [List.append_nil] at hpre
    subst hpre
    exact ⟨mps, d, s, rfl, hm, hF⟩
  | @cons it o post opost ho hpost ih =>
    intro pre hpre mps d s hm hF hl
    have hmem : it ∈ l := by rw [← hpre]; simp
    obtain ⟨hs, ha⟩ := built_acts hv (hw it hmem) (hc it hmem) ho
    have hwp : ∀ x ∈ pre, x.WF := fun x hx => hw x (by rw [← hpre]; simp [hx])
    have hne : circuitOp pre *ᵥ v ≠ 0 := unitary_ne_zero (circuitOp_unitary pre hwp) h0
    unfold PShift.saveForward at hl ⊢
    rw [if_pos hs] at hl ⊢
    obtain ⟨m1, s1, e1, h1⟩ := ha.run hm hne (TNM.logged_left (fun _ => mono_saveForward _ _ _ _ _ _) hl)
    rw [TNM.bind_ok e1] at hl ⊢
    have hpre' : (pre ++ [it]) ++ post = l := by rw [List.append_assoc, List.singleton_append, hpre]
    have hlen : (pre ++ [it]).length = pre.length + 1 := by simp
    have htake : l.take (pre.length + 1) = pre ++ [it] := by rw [← hpre', ← hlen, List.take_left']; rfl
    rw [Matrix.mulVec_mulVec, ← circuitOp_snoc] at h1
    have ih' := ih (pre ++ [it]) hpre' m1
    rw [hlen] at ih'
    refine ih' _ s1 h1 ?_ hl
    intro k x hk hx hp
    have hn : ops.length = l.length := hb.length_eq.symm
    rcases Nat.lt_succ_iff_lt_or_eq.1 hk with hk | rfl
    · obtain ⟨m2, e2, h2⟩ := hF k x hk hx hp
      refine ⟨m2, ?_, h2⟩
      split_ifs
      · rw [Function.update_of_ne (by omega)]; exact e2
      · exact e2
    · refine ⟨m1, ?_, by rw [htake]; exact h1⟩
      obtain ⟨o', ho', hnum⟩ := built_num hw hb hx hp
      have hlt : pre.length + 1 < l.length := by
        by_contra hge
        rw [List.getElem?_eq_none (by omega)] at hx
        cases hx
      rw [if_pos ⟨by omega, o', ho', hnum⟩, Function.update_self]

theorem backward_run (hv : ValidSVD svd) {w : QState N} (h0 : w ≠ 0) (hw : ∀ it ∈ l, it.WF)
    (hc : ∀ it ∈ l, HasTN it) (hb : List.Forall₂ Built l ops) : ∀ (m : ℕ), m ≤ l.length →
    ∀ (mps : List (Tensor ℂ)) (d : PShift.Saved) (s : List (Tensor ℂ)),
    IsMPS mps ((circuitOp (l.drop m))ᴴ *ᵥ w) → SavedF l v d l.length → SavedB l w d m →
    (∀ A ∈ (PShift.saveBackward svd ops m mps d s).2, Lossless A) →
    ∃ mps' d' s', PShift.saveBackward svd ops m mps d s = (.ok (mps', d'), s') ∧
      SavedF l v d' l.length ∧ SavedB l w d' 0 := by
  intro m
  induction m with
  | zero => intro _ mps d s _ hF hB _; exact ⟨mps, d, s, rfl, hF, hB⟩
  | succ idx ih =>
    intro hm mps d s hmps hF hB hl
    have hn : ops.length = l.length := hb.length_eq.symm
    have hidx : idx < l.length := by omega
    have hmem : l[idx] ∈ l := List.getElem_mem hidx
    obtain ⟨o, it', o', hbo, hw', hc', hop, hbo', hdag, -⟩ := item_dagger_tn l[idx] (hw _ hmem) (hc _ hmem)
    obtain ⟨hs, ha⟩ := built_acts hv hw' hc' hbo'
    obtain ⟨o2, ho2, hbo2⟩ := built_get hb (List.getElem?_eq_getElem hidx)
    have : o2 = o := by unfold Built at hbo hbo2; rw [hbo] at hbo2; cases hbo2; rfl
    subst this
    have hget : pyGet ops (idx : ℤ) = .ok o2 := by
      rw [pyGet_nat (by omega)]
      congr 1
      rw [List.getElem?_eq_getElem (by omega)] at ho2
      exact Option.some.inj ho2
    have hwd : ∀ x ∈ l.drop (idx + 1), x.WF := fun x hx => hw x (List.drop_subset _ _ hx)
    have hne : (circuitOp (l.drop (idx + 1)))ᴴ *ᵥ w ≠ 0 := inv_ne_zero (circuitOp_unitary _ hwd).1 h0
    unfold PShift.saveBackward at hl ⊢
    rw [hget, TNM.lift_ok_bind, hdag, TNM.lift_ok_bind] at hl ⊢
    dsimp only at hl ⊢
    rw [if_pos hs] at hl ⊢
    obtain ⟨m1, s1, e1, h1⟩ := ha.run hmps hne (TNM.logged_left (fun _ => mono_saveBackward _ _ _ _ _) hl)
    rw [TNM.bind_ok e1] at hl ⊢
    have hdrop : (circuitOp (l.drop idx))ᴴ *ᵥ w = it'.op *ᵥ ((circuitOp (l.drop (idx + 1)))ᴴ *ᵥ w) := by
      rw [List.drop_eq_getElem_cons hidx, circuitOp_cons, Matrix.conjTranspose_mul, Matrix.mulVec_mulVec, hop]
    rw [← hdrop] at h1
    refine ih (by omega) m1 _ s1 h1 ?_ ?_ hl
    · intro k x hk hx hp
      obtain ⟨m2, e2, h2⟩ := hF k x hk hx hp
      refine ⟨m2, ?_, h2⟩
      have hlt : k + 1 < l.length := by
        by_contra hge
        rw [List.getElem?_eq_none (by omega)] at hx
        cases hx
      split_ifs
      · rw [Function.update_of_ne (by omega)]; exact e2
      · exact e2
    · intro k x hk hx hp
      have hlt : k < l.length := by
        by_contra hge
        rw [List.getElem?_eq_none (by omega)] at hx
        cases hx
      rcases Nat.lt_or_ge k idx with hki | hki
      · obtain rfl : idx = k + 1 := by omega
        refine ⟨m1, ?_, h1⟩
        obtain ⟨o', ho', hnum⟩ := built_num hw hb hx hp
        rw [if_pos ⟨by omega, o', by simpa using ho', hnum⟩,
          show 2 * l.length - k - 2 = 2 * ops.length - (k + 1) - 1 by omega, Function.update_self]
      · obtain ⟨m2, e2, h2⟩ := hB k x (by omega) hx hp
        refine ⟨m2, ?_, h2⟩
        split_ifs
        · rw [Function.update_of_ne (by omega)]; exact e2
        · exact e2

theorem save_run (hv : ValidSVD svd) (hN : 0 < N) (h0 : v ≠ 0) (hw : ∀ it ∈ l, it.WF) (hc : ∀ it ∈ l, HasTN it)
    (hb : List.Forall₂ Built l ops) (hne : l ≠ []) {ps : PShift} (hi : IsRow ps.init_state v) {c : Circuit}
    (hn : c.nqubits = N) (hg : c.gate = ops) {mo : Op} {O : QOp N} (hO : Acts (mo.TN_operation svd) O)
    (s : List (Tensor ℂ)) (hl : ∀ A ∈ (ps.save_mid_MPS svd c mo s).2, Lossless A) :
    ∃ d psi s', ps.save_mid_MPS svd c mo s = (.ok (d, psi), s') ∧ IsRow psi (circuitOp l *ᵥ v) ∧
      SavedF l v d l.length ∧ SavedB l (O *ᵥ (circuitOp l *ᵥ v)) d 0 := by
  subst hg
  have hlen : c.gate.length = l.length := hb.length_eq.symm
  have hpos : 0 < l.length := List.length_pos_iff.2 hne
  unfold PShift.save_mid_MPS at hl ⊢
  rw [hn] at hl ⊢
  have m5 : ∀ x : List (Tensor ℂ) × PShift.Saved, TNM.Mono (pure x.2 : TNM PShift.Saved) := fun _ => TNM.Mono.pure _
  have m4 : ∀ (svf : Tensor ℂ) (d : PShift.Saved) (mps : List (Tensor ℂ)), TNM.Mono (do
      let last ← (pyGet c.gate ((c.gate.length : ℤ) - 1) : Py _)
      let d := if last.numParams ≠ 0 then Function.update d (c.gate.length - 1) (some mps) else d
      let (_, d) ← PShift.saveBackward svd c.gate c.gate.length mps d
      pure (d, svf) : TNM (PShift.Saved × Tensor ℂ)) := fun svf d mps =>
    (TNM.Mono.lift _).bind fun _ => (mono_saveBackward _ _ _ _ _).bind fun _ => TNM.Mono.pure _
  have m3 : ∀ x : List (Tensor ℂ) × PShift.Saved, TNM.Mono (do
      let svf ← (MPS2StateVec x.1 : Py _)
      let mps ← mo.TN_operation svd x.1
      let last ← (pyGet c.gate ((c.gate.length : ℤ) - 1) : Py _)
      let d := if last.numParams ≠ 0 then Function.update x.2 (c.gate.length - 1) (some mps) else x.2
      let (_, d) ← PShift.saveBackward svd c.gate c.gate.length mps d
      pure (d, svf) : TNM (PShift.Saved × Tensor ℂ)) := fun x =>
    (TNM.Mono.lift _).bind fun svf => (mono_op _ _ _).bind fun mps => m4 svf x.2 mps
  obtain ⟨m1, s1, e1, h1⟩ := sv2mps_exact hv hN hi h0 (s := s) (TNM.logged_left (fun m =>
    (TNM.Mono.lift _).bind fun _ => (mono_saveForward _ _ _ _ _ _).bind m3) hl)
  rw [TNM.bind_ok e1] at hl ⊢
  rw [show raiseIf (m1.length ≠ N) PyErr.valueError = .ok () by simp [raiseIf, h1.1], TNM.lift_ok_bind] at hl ⊢
  have hm0 : IsMPS m1 (circuitOp ([] : List (Item N)) *ᵥ v) := by
    have : circuitOp ([] : List (Item N)) = 1 := rfl
    rw [this, Matrix.one_mulVec]; exact h1
  obtain ⟨m2, d2, s2, e2, h2, hF2⟩ := forward_run hv h0 hw hc hb hb [] rfl m1 (fun _ => none) s1 hm0
    (fun k _ hk => absurd hk (by simp)) (TNM.logged_left m3 hl)
  have e2' : PShift.saveForward svd c.gate 0 c.gate m1 (fun _ => none) s1 = (.ok (m2, d2), s2) := e2
  rw [TNM.bind_ok e2'] at hl ⊢
  dsimp only at hl ⊢
  obtain ⟨psi, e3, h3⟩ := mps2sv_rep h2 hN
  rw [e3, TNM.lift_ok_bind] at hl ⊢
  have hψ : circuitOp l *ᵥ v ≠ 0 := unitary_ne_zero (circuitOp_unitary l hw) h0
  obtain ⟨m4', s4, e4, h4⟩ := hO.run h2 hψ (TNM.logged_left (m4 psi d2) hl)
  rw [TNM.bind_ok e4] at hl ⊢
  obtain ⟨o, ho, hbo⟩ := built_get hb (List.getElem?_eq_getElem (show l.length - 1 < l.length by omega))
  have hget : pyGet c.gate ((c.gate.length : ℤ) - 1) = .ok o := by
    rw [show (c.gate.length : ℤ) - 1 = ((l.length - 1 : ℕ) : ℤ) by omega, pyGet_nat (by omega)]
    congr 1
    rw [List.getElem?_eq_getElem (by omega)] at ho
    exact Option.some.inj ho
  rw [hget, TNM.lift_ok_bind] at hl ⊢
  rw [hlen] at hl ⊢
  have hdr : l.drop l.length = [] := List.drop_length
  have h4' : IsMPS m4' ((circuitOp (l.drop l.length))ᴴ *ᵥ (O *ᵥ (circuitOp l *ᵥ v))) := by
    rw [hdr]
    have : circuitOp ([] : List (Item N)) = 1 := rfl
    rw [this, Matrix.conjTranspose_one, Matrix.one_mulVec]; exact h4
  obtain ⟨m5', d5, s5, e5, hF5, hB5⟩ := backward_run (v := v) hv (hO.2.1 _ hψ) hw hc hb l.length le_rfl m4'
    (if o.numParams ≠ 0 then Function.update d2 (l.length - 1) (some m4') else d2) s4 h4' (by
      intro k x hk hx hp
      obtain ⟨m2, e2, h2⟩ := hF2 k x hk hx hp
      refine ⟨m2, ?_, h2⟩
      have hlt : k + 1 < l.length := by
        by_contra hge
        rw [List.getElem?_eq_none (by omega)] at hx
        cases hx
      split_ifs
      · rw [Function.update_of_ne (by omega)]; exact e2
      · exact e2) (by
      intro k x hk hx hp
      have hlt : k < l.length := by
        by_contra hge
        rw [List.getElem?_eq_none (by omega)] at hx
        cases hx
      obtain rfl : k = l.length - 1 := by omega
      obtain ⟨o', ho', hnum⟩ := built_num hw hb hx hp
      obtain rfl : o' = o := by rw [ho] at ho'; exact (Option.some.inj ho').symm
      refine ⟨m4', ?_, by rw [show l.length - 1 + 1 = l.length by omega]; exact h4'⟩
      rw [if_pos hnum, show 2 * l.length - (l.length - 1) - 2 = l.length - 1 by omega, Function.update_self])
    (TNM.logged_left (fun _ => TNM.Mono.pure _) hl)
  rw [TNM.bind_ok e5]
  exact ⟨d5, psi, s5, rfl, h3, hF5, hB5⟩

end

/-! ## The overlaps -/

theorem grows_overlap (svd : SVDOracle) (m : List (Tensor ℂ)) (d : PShift.Saved) (idx : ℕ) :
    (PShift.overlap svd m d idx).Grows :=
  CM.Grows.read fun _ => (TNM.Mono.lift _).bind fun _ => (TNM.Mono.lift _).bind fun _ => (mono_op _ _ _).bind fun _ =>
    (TNM.Mono.lift _).bind fun _ => (TNM.Mono.lift _).bind fun _ => (TNM.Mono.lift _).bind fun _ =>
      (TNM.Mono.lift _).bind fun _ => (TNM.Mono.lift _).bind fun _ => TNM.Mono.lift' _

theorem savedGet_nat {d : PShift.Saved} {k : ℤ} {n : ℕ} {m : List (Tensor ℂ)} (hk : k = n) (h : d n = some m) :
    PShift.savedGet d k = .ok m := by
  subst hk
  unfold PShift.savedGet
  rw [if_neg (by omega), Int.toNat_natCast, h]

section
variable {svd : SVDOracle} {v : QState N} {O : QOp N} {c : Circuit} {d : PShift.Saved} {m0 : List (Tensor ℂ)}

theorem overlap_run (hv : ValidSVD svd) (hN : 0 < N) (h0 : v ≠ 0) {pre post : List (Item N)} {it : Item N}
    (hw : ∀ x ∈ pre ++ it :: post, x.WF) (hc : ∀ x ∈ pre ++ it :: post, HasTN x)
    (hm0 : IsMPS m0 v) (hF : SavedF (pre ++ it :: post) v d (pre ++ it :: post).length)
    (hB : SavedB (pre ++ it :: post) (O *ᵥ (circuitOp (pre ++ it :: post) *ᵥ v)) d 0)
    {opre opost : List Op} (hpre : opre.length = pre.length) (hpost : opost.length = post.length)
    (hne : it.params ≠ []) (x : List ℝ) (hx : x.length = it.params.length) {o : Op}
    (ho : Built (it.withParams x) o) (s : List (Tensor ℂ))
    (hl : ∀ A ∈ (PShift.overlap svd m0 d opre.length ({ c with gate := opre ++ o :: opost }, s)).2.2, Lossless A) :
    ∃ s', PShift.overlap svd m0 d opre.length ({ c with gate := opre ++ o :: opost }, s) =
      (.ok (-(ip ((circuitOp post)ᴴ *ᵥ (O *ᵥ (circuitOp (pre ++ it :: post) *ᵥ v)))
        ((it.withParams x).op *ᵥ (circuitOp pre *ᵥ v))).re), ({ c with gate := opre ++ o :: opost }, s')) := by
  have hmem : it ∈ pre ++ it :: post := by simp
  obtain ⟨-, ha⟩ := built_acts hv (wf_withParams (hw it hmem) hx) (hasTN_withParams (hc it hmem) hx) ho
  have hget : pyGet (opre ++ o :: opost) (opre.length : ℤ) = .ok o := by
    rw [pyGet_nat (by simp)]
    simp
  obtain ⟨mk, ek, hk⟩ : ∃ mk, (if opre.length = 0 then .ok m0 else PShift.savedGet d ((opre.length : ℤ) - 1) : Py _) =
      .ok mk ∧ IsMPS mk (circuitOp pre *ᵥ v) := by
    split_ifs with h
    · obtain rfl : pre = [] := List.length_eq_zero_iff.1 (by omega)
      refine ⟨m0, rfl, ?_⟩
      have : circuitOp ([] : List (Item N)) = 1 := rfl
      rw [this, Matrix.one_mulVec]; exact hm0
    · obtain ⟨mk, e1, e2⟩ := hF (pre.length - 1) it (by simp; omega) (by
        rw [show pre.length - 1 + 1 = pre.length by omega, List.getElem?_append_right (le_refl _), Nat.sub_self]
        rfl) hne
      refine ⟨mk, savedGet_nat (by omega) e1, ?_⟩
      rw [show pre.length - 1 + 1 = pre.length by omega, List.take_left'] at e2
      · exact e2
      · rfl
  obtain ⟨mb, eb, hb⟩ := hB pre.length it (by omega) (by
    rw [List.getElem?_append_right (le_refl _), Nat.sub_self]; rfl) hne
  have hdrop : (pre ++ it :: post).drop (pre.length + 1) = post := by
    rw [List.drop_append, List.drop_eq_nil_of_le (by omega)]; simp
  rw [hdrop] at hb
  have eb' : PShift.savedGet d (2 * ((opre ++ o :: opost).length : ℤ) - (opre.length : ℤ) - 2) = .ok mb := by
    refine savedGet_nat ?_ eb
    simp only [List.length_append, List.length_cons]
    omega
  have hwp : ∀ x ∈ pre, x.WF := fun x hx => hw x (by simp [hx])
  unfold PShift.overlap CM.read at hl ⊢
  dsimp only at hl ⊢
  rw [hget, TNM.lift_ok_bind, ek, TNM.lift_ok_bind] at hl ⊢
  obtain ⟨m1, s1, e1, h1⟩ := ha.run hk (unitary_ne_zero (circuitOp_unitary pre hwp) h0) (s := s)
    (TNM.logged_left (fun _ => (TNM.Mono.lift _).bind fun _ => (TNM.Mono.lift _).bind fun _ =>
      (TNM.Mono.lift _).bind fun _ => (TNM.Mono.lift _).bind fun _ => (TNM.Mono.lift _).bind fun _ =>
        TNM.Mono.lift' _) hl)
  obtain ⟨p1, ep1, hp1⟩ := mps2sv_rep h1 hN
  obtain ⟨p2, ep2, hp2⟩ := mps2sv_rep hb hN
  obtain ⟨pc, epc, hpc⟩ := row_view_col hp1
  obtain ⟨t, et, st, gt⟩ := (row_conj hp2).mulCol hpc
  refine ⟨s1, ?_⟩
  rw [TNM.bind_ok e1, ep1, TNM.lift_ok_bind, eb', TNM.lift_ok_bind, ep2, TNM.lift_ok_bind, epc, TNM.lift_ok_bind,
    et, TNM.lift_ok_bind, squeeze11 st, gt]
  have : (-1.0 : ℝ) = -1 := by norm_num
  rw [this, neg_one_mul]
  rfl

theorem grows_vec2 (svd : SVDOracle) (m : List (Tensor ℂ)) (d : PShift.Saved) (idx : ℕ) :
    ∀ (is : List ℕ) (p : List ℝ), (PShift.grad2Vec svd m d idx is p).Grows
  | [], _ => CM.Grows.pure _
  | _ :: is, _ => (CM.Grows.update _ _).bind fun _ => (grows_overlap _ _ _ _).bind fun _ =>
    (CM.Grows.update _ _).bind fun _ => (grows_vec2 svd m d idx is _).bind fun _ => CM.Grows.pure _

theorem grows_scalar2 (svd : SVDOracle) (m : List (Tensor ℂ)) (d : PShift.Saved) (idx : ℕ) (x : ℝ) :
    (PShift.grad2Scalar svd m d idx x).Grows :=
  (CM.Grows.update _ _).bind fun _ => (grows_overlap _ _ _ _).bind fun _ =>
    (CM.Grows.update _ _).bind fun _ => CM.Grows.pure _

theorem grows_at2 (svd : SVDOracle) (m : List (Tensor ℂ)) (d : PShift.Saved) (idx : ℕ) :
    (PShift.grad2At svd m d idx).Grows := by
  unfold PShift.grad2At
  refine (CM.Grows.read fun c => ?_).bind fun o => ?_
  · split <;> exact TNM.Mono.lift' _
  · split
    · exact CM.Grows.pure _
    · refine (CM.Grows.read fun c => TNM.Mono.lift' _).bind fun p => ?_
      split
      · exact (grows_scalar2 _ _ _ _ _).bind fun _ => CM.Grows.pure _
      · exact grows_vec2 _ _ _ _ _ _
      · exact CM.Grows.lift _

theorem grows_loop2 (svd : SVDOracle) (m : List (Tensor ℂ)) (d : PShift.Saved) :
    ∀ l, (PShift.grad2Loop svd m d l).Grows
  | [] => CM.Grows.pure _
  | idx :: l => (grows_at2 svd m d idx).bind fun _ => (grows_loop2 svd m d l).bind fun _ => CM.Grows.pure _

theorem grad2At_read (svd : SVDOracle) (m : List (Tensor ℂ)) (d : PShift.Saved) {idx : ℕ} {c : Circuit}
    {s : List (Tensor ℂ)} {o : Op}
    (h : c.gate[idx]? = some o) : PShift.grad2At svd m d idx (c, s) = (if o.numParams = 0 then pure []
      else do
        let p ← CM.read (fun c => TNM.lift (PShift.readParams c idx))
        match p with
        | .scalar x => do pure [← PShift.grad2Scalar svd m d idx x]
        | .vec p => PShift.grad2Vec svd m d idx (List.range p.length) p
        | .pylist _ => CM.lift (.error .attributeError) : CM (List ℝ)) (c, s) := by
  unfold PShift.grad2At
  refine CM.bind_ok (a := o) ?_
  unfold CM.read
  dsimp only
  rw [h]
  rfl

theorem grad2At_zero (svd : SVDOracle) (m : List (Tensor ℂ)) (d : PShift.Saved) {idx : ℕ} {c : Circuit}
    {s : List (Tensor ℂ)} {o : Op} (h : c.gate[idx]? = some o) (h0 : o.numParams = 0) :
    PShift.grad2At svd m d idx (c, s) = (.ok [], (c, s)) := by
  rw [grad2At_read svd m d h, if_pos h0]
  rfl

theorem grad2At_vec (svd : SVDOracle) (m : List (Tensor ℂ)) (d : PShift.Saved) {idx : ℕ} {c : Circuit}
    {s : List (Tensor ℂ)} {o : Op} (h : c.gate[idx]? = some o) (h0 : o.numParams ≠ 0) {p : List ℝ}
    (hp : PShift.readParams c idx = .ok (.vec p)) :
    PShift.grad2At svd m d idx (c, s) = PShift.grad2Vec svd m d idx (List.range p.length) p (c, s) := by
  rw [grad2At_read svd m d h, if_neg h0]
  have e : (CM.read (fun c => TNM.lift (PShift.readParams c idx)) : CM PV) (c, s) = (.ok (.vec p), (c, s)) := by
    unfold CM.read TNM.lift
    dsimp only
    rw [hp]
  rw [CM.bind_ok e]

theorem grad2At_scalar (svd : SVDOracle) (m : List (Tensor ℂ)) (d : PShift.Saved) {idx : ℕ} {c : Circuit}
    {s : List (Tensor ℂ)} {o : Op} (h : c.gate[idx]? = some o) (h0 : o.numParams ≠ 0) {x : ℝ}
    (hp : PShift.readParams c idx = .ok (.scalar x)) :
    PShift.grad2At svd m d idx (c, s) = (do pure [← PShift.grad2Scalar svd m d idx x] : CM (List ℝ)) (c, s) := by
  rw [grad2At_read svd m d h, if_neg h0]
  have e : (CM.read (fun c => TNM.lift (PShift.readParams c idx)) : CM PV) (c, s) = (.ok (.scalar x), (c, s)) := by
    unfold CM.read TNM.lift
    dsimp only
    rw [hp]
  rw [CM.bind_ok e]

/-- One shifted evaluation. -/
theorem eval_one (hv : ValidSVD svd) (hN : 0 < N) (h0 : v ≠ 0) {pre post : List (Item N)} {it : Item N}
    (hw : ∀ x ∈ pre ++ it :: post, x.WF) (hc : ∀ x ∈ pre ++ it :: post, HasTN x)
    (hm0 : IsMPS m0 v) (hF : SavedF (pre ++ it :: post) v d (pre ++ it :: post).length)
    (hB : SavedB (pre ++ it :: post) (O *ᵥ (circuitOp (pre ++ it :: post) *ᵥ v)) d 0)
    {opre opost : List Op} (hpre : opre.length = pre.length) (hpost : opost.length = post.length)
    (hne : it.params ≠ []) {o : Op} (ho : Built it o) (x : List ℝ) (hx : x.length = it.params.length)
    {β : Type} (f : ℝ → CM β) (hf : ∀ a, (f a).Grows) (s : List (Tensor ℂ))
    (hl : ∀ A ∈ ((do CM.update opre.length x; let e ← PShift.overlap svd m0 d opre.length; f e)
      ({ c with gate := opre ++ o :: opost }, s)).2.2, Lossless A) :
    ∃ o' s', Built (it.withParams x) o' ∧
      (do CM.update opre.length x; let e ← PShift.overlap svd m0 d opre.length; f e)
        ({ c with gate := opre ++ o :: opost }, s) =
        f (-(ip ((circuitOp post)ᴴ *ᵥ (O *ᵥ (circuitOp (pre ++ it :: post) *ᵥ v)))
        ((it.withParams x).op *ᵥ (circuitOp pre *ᵥ v))).re) ({ c with gate := opre ++ o' :: opost }, s') := by
  obtain ⟨-, -, hup⟩ := built_facts (hw it (by simp)) ho
  obtain ⟨o', e1, hb⟩ := hup x hx hne
  rw [CM.bind_ok (update_ok x e1 s)] at hl ⊢
  obtain ⟨s', e2⟩ := overlap_run (c := c) hv hN h0 hw hc hm0 hF hB hpre hpost hne x hx hb s (CM.logged hf hl)
  exact ⟨o', s', hb, CM.bind_ok e2⟩

theorem reset_ok {it : Item N} (hw : it.WF) (hne : it.params ≠ []) {x : List ℝ} (hx : x.length = it.params.length)
    {o1 o : Op} (ho1 : Built (it.withParams x) o1) (ho : Built it o) : o1.params_update it.params = .ok o := by
  obtain ⟨-, -, hup⟩ := built_facts (wf_withParams hw hx) ho1
  rw [params_withParams it x hx] at hup
  obtain ⟨o3, e3, ho3⟩ := hup it.params hx.symm (by
    intro h; rw [h] at hx; exact hne (List.length_eq_zero_iff.1 hx.symm))
  rw [withParams_twice it x _ hx rfl, withParams_self] at ho3
  have : o3 = o := by unfold Built at ho ho3; rw [ho3] at ho; cases ho; rfl
  rw [← this]
  exact e3

theorem grad2Vec_run (hv : ValidSVD svd) (hN : 0 < N) (h0 : v ≠ 0) {pre post : List (Item N)} {it : Item N}
    (hw : ∀ x ∈ pre ++ it :: post, x.WF) (hc : ∀ x ∈ pre ++ it :: post, HasTN x)
    (hm0 : IsMPS m0 v) (hF : SavedF (pre ++ it :: post) v d (pre ++ it :: post).length)
    (hB : SavedB (pre ++ it :: post) (O *ᵥ (circuitOp (pre ++ it :: post) *ᵥ v)) d 0)
    {opre opost : List Op} (hpre : opre.length = pre.length) (hpost : opost.length = post.length)
    (hne : it.params ≠ []) {o : Op} (ho : Built it o) :
    ∀ (is : List ℕ) (_ : ∀ i ∈ is, i < it.params.length) (s : List (Tensor ℂ)),
    (∀ A ∈ (PShift.grad2Vec svd m0 d opre.length is it.params ({ c with gate := opre ++ o :: opost }, s)).2.2,
      Lossless A) →
    ∃ s', PShift.grad2Vec svd m0 d opre.length is it.params ({ c with gate := opre ++ o :: opost }, s) =
        (.ok (is.map fun i => overlapValue O v pre it post i),
          ({ c with gate := opre ++ o :: opost }, s')) := by
  intro is
  induction is with
  | nil => intro _ s _; exact ⟨s, rfl⟩
  | cons i is ih =>
    intro his s hl
    have hil := his i (by simp)
    set p := it.params with hp
    have hb1 : PShift.bump p i (-Real.pi) = p.set i (p.getD i 0 - Real.pi) := by
      rw [bump_eq _ _ _ hil, sub_eq_add_neg]
    have hb2 : PShift.bump (PShift.bump p i (-Real.pi)) i Real.pi = p := by
      rw [hb1, bump_eq _ _ _ (by simpa using hil), List.set_set]
      rw [List.getD_eq_getElem?_getD (l := p.set _ _), List.getElem?_set_self (by simpa using hil), Option.getD_some]
      rw [sub_add_cancel, List.getD_eq_getElem?_getD, List.getElem?_eq_getElem hil, Option.getD_some,
        List.set_getElem_self]
    unfold PShift.grad2Vec at hl ⊢
    dsimp only at hl ⊢
    rw [hb2, hb1] at hl ⊢
    obtain ⟨o1, s1, ho1, e1⟩ := eval_one (O := O) (c := c) hv hN h0 hw hc hm0 hF hB hpre hpost hne ho
      (p.set i (p.getD i 0 - Real.pi)) (by simp [hp]) _ (fun e => (CM.Grows.update _ _).bind fun _ =>
        (grows_vec2 svd m0 d _ is _).bind fun _ => CM.Grows.pure _) s hl
    rw [e1] at hl ⊢
    have e3 := reset_ok (hw it (by simp)) hne (by simp [hp]) ho1 ho
    rw [CM.bind_ok (update_ok p e3 s1)] at hl ⊢
    obtain ⟨s4, e4⟩ := ih (fun i h => his i (by simp [h])) s1 (CM.logged (fun _ => CM.Grows.pure _) hl)
    rw [CM.bind_ok e4]
    exact ⟨s4, rfl⟩

theorem grad2Scalar_run (hv : ValidSVD svd) (hN : 0 < N) (h0 : v ≠ 0) {pre post : List (Item N)} {it : Item N}
    (hw : ∀ x ∈ pre ++ it :: post, x.WF) (hc : ∀ x ∈ pre ++ it :: post, HasTN x)
    (hm0 : IsMPS m0 v) (hF : SavedF (pre ++ it :: post) v d (pre ++ it :: post).length)
    (hB : SavedB (pre ++ it :: post) (O *ᵥ (circuitOp (pre ++ it :: post) *ᵥ v)) d 0)
    {opre opost : List Op} (hpre : opre.length = pre.length) (hpost : opost.length = post.length)
    {x : ℝ} (hp : it.params = [x]) {o : Op} (ho : Built it o) (s : List (Tensor ℂ))
    (hl : ∀ A ∈ (PShift.grad2Scalar svd m0 d opre.length x ({ c with gate := opre ++ o :: opost }, s)).2.2,
      Lossless A) :
    ∃ s', PShift.grad2Scalar svd m0 d opre.length x ({ c with gate := opre ++ o :: opost }, s) =
        (.ok (overlapValue O v pre it post 0), ({ c with gate := opre ++ o :: opost }, s')) := by
  have hne : it.params ≠ [] := by rw [hp]; simp
  unfold PShift.grad2Scalar at hl ⊢
  obtain ⟨o1, s1, ho1, e1⟩ := eval_one (O := O) (c := c) hv hN h0 hw hc hm0 hF hB hpre hpost hne ho
    [x - Real.pi] (by simp [hp]) _ (fun e => (CM.Grows.update _ _).bind fun _ => CM.Grows.pure _) s hl
  rw [e1]
  have e3 := reset_ok (hw it (by simp)) hne (by simp [hp]) ho1 ho
  rw [hp] at e3
  rw [sub_add_cancel, CM.bind_ok (update_ok [x] e3 s1)]
  refine ⟨s1, ?_⟩
  rw [CM.pure_apply]
  congr 2
  unfold overlapValue
  rw [hp]
  rfl

theorem grad2At_run (hv : ValidSVD svd) (hN : 0 < N) (h0 : v ≠ 0) {pre post : List (Item N)} {it : Item N}
    (hw : ∀ x ∈ pre ++ it :: post, x.WF) (hc : ∀ x ∈ pre ++ it :: post, HasTN x)
    (hm0 : IsMPS m0 v) (hF : SavedF (pre ++ it :: post) v d (pre ++ it :: post).length)
    (hB : SavedB (pre ++ it :: post) (O *ᵥ (circuitOp (pre ++ it :: post) *ᵥ v)) d 0)
    {opre opost : List Op} (hpre : opre.length = pre.length) (hpost : opost.length = post.length)
    {o : Op} (ho : Built it o) (hrec : Recorded c opre.length it) (s : List (Tensor ℂ))
    (hl : ∀ A ∈ (PShift.grad2At svd m0 d opre.length ({ c with gate := opre ++ o :: opost }, s)).2.2,
      Lossless A) :
    ∃ s', PShift.grad2At svd m0 d opre.length ({ c with gate := opre ++ o :: opost }, s) =
        (.ok ((List.range it.params.length).map fun i => overlapValue O v pre it post i),
          ({ c with gate := opre ++ o :: opost }, s')) := by
  obtain ⟨hnum, -, -⟩ := built_facts (hw it (by simp)) ho
  have hg : ({ c with gate := opre ++ o :: opost } : Circuit).gate[opre.length]? = some o := by
    dsimp only
    rw [List.getElem?_append_right (le_refl _), Nat.sub_self]
    rfl
  by_cases hp : it.params = []
  · have h0 : o.numParams = 0 := by rw [hnum, hp]; rfl
    rw [grad2At_zero svd m0 d (s := s) hg h0, hp]
    exact ⟨s, rfl⟩
  · have hn0 : o.numParams ≠ 0 := by
      rw [hnum]; exact fun h => hp (List.length_eq_zero_iff.1 h)
    obtain ⟨or, hor, hcp⟩ := hrec hp
    obtain ⟨-, hpv, -⟩ := built_facts (hw it (by simp)) hor
    rcases hpv hp with hvv | ⟨x, hx, hvv⟩
    · have e1 : PShift.readParams { c with gate := opre ++ o :: opost } opre.length = .ok (.vec it.params) := by
        unfold PShift.readParams
        dsimp only
        rw [hcp, hvv]
      rw [grad2At_vec svd m0 d (s := s) hg hn0 e1] at hl ⊢
      exact grad2Vec_run hv hN h0 hw hc hm0 hF hB hpre hpost hp ho _ (fun i h => List.mem_range.1 h) s hl
    · have e1 : PShift.readParams { c with gate := opre ++ o :: opost } opre.length = .ok (.scalar x) := by
        unfold PShift.readParams
        dsimp only
        rw [hcp, hvv]
      rw [grad2At_scalar svd m0 d (s := s) hg hn0 e1] at hl ⊢
      obtain ⟨s', h2⟩ := grad2Scalar_run (O := O) hv hN h0 hw hc hm0 hF hB hpre hpost hx ho s
        (CM.logged (fun _ => CM.Grows.pure _) hl)
      refine ⟨s', ?_⟩
      rw [CM.bind_ok h2, CM.pure_apply, hx]
      rfl

/-- All entries. -/
noncomputable def overlapGrad (O : QOp N) (v : QState N) : List (Item N) → List (Item N) → List ℝ
  | pre, it :: post =>
    ((List.range it.params.length).map fun i => overlapValue O v pre it post i) ++ overlapGrad O v (pre ++ [it]) post
  | _, [] => []

theorem grad2Loop_run (hv : ValidSVD svd) (hN : 0 < N) (h0 : v ≠ 0) {l : List (Item N)}
    (hw : ∀ x ∈ l, x.WF) (hc : ∀ x ∈ l, HasTN x) (hm0 : IsMPS m0 v) (hF : SavedF l v d l.length)
    (hB : SavedB l (O *ᵥ (circuitOp l *ᵥ v)) d 0) {post : List (Item N)} {opost : List Op}
    (hpost : List.Forall₂ Built post opost) :
    ∀ (pre : List (Item N)) (opre : List Op), pre ++ post = l → opre.length = pre.length →
      (∀ k it, post[k]? = some it → Recorded c (opre.length + k) it) → ∀ s : List (Tensor ℂ),
      (∀ A ∈ (PShift.grad2Loop svd m0 d (List.range' opre.length post.length)
        ({ c with gate := opre ++ opost }, s)).2.2, Lossless A) →
      ∃ s', PShift.grad2Loop svd m0 d (List.range' opre.length post.length) ({ c with gate := opre ++ opost }, s) =
          (.ok (overlapGrad O v pre post), ({ c with gate := opre ++ opost }, s')) := by
  induction hpost with
  | nil => intro pre opre _ _ _ s _; exact ⟨s, rfl⟩
  | @cons it o post opost ho hpost ih =>
    intro pre opre hl' hpre hrec s hl
    subst hl'
    rw [List.length_cons, List.range'_succ] at hl ⊢
    unfold PShift.grad2Loop at hl ⊢
    have g2 : ∀ a : List ℝ, CM.Grows (do
        let gs ← PShift.grad2Loop svd m0 d (List.range' (opre.length + 1) post.length)
        pure (a ++ gs)) := fun a => (grows_loop2 _ _ _ _).bind fun _ => CM.Grows.pure _
    obtain ⟨s1, e1⟩ := grad2At_run hv hN h0 hw hc hm0 hF hB hpre hpost.length_eq.symm ho
      (by have := hrec 0 it rfl; simpa using this) s (CM.logged g2 hl)
    rw [CM.bind_ok e1] at hl ⊢
    have ih' := ih (pre ++ [it]) (opre ++ [o]) (by simp) (by simp [hpre]) (fun k x hk => by
        have := hrec (k + 1) x (by simpa using hk)
        rw [List.length_append, List.length_singleton, Nat.add_right_comm]
        exact this) s1
    rw [List.length_append, List.length_singleton, List.append_assoc, List.singleton_append] at ih'
    obtain ⟨s', h2⟩ := ih' (CM.logged (fun _ => CM.Grows.pure _) hl)
    rw [CM.bind_ok h2]
    exact ⟨s', rfl⟩

theorem overlapGrad_length (O : QOp N) (v : QState N) (l : List (Item N)) : ∀ pre,
    (overlapGrad O v pre l).length = (allParams l).length := by
  induction l with
  | nil => intro pre; rfl
  | cons a l ih =>
    intro pre
    rw [overlapGrad, List.length_append, ih]
    simp [allParams]

theorem overlapGrad_get (O : QOp N) (v : QState N) (post : List (Item N)) : ∀ (pre : List (Item N)) (j : ℕ),
    j < (allParams post).length → ∃ p1 it p2 i, post = p1 ++ it :: p2 ∧ i < it.params.length ∧
      j = (allParams p1).length + i ∧ (overlapGrad O v pre post).getD j 0 = overlapValue O v (pre ++ p1) it p2 i := by
  induction post with
  | nil => intro pre j hj; simp [allParams] at hj
  | cons a l ih =>
    intro pre j hj
    have e : allParams (a :: l) = a.params ++ allParams l := by simp [allParams]
    rw [e, List.length_append] at hj
    rw [overlapGrad]
    rcases Nat.lt_or_ge j a.params.length with h | h
    · refine ⟨[], a, l, j, rfl, h, by simp [allParams], ?_⟩
      rw [List.getD_eq_getElem?_getD, List.getElem?_append_left (by simpa using h), List.getElem?_map,
        List.getElem?_range h]
      simp
    · obtain ⟨p1, it, p2, i, h1, h2, h3, h4⟩ := ih (pre ++ [a]) (j - a.params.length) (by omega)
      refine ⟨a :: p1, it, p2, i, by rw [h1]; rfl, h2, ?_, ?_⟩
      · have : allParams (a :: p1) = a.params ++ allParams p1 := by simp [allParams]
        rw [this, List.length_append]; omega
      · rw [List.getD_eq_getElem?_getD, List.getElem?_append_right (by simpa using h), List.length_map,
          List.length_range, ← List.getD_eq_getElem?_getD, h4]
        simp

/-- The whole call. -/
theorem cal_params_grad2_run (hv : ValidSVD svd) (hN : 0 < N) (h0 : v ≠ 0) {l : List (Item N)}
    (hw : ∀ x ∈ l, x.WF) (hc : ∀ x ∈ l, HasTN x) {ps : PShift} (hi : IsRow ps.init_state v)
    (hn : c.nqubits = N) (hF : SavedF l v d l.length)
    (hB : SavedB l (O *ᵥ (circuitOp l *ᵥ v)) d 0) (hb : List.Forall₂ Built l c.gate)
    (hrec : ∀ k it, l[k]? = some it → Recorded c k it) (hnum : (allParams l).length = c.cir_num_params)
    (s : List (Tensor ℂ)) (hl : ∀ A ∈ (ps.cal_params_grad2 svd d (c, s)).2.2, Lossless A) :
    ∃ s', ps.cal_params_grad2 svd d (c, s) = (.ok (overlapGrad O v [] l), (c, s')) := by
  have e0 : (CM.read (fun c => TNM.lift (.ok c.gate.length)) : CM ℕ) (c, s) = (.ok c.gate.length, (c, s)) := rfl
  unfold PShift.cal_params_grad2 at hl ⊢
  rw [CM.bind_ok e0] at hl ⊢
  have g2 : ∀ grads : List ℝ, CM.Grows (do
      CM.read (fun c => TNM.lift (pyAssert (grads.length = c.cir_num_params)))
      pure grads) := fun _ => (CM.Grows.read fun _ => TNM.Mono.lift' _).bind fun _ => CM.Grows.pure _
  have hlog := CM.logged (fun m => (grows_loop2 svd m d (List.range c.gate.length)).bind g2) hl
  obtain ⟨m1, s1, e1, h1⟩ := sv2mps_exact hv hN hi h0 (s := s) (by
    rw [← hn]; exact hlog)
  have e1' : (CM.read (fun c => StateVec2MPS svd ps.init_state c.nqubits) : CM _) (c, s) = (.ok m1, (c, s1)) := by
    unfold CM.read
    dsimp only
    rw [hn, e1]
  rw [CM.bind_ok e1'] at hl ⊢
  have hlen : c.gate.length = l.length := hb.length_eq.symm
  rw [hlen, List.range_eq_range'] at hl ⊢
  obtain ⟨s', h2⟩ := grad2Loop_run (O := O) (c := c) hv hN h0 hw hc h1 hF hB hb [] [] rfl rfl (by simpa using hrec) s1
    (CM.logged g2 hl)
  have h2' : PShift.grad2Loop svd m1 d (List.range' 0 l.length) (c, s1) =
    (.ok (overlapGrad O v [] l), (c, s')) := h2
  refine ⟨s', ?_⟩
  rw [CM.bind_ok h2']
  have e3 : (CM.read (fun c => TNM.lift (pyAssert ((overlapGrad O v [] l).length = c.cir_num_params))) : CM Unit)
        (c, s') = (.ok (), (c, s')) := by
    unfold CM.read TNM.lift
    dsimp only
    rw [overlapGrad_length, hnum]
    simp [pyAssert]
  rw [CM.bind_ok e3]
  rfl

end

end QTN
