import Verif.Lemmas.Lipschitz
import Verif.Props.Accuracy
import Verif.Props.Grad2
import Verif.Props.DemoNet
import Verif.Props.Train

/-! # Property C96: how much results change with the parameters and inputs -/

namespace QTN.Props

open QTN QTN.Spec QTN.DemoNet Matrix Finset

variable {N : ℕ}

theorem sameForm_wf {l l' : List (Item N)} (hs : SameForm l l') (hw : ∀ it ∈ l, it.WF) : ∀ it ∈ l', it.WF := by
  induction hs with
  | nil => simp
  | cons h _ ih =>
    obtain ⟨p, hp, rfl⟩ := h
    intro it hit
    rcases List.mem_cons.1 hit with rfl | hit
    · exact wf_withParams (hw _ (by simp)) hp
    · exact ih (fun x hx => hw x (by simp [hx])) it hit

theorem sameForm_length {l l' : List (Item N)} (hs : SameForm l l') : (allParams l').length = (allParams l).length := by
  induction hs with
  | nil => rfl
  | cons h _ ih =>
    obtain ⟨p, hp, rfl⟩ := h
    simp only [allParams, List.flatMap_cons, List.length_append] at ih ⊢
    rw [params_withParams _ _ hp, hp, ih]

/-- C96: if two circuits consist of the same gates and layers on the same qubits, then applying them to the same input
gives states no further apart than the total change of the parameters, half of it for everything but the phase
gates. -/
theorem C96_state (l l' : List (Item N)) (hs : SameForm l l') (h : ∀ it ∈ l, it.WF) (psi : Tensor ℂ) (v : QState N)
    (hp : IsRow psi v) :
    ∃ (ops ops' : List Op) (sv sv' : Tensor ℂ) (w w' : QState N),
      l.mapM buildItem = .ok ops ∧ l'.mapM buildItem = .ok ops' ∧
      applyRow (circ N ops).U psi = .ok sv ∧ applyRow (circ N ops').U psi = .ok sv' ∧ IsRow sv w ∧ IsRow sv' w' ∧
      dist2 w w' ≤ stateDist l l' * norm2 v := by
  obtain ⟨ops, hops, hU, -⟩ := C13_items N l h
  obtain ⟨ops', hops', hU', -⟩ := C13_items N l' (sameForm_wf hs h)
  obtain ⟨sv, e, r⟩ := applyRow_rep hU hp
  obtain ⟨sv', e', r'⟩ := applyRow_rep hU' hp
  refine ⟨ops, ops', sv, sv', _, _, hops, hops', e, e', r, r', ?_⟩
  have := (near_circuit hs h).1.2.2.2 v
  rw [one_smul] at this
  exact this

theorem near_braket {O : QOp N} {B : ℝ} (hB : ∀ w : QState N, norm2 (O *ᵥ w) ≤ B * norm2 w) (hB0 : 0 ≤ B) {z : ℂ}
    {δ : ℝ} {A A' : QOp N} (h : NearOp z δ A A') (v : QState N) :
    |(braket O (A *ᵥ v)).re - (braket O (A' *ᵥ v)).re| ≤ B * (2 * δ) * norm2 v ^ 2 := by
  obtain ⟨hA, hA', hz, hd⟩ := h
  have h1 := braket_diff hB (A *ᵥ v) (z • (A' *ᵥ v))
  have hz' : star z * z = 1 := by rw [Complex.star_def, Complex.conj_mul', hz]; simp
  rw [braket_phase O _ z hz', norm2_smul, hz, one_mul, norm2_unitary hA, norm2_unitary hA'] at h1
  have h2 : dist2 (A *ᵥ v) (z • (A' *ᵥ v)) ≤ δ * norm2 v := hd v
  have h3 : |(braket O (A *ᵥ v)).re - (braket O (A' *ᵥ v)).re| ≤ ‖braket O (A *ᵥ v) - braket O (A' *ᵥ v)‖ := by
    rw [← Complex.sub_re]; exact Complex.abs_re_le_norm _
  refine h3.trans (h1.trans ?_)
  have h4 : 0 ≤ B * (norm2 v + norm2 v) := mul_nonneg hB0 (add_nonneg (norm2_nonneg _) (norm2_nonneg _))
  calc B * (norm2 v + norm2 v) * dist2 (A *ᵥ v) (z • (A' *ᵥ v))
      ≤ B * (norm2 v + norm2 v) * (δ * norm2 v) := mul_le_mul_of_nonneg_left h2 h4
    _ = B * (2 * δ) * norm2 v ^ 2 := by ring

theorem energy_diff {O : QOp N} {B : ℝ} (hB : ∀ w : QState N, norm2 (O *ᵥ w) ≤ B * norm2 w) (hB0 : 0 ≤ B)
    {l l' : List (Item N)} (hs : SameForm l l') (h : ∀ it ∈ l, it.WF) (v : QState N) :
    |energy O v l - energy O v l'| ≤ B * paramDist (allParams l) (allParams l') * norm2 v ^ 2 := by
  obtain ⟨z, hz⟩ := (near_circuit hs h).2
  have := near_braket hB hB0 hz v
  rwa [mul_div_cancel₀ _ two_ne_zero] at this

/-- C96: expectation values change by no more than the total change of the parameters, times a bound on the observable
and the squared norm of the input; so they change by at most `B·n·ε` if each of `n` parameters changes by at most
`ε`. -/
theorem C96_expectation (svd : SVDOracle) (l l' : List (Item N)) (hs : SameForm l l') (h : ∀ it ∈ l, it.WF)
    (init M : Tensor ℂ) (v : QState N) (hi : IsRow init v) (O : QOp N) (hM : Represents M O) (B : ℝ) (hB0 : 0 ≤ B)
    (hB : ∀ w : QState N, norm2 (O *ᵥ w) ≤ B * norm2 w) (s : List (Tensor ℂ)) :
    ∃ ops ops' r r', l.mapM buildItem = .ok ops ∧ l'.mapM buildItem = .ok ops' ∧
      (circ N ops).cir_expectation svd init M false s = (.ok r, s) ∧
      (circ N ops').cir_expectation svd init M false s = (.ok r', s) ∧
      |r - r'| ≤ B * paramDist (allParams l) (allParams l') * norm2 v ^ 2 ∧
      ∀ ε, (∀ i < (allParams l).length, |(allParams l).getD i 0 - (allParams l').getD i 0| ≤ ε) →
        |r - r'| ≤ B * ((allParams l).length * ε) * norm2 v ^ 2 := by
  obtain ⟨ops, hops, e⟩ := C28_matrix_path svd l h init M v hi O hM s
  obtain ⟨ops', hops', e'⟩ := C28_matrix_path svd l' (sameForm_wf hs h) init M v hi O hM s
  rw [← braket_mul] at e e'
  have hd := energy_diff hB hB0 hs h v
  refine ⟨ops, ops', _, _, hops, hops', e, e', hd, fun ε hε => hd.trans ?_⟩
  refine mul_le_mul_of_nonneg_right (mul_le_mul_of_nonneg_left ?_ hB0) (sq_nonneg _)
  unfold paramDist
  refine (Finset.sum_le_card_nsmul _ _ ε fun i hi => hε i (Finset.mem_range.1 hi)).trans (le_of_eq ?_)
  rw [Finset.card_range, nsmul_eq_mul]

theorem sameForm_setParam (l : List (Item N)) (j : ℕ) (x : ℝ) : SameForm l (setParam l j x) := by
  induction l generalizing j with
  | nil => exact .nil
  | cons it l ih =>
    have hself : ∀ l : List (Item N), SameForm l l := fun l =>
      List.forall₂_same.2 fun it _ => ⟨it.params, rfl, (withParams_self it).symm⟩
    unfold setParam
    split_ifs with hj
    · exact .cons ⟨_, by simp, rfl⟩ (hself l)
    · exact .cons ⟨it.params, rfl, (withParams_self it).symm⟩ (ih _)

theorem allParams_setParam (l : List (Item N)) (j : ℕ) (x : ℝ) : allParams (setParam l j x) = (allParams l).set j x := by
  induction l generalizing j with
  | nil => rfl
  | cons it l ih =>
    unfold setParam
    split_ifs with hj
    · simp only [allParams, List.flatMap_cons]
      rw [params_withParams _ _ (by simp), List.set_append_left _ _ hj]
    · simp only [allParams, List.flatMap_cons] at ih ⊢
      rw [ih, List.set_append_right _ _ (by omega)]

theorem setParam_same (l : List (Item N)) (j : ℕ) : setParam l j ((allParams l).getD j 0) = l := by
  induction l generalizing j with
  | nil => rfl
  | cons it l ih =>
    unfold setParam
    simp only [allParams, List.flatMap_cons] at ih ⊢
    split_ifs with hj
    · rw [List.getD_append _ _ _ _ hj, List.getD_eq_getElem _ _ hj, List.set_getElem_self, withParams_self]
    · rw [List.getD_append_right _ _ _ _ (by omega), ih]

theorem paramDist_set (p : List ℝ) (j : ℕ) (x : ℝ) : paramDist p (p.set j x) ≤ |p.getD j 0 - x| := by
  unfold paramDist
  by_cases hj : j < p.length
  · rw [Finset.sum_eq_single_of_mem j (Finset.mem_range.2 hj)]
    · rw [QTN.getD_set hj, if_pos rfl]
    · intro i _ hi
      rw [QTN.getD_set hj, if_neg hi, sub_self, abs_zero]
  · rw [List.set_eq_of_length_le (by omega)]
    simp

/-- C96: no partial derivative of an expectation value exceeds the bound on the observable times the squared norm of
the input. -/
theorem C96_partial (l : List (Item N)) (h : ∀ it ∈ l, it.WF) (O : QOp N) (B : ℝ) (hB0 : 0 ≤ B)
    (hB : ∀ w : QState N, norm2 (O *ᵥ w) ≤ B * norm2 w) (v : QState N) (j : ℕ) (g : ℝ) (hg : IsPartial O v l j g) :
    |g| ≤ B * norm2 v ^ 2 := by
  have hC : 0 ≤ B * norm2 v ^ 2 := mul_nonneg hB0 (sq_nonneg _)
  set a := (allParams l).getD j 0 with ha
  have hself : setParam l j a = l := setParam_same l j
  have hlip : ∀ᶠ x in nhds a, ‖energy O v (setParam l j x) - energy O v (setParam l j a)‖ ≤ B * norm2 v ^ 2 * ‖x - a‖ := by
    refine Filter.Eventually.of_forall fun x => ?_
    have := energy_diff hB hB0 (sameForm_setParam l j x) h v
    rw [allParams_setParam] at this
    have hd : paramDist (allParams l) ((allParams l).set j x) ≤ |a - x| := paramDist_set _ j x
    rw [hself, Real.norm_eq_abs, Real.norm_eq_abs, abs_sub_comm, abs_sub_comm x]
    refine this.trans ?_
    nlinarith [mul_le_mul_of_nonneg_left hd hC]
  have := hg.hasFDerivAt.le_of_lip' hC hlip
  simpa using this

theorem energy_le {O : QOp N} {B : ℝ} (hB : ∀ w : QState N, norm2 (O *ᵥ w) ≤ B * norm2 w) {l : List (Item N)}
    (h : ∀ it ∈ l, it.WF) (v : QState N) : |energy O v l| ≤ B * norm2 v ^ 2 := by
  have h1 := braket_diff hB (circuitOp l *ᵥ v) 0
  have h0 : norm2 (0 : QState N) = 0 := by simp [norm2]
  have h2 : dist2 (circuitOp l *ᵥ v) 0 = norm2 (circuitOp l *ᵥ v) := by simp [dist2, norm2]
  have h3 : braket O (0 : QState N) = 0 := by simp [braket]
  rw [h0, h2, h3, sub_zero, add_zero, norm2_unitary (circuitOp_unitary l h)] at h1
  refine (Complex.abs_re_le_norm _).trans (h1.trans (le_of_eq (by ring)))

/-- C96: every entry of the gradient `cal_params_grad` returns obeys the same bound, also the entries of a controlled
U3, which are no partial derivatives. -/
theorem C96_gradient (svd : SVDOracle) (l : List (Item N)) (h : ∀ it ∈ l, it.WF) (it : Item N) (hit : it ∈ l)
    (hu : Unflagged it) (init M : Tensor ℂ) (v : QState N) (hi : IsRow init v) (O : QOp N) (hM : Represents M O) (B : ℝ)
    (hB : ∀ w : QState N, norm2 (O *ᵥ w) ≤ B * norm2 w) (s : List (Tensor ℂ)) :
    ∃ ops, l.mapM buildItem = .ok ops ∧
      ∃ g s', (⟨init, M⟩ : PShift).cal_params_grad svd (circ N ops, s) = (.ok g, (circ N ops, s')) ∧
        g.length = (allParams l).length ∧ ∀ x ∈ g, |x| ≤ B * norm2 v ^ 2 := by
  obtain ⟨ops, hops, -⟩ := C13_items N l h
  refine ⟨ops, hops, ?_⟩
  obtain ⟨s', e⟩ := grad_circ (svd := svd) (q := False) (ps := ⟨init, M⟩) hi hM ⟨h, .inl ⟨it, hit, hu⟩⟩
    (mapM_mem hops) s (fun h => h.elim)
  refine ⟨_, s', e, by simp, fun x hx => ?_⟩
  obtain ⟨j, -, rfl⟩ := List.mem_map.1 hx
  unfold shiftValue
  have h1 := abs_le.1 (energy_le hB (sameForm_wf (sameForm_setParam l j ((allParams l).getD j 0 + 0.5 * Real.pi)) h) v)
  have h2 := abs_le.1 (energy_le hB (sameForm_wf (sameForm_setParam l j ((allParams l).getD j 0 - 0.5 * Real.pi)) h) v)
  rw [abs_le]
  constructor <;> norm_num at h1 h2 ⊢ <;> linarith [h1.1, h1.2, h2.1, h2.2]

/-! ## Networks -/

/-- The total change of the angles of the encoding from the sample `x` to the sample `x'`: the entries are used
cyclically, so each counts as often as it is used. -/
noncomputable def inputDist (N : ℕ) (x x' : List ℝ) : ℝ :=
  ∑ i ∈ range N, |x.getD (i % x.length) 0 - x'.getD (i % x'.length) 0|

theorem near_enc {P : Mat2} (hP : IsAxis P) (x x' : List ℝ) :
    NearOp 1 (inputDist N x x' / 2) (encOp P x (List.finRange N)) (encOp P x' (List.finRange N)) := by
  have key := near_onEach (N := N)
    (g := fun j => if j ∈ List.finRange N then rot P (x.getD ((List.finRange N).idxOf j % x.length) 0) else 1)
    (g' := fun j => if j ∈ List.finRange N then rot P (x'.getD ((List.finRange N).idxOf j % x'.length) 0) else 1)
    (δ := fun j => |x.getD (j % x.length) 0 - x'.getD (j % x'.length) 0| / 2) (fun j => ?_)
  · unfold inputDist
    rw [Finset.sum_range, Finset.sum_div]
    exact key
  · simp only [List.mem_finRange, if_true, List.idxOf_finRange]
    exact near_rot1 hP j _ _

theorem near_net {P : Mat2} (hP : IsAxis P) {l l' : List (Item N)} (hs : SameForm l l') (h : ∀ it ∈ l, it.WF) (i : Fin N)
    (x x' : List ℝ) :
    |(braket (onQubit i Spec.Z) (circuitOp l *ᵥ encOp P x (List.finRange N) *ᵥ ket0 N)).re -
      (braket (onQubit i Spec.Z) (circuitOp l' *ᵥ encOp P x' (List.finRange N) *ᵥ ket0 N)).re| ≤
      paramDist (allParams l) (allParams l') + inputDist N x x' := by
  obtain ⟨z, hz⟩ := (near_circuit hs h).2
  have hZ : IsUnitaryOp (onQubit i Spec.Z) := instr_unitary (.z i) trivial
  have := near_braket (O := onQubit i Spec.Z) (B := 1) (fun w => by rw [norm2_unitary hZ, one_mul]) zero_le_one
    (hz.mul (near_enc hP x x')) (ket0 N)
  rw [ket0_norm, ← Matrix.mulVec_mulVec, ← Matrix.mulVec_mulVec] at this
  refine this.trans (le_of_eq (by ring))

theorem drop_block (N : ℕ) (w : List ℝ) (r : ℕ) :
    w.drop (3 * N * r) = weightBlock N w r ++ w.drop (3 * N * (r + 1)) := by
  unfold weightBlock
  rw [Nat.mul_succ, ← List.drop_drop, List.take_append_drop]

theorem demo_params (d : Demo) (w : List ℝ) (hw : w.length = d.perQubit * N) : allParams (d.items N w) = w := by
  have h0 := drop_block N w 0
  rw [mul_zero, List.drop_zero] at h0
  have he : ∀ r, w.length = 3 * N * r → w.drop (3 * N * r) = [] := fun r hr => by rw [← hr]; simp
  cases d
  · have h5 := he 5 (by rw [hw]; simp [Demo.perQubit]; ring)
    conv_rhs => rw [h0, drop_block N w 1, drop_block N w 2, drop_block N w 3, drop_block N w 4, h5]
    simp [Demo.items, qnnItems, allParams, Item.params]
  · have h6 := he 6 (by rw [hw]; simp [Demo.perQubit]; ring)
    conv_rhs => rw [h0, drop_block N w 1, drop_block N w 2, drop_block N w 3, drop_block N w 4, drop_block N w 5, h6]
    simp [Demo.items, qcnnItems, allParams, Item.params]

theorem demo_sameForm (d : Demo) (w w' : List ℝ) (hw : w.length = w'.length) : SameForm (d.items N w) (d.items N w') := by
  have hb : ∀ r, (weightBlock N w' r).length = (weightBlock N w r).length := fun r => by simp [weightBlock, hw]
  have hl : ∀ (k : LayerKind) r, ∃ p, p.length = (Item.layer k (List.finRange N) (weightBlock N w r)).params.length ∧
      Item.layer k (List.finRange N) (weightBlock N w' r) =
        (Item.layer k (List.finRange N) (weightBlock N w r)).withParams p := fun k r => ⟨_, hb r, rfl⟩
  have hbs : ∀ r, ∃ p, p.length = (Item.basic (List.finRange N) (weightBlock N w r) 1).params.length ∧
      Item.basic (List.finRange N) (weightBlock N w' r) 1 =
        (Item.basic (List.finRange N) (weightBlock N w r) 1).withParams p := fun r => ⟨_, hb r, rfl⟩
  have hr : ∃ p, p.length = (Item.ring (List.finRange N)).params.length ∧
      Item.ring (List.finRange N) = (Item.ring (List.finRange N)).withParams p := ⟨[], rfl, rfl⟩
  have hr2 : ∃ p, p.length = (Item.ring2 (List.finRange N)).params.length ∧
      Item.ring2 (List.finRange N) = (Item.ring2 (List.finRange N)).withParams p := ⟨[], rfl, rfl⟩
  cases d
  · exact .cons (hbs 0) (.cons (hbs 1) (.cons (hl _ 2) (.cons hr2 (.cons (hl _ 3) (.cons hr2 (.cons (hl _ 4) .nil))))))
  · exact .cons (hl _ 0) (.cons hr (.cons (hl _ 1) (.cons hr (.cons (hl _ 2) (.cons hr2 (.cons (hl _ 3) (.cons hr2
      (.cons (hbs 4) (.cons (hl _ 5) .nil)))))))))

theorem demo_wf (d : Demo) (hN : 2 ≤ N) (w : List ℝ) (hw : w.length = d.perQubit * N) : ∀ it ∈ d.items N w, it.WF := by
  cases d
  · exact qnnItems_wf hN hw
  · exact qcnnItems_wf hN hw

theorem qnnValue_diff (d : Demo) (hN : 2 ≤ N) {w w' : List ℝ} (hw : w.length = d.perQubit * N)
    (hw' : w'.length = d.perQubit * N) (x x' : List ℝ) (i : Fin N) :
    |qnnValue (d.items N w) x i - qnnValue (d.items N w') x' i| ≤ 4 * (paramDist w w' + inputDist N x x') := by
  have := near_net (P := Spec.Y) (Or.inr (Or.inl rfl)) (demo_sameForm d w w' (by rw [hw, hw'])) (demo_wf d hN w hw) i x x'
  rw [demo_params d w hw, demo_params d w' hw'] at this
  unfold qnnValue qnnState
  rw [← mul_sub, abs_mul, abs_of_pos (by norm_num : (0 : ℝ) < 4)]
  exact mul_le_mul_of_nonneg_left this (by norm_num)

/-- C96: the values of the circuits of test_qnn_demo.py and test_qcnn_demo.py change by at most four times the total
change of the weights and of the encoded angles. -/
theorem C96_qnn (d : Demo) (hN : 2 ≤ N) (w w' : List ℝ) (hw : w.length = d.perQubit * N)
    (hw' : w'.length = d.perQubit * N) (batch batch' : List (List ℝ)) (hb : GoodSamples N batch)
    (hb' : GoodSamples N batch') (hl : batch.length = batch'.length) :
    ∃ t t', Qnn.forward d.layers N w batch = .ok t ∧ Qnn.forward d.layers N w' batch' = .ok t' ∧
      ∀ (k : Fin batch.length) (i : Fin N), |t.get [(k : ℕ), (i : ℕ)] - t'.get [(k : ℕ), (i : ℕ)]| ≤
        4 * (paramDist w w' + inputDist N batch[k] batch'[k]) := by
  obtain ⟨t, e, -, g⟩ := demo_circuit d hN w hw batch hb
  obtain ⟨t', e', -, g'⟩ := demo_circuit d hN w' hw' batch' hb'
  refine ⟨t, t', e, e', fun k i => ?_⟩
  have h1 := g' ⟨k, hl ▸ k.2⟩ i
  simp only at h1
  rw [g k i, h1]
  exact qnnValue_diff d hN hw hw' _ _ i

theorem neurons_diff {n : ℕ} {L : Linear} {z z' : ℕ → ℝ} {D : ℝ} (hz : ∀ j < n, |z j - z' j| ≤ D) (o : ℕ) {r : ℝ}
    (hr : ∑ j ∈ range n, |L.W.get [o, j]| ≤ r) (hD : 0 ≤ D) : |neurons n L z o - neurons n L z' o| ≤ r * D := by
  have hmax : ∀ a b : ℝ, |max a (a / 100) - max b (b / 100)| ≤ |a - b| := fun a b => by
    refine (abs_max_sub_max_le_max _ _ _ _).trans (max_le le_rfl ?_)
    rw [← sub_div, abs_div, abs_of_pos (by norm_num : (0 : ℝ) < 100)]
    exact div_le_self (abs_nonneg _) (by norm_num)
  refine (hmax _ _).trans ?_
  rw [add_sub_add_left_eq_sub, ← Finset.sum_sub_distrib]
  refine (Finset.abs_sum_le_sum_abs _ _).trans (le_trans (Finset.sum_le_sum fun j hj => ?_)
    ((Finset.sum_mul (range n) (fun j => |L.W.get [o, j]|) D).symm.le.trans (mul_le_mul_of_nonneg_right hr hD)))
  rw [← mul_sub, abs_mul]
  exact mul_le_mul_of_nonneg_left (hz j (Finset.mem_range.1 hj)) (abs_nonneg _)

/-- C96: the whole networks of these demos, with their three linear layers: what `forward` gives changes by at most the
product of the row sums of the layers, times four, times the total change of the circuit's weights and of the encoded
angles. -/
theorem C96_net (d : Demo) (hN : 2 ≤ N) (p p' : Net) (hp : Shaped d N p) (hp' : Shaped d N p') (e1 : p'.FC1 = p.FC1)
    (e2 : p'.FC2 = p.FC2) (e3 : p'.FC3 = p.FC3) (r₁ r₂ r₃ : ℝ)
    (h1 : ∀ o < 8, ∑ j ∈ range N, |p.FC1.W.get [o, j]| ≤ r₁) (h2 : ∀ o < 8, ∑ j ∈ range 8, |p.FC2.W.get [o, j]| ≤ r₂)
    (h3 : ∑ j ∈ range 8, |p.FC3.W.get [0, j]| ≤ r₃) (batch batch' : List (List ℝ)) (hb : GoodSamples N batch)
    (hb' : GoodSamples N batch') (hl : batch.length = batch'.length) :
    ∃ t t', p.forward d.layers N batch = .ok t ∧ p'.forward d.layers N batch' = .ok t' ∧
      ∀ k : Fin batch.length, |t.get [(k : ℕ), 0] - t'.get [(k : ℕ), 0]| ≤
        r₃ * (r₂ * (r₁ * (4 * (paramDist p.weight p'.weight + inputDist N batch[k] batch'[k])))) := by
  obtain ⟨t, e, -, g⟩ := C92_net d hN p hp batch hb
  obtain ⟨t', e', -, g'⟩ := C92_net d hN p' hp' batch' hb'
  refine ⟨t, t', e, e', fun k => ?_⟩
  have hk := g' ⟨k, hl ▸ k.2⟩
  simp only at hk
  rw [g k, hk]
  have hr1 : 0 ≤ r₁ := (Finset.sum_nonneg fun _ _ => abs_nonneg _).trans (h1 0 (by norm_num))
  have hr2 : 0 ≤ r₂ := (Finset.sum_nonneg fun _ _ => abs_nonneg _).trans (h2 0 (by norm_num))
  have hD : 0 ≤ 4 * (paramDist p.weight p'.weight + inputDist N batch[k] batch'[k]) :=
    mul_nonneg (by norm_num) (add_nonneg (paramDist_nonneg _ _) (Finset.sum_nonneg fun _ _ => abs_nonneg _))
  unfold netValue
  rw [e1, e2, e3]
  refine neurons_diff (fun j hj => neurons_diff (fun j hj => neurons_diff (fun j hj => ?_) j (h1 j hj) hD) j (h2 j hj)
    (mul_nonneg hr1 hD)) 0 h3 (mul_nonneg hr2 (mul_nonneg hr1 hD))
  rw [dif_pos hj, dif_pos hj]
  exact qnnValue_diff d hN hp.1 hp'.1 _ _ _

/-- C96: the same for `forward3` and `forward1` of test_TN_train2.py, without the factor four. -/
theorem C96_train (hN : 2 ≤ N) (w w' : List ℝ) (hw : w.length = 21 * N) (hw' : w'.length = 21 * N)
    (batch batch' : List (List ℝ)) (hb : GoodBatch N batch) (hb' : GoodBatch N batch')
    (hl : batch.length = batch'.length) :
    ∃ t t', Train2.forward3 N w batch = .ok t ∧ Train2.forward1 N w batch = .ok t ∧
      Train2.forward3 N w' batch' = .ok t' ∧ Train2.forward1 N w' batch' = .ok t' ∧
      ∀ k : Fin batch.length, |t.get [(k : ℕ), 0] - t'.get [(k : ℕ), 0]| ≤
        paramDist w w' + inputDist N batch[k] batch'[k] := by
  obtain ⟨t, c, e3, e1⟩ := C72_matrix hN w hw batch hb
  obtain ⟨t', c', e3', e1'⟩ := C72_matrix hN w' hw' batch' hb'
  refine ⟨t, t', e3, e1, e3', e1', fun k => ?_⟩
  rw [c.2 k (by simp), c'.2 k (by simpa using hl ▸ k.2), List.getElem_map, List.getElem_map]
  have hbk : ∀ r, (weightBlock N w' r).length = (weightBlock N w r).length := fun r => by simp [weightBlock, hw, hw']
  have hP : ∀ w : List ℝ, w.length = 21 * N → allParams (trainItems N w) = w := fun w hw => by
    have h0 := drop_block N w 0
    rw [mul_zero, List.drop_zero] at h0
    have h7 : w.drop (3 * N * 7) = [] := by rw [show 3 * N * 7 = w.length by rw [hw]; ring]; simp
    conv_rhs => rw [h0, drop_block N w 1, drop_block N w 2, drop_block N w 3, drop_block N w 4, drop_block N w 5,
      drop_block N w 6, h7]
    simp [trainItems, allParams, Item.params, weightBlock, List.range_succ]
  have hs : SameForm (trainItems N w) (trainItems N w') := by
    have hl : ∀ r, ∃ p, p.length = (Item.layer .yzy (List.finRange N) (weightBlock N w r)).params.length ∧
      Item.layer .yzy (List.finRange N) (weightBlock N w' r) =
        (Item.layer .yzy (List.finRange N) (weightBlock N w r)).withParams p := fun r => ⟨_, hbk r, rfl⟩
    have hr : ∃ p, p.length = (Item.ring (List.finRange N)).params.length ∧
      Item.ring (List.finRange N) = (Item.ring (List.finRange N)).withParams p := ⟨[], rfl, rfl⟩
    exact .cons (hl 0) (.cons hr (.cons (hl 1) (.cons hr (.cons (hl 2) (.cons hr (.cons (hl 3) (.cons hr
      (.cons (hl 4) (.cons hr (.cons (hl 5) (.cons hr (.cons (hl 6) .nil))))))))))))
  have := near_net (P := Spec.X) (Or.inl rfl) hs (fun it hit => (trainItems_wf hN hw it hit).1) ⟨0, by omega⟩
    batch[k] batch'[k]
  rw [hP w hw, hP w' hw'] at this
  exact this

/-! ## The constants cannot be improved -/

theorem rx_ket0 (θ : ℝ) : circuitOp [Item.gate (.rx θ (0 : Fin 1))] *ᵥ ket0 1 =
    fun a => if a 0 = 0 then (Real.cos (θ / 2) : ℂ) else -Complex.I * Real.sin (θ / 2) := by
  have e : circuitOp [Item.gate (.rx θ (0 : Fin 1))] = onQubit 0 (rot Spec.X θ) := by
    simp [circuitOp, timeOrdered, Item.op, Instr.op]
  rw [e]
  funext a
  have ha : a = ![a 0] := by ext i; fin_cases i; rfl
  rw [ha]
  generalize a 0 = x
  simp only [Matrix.mulVec, dotProduct, sum_bits1, onQubit]
  fin_cases x <;> simp [rot, Spec.X, ket0, funext_iff, mul_comm]

theorem rx_energy (θ : ℝ) : energy (onQubit (0 : Fin 1) Spec.Z) (ket0 1) [.gate (.rx θ 0)] = Real.cos θ := by
  unfold energy
  rw [rx_ket0]
  unfold braket
  simp only [sum_bits1, onQubit]
  have h := Real.cos_sq' (θ / 2)
  have h2 := Real.cos_two_mul (θ / 2)
  rw [mul_div_cancel₀ _ two_ne_zero] at h2
  simp [Spec.Z, -Complex.ofReal_cos, -Complex.ofReal_sin]
  nlinarith

/-- C96: the bound on expectation values cannot be improved: for no `c < 1` does it hold with `c` in place of the bound
`1` on Pauli Z, not even for a single rotation of one qubit. -/
theorem C96_sharp (c : ℝ) (hc : c < 1) : ∃ θ θ' : ℝ, θ ≠ θ' ∧
    c * |θ - θ'| < |energy (onQubit (0 : Fin 1) Spec.Z) (ket0 1) [.gate (.rx θ 0)] -
      energy (onQubit (0 : Fin 1) Spec.Z) (ket0 1) [.gate (.rx θ' 0)]| := by
  by_contra hcon
  push Not at hcon
  have hd : HasDerivAt Real.cos (-1) (Real.pi / 2) := by simpa using Real.hasDerivAt_cos (Real.pi / 2)
  have hC : 0 ≤ c := by
    have := hcon 0 1 (by norm_num)
    have h2 := abs_nonneg (energy (onQubit (0 : Fin 1) Spec.Z) (ket0 1) [.gate (.rx 0 0)] -
      energy (onQubit (0 : Fin 1) Spec.Z) (ket0 1) [.gate (.rx 1 0)])
    norm_num at this
    linarith
  have := hd.hasFDerivAt.le_of_lip' hC (Filter.Eventually.of_forall fun x => by
    by_cases hx : x = Real.pi / 2
    · subst hx; simp
    · have := hcon x (Real.pi / 2) hx
      rw [rx_energy, rx_energy] at this
      simpa [Real.norm_eq_abs] using this)
  simp at this
  linarith

theorem sin_steep (c : ℝ) (hc : c < 1) (b : ℝ) (hb : 0 < b) : ∃ x : ℝ, x ≠ 0 ∧ c * |x / b| < |Real.sin (x / b)| := by
  by_contra hcon
  push Not at hcon
  have hC : 0 ≤ c := by
    have h1 := hcon b hb.ne'
    rw [div_self hb.ne', abs_one, mul_one] at h1
    exact (abs_nonneg _).trans h1
  have hd : HasDerivAt Real.sin 1 0 := by simpa using Real.hasDerivAt_sin 0
  have := hd.hasFDerivAt.le_of_lip' hC (Filter.Eventually.of_forall fun x => by
    by_cases hx : x = 0
    · subst hx; simp
    · have := hcon (x * b) (mul_ne_zero hx hb.ne')
      rw [mul_div_cancel_right₀ _ hb.ne'] at this
      simpa [Real.norm_eq_abs] using this)
  simp at this
  linarith

/-- C96: the speeds cannot be improved either: for no `c < 1` does the bound on states hold with `c` times the speeds,
neither for rotations nor for phase gates. -/
theorem C96_state_sharp (c : ℝ) (hc : c < 1) :
    (∃ (θ : ℝ), θ ≠ 0 ∧ c * stateDist [Item.gate (.rx θ (0 : Fin 1))] [.gate (.rx 0 0)] * norm2 (ket0 1) <
      dist2 (circuitOp [Item.gate (.rx θ (0 : Fin 1))] *ᵥ ket0 1) (circuitOp [Item.gate (.rx 0 0)] *ᵥ ket0 1)) ∧
    ∃ (θ : ℝ) (v : QState 1), θ ≠ 0 ∧ norm2 v = 1 ∧
      c * stateDist [Item.gate (.u1 θ (0 : Fin 1))] [.gate (.u1 0 0)] * norm2 v <
        dist2 (circuitOp [Item.gate (.u1 θ (0 : Fin 1))] *ᵥ v) (circuitOp [Item.gate (.u1 0 0)] *ᵥ v) := by
  have hsum : ∀ f : Bits 1 → ℝ, ∑ a, f a = f ![0] + f ![1] := fun f => by
    rw [← (Equiv.funUnique (Fin 1) (Fin 2)).symm.sum_comp, Fin.sum_univ_two]
    congr 2 <;> (funext i; fin_cases i; rfl)
  constructor
  · obtain ⟨x, hx, h⟩ := sin_steep c hc 4 (by norm_num)
    refine ⟨x, hx, ?_⟩
    rw [rx_ket0, rx_ket0, ket0_norm, mul_one]
    have e1 : stateDist [Item.gate (.rx x (0 : Fin 1))] [.gate (.rx 0 0)] = 2 * |x / 4| := by
      simp [stateDist, Item.speed, paramDist, Item.params, Instr.params, abs_div]
      ring
    have e2 : dist2 (N := 1) (fun a => if a 0 = 0 then (Real.cos (x / 2) : ℂ) else -Complex.I * Real.sin (x / 2))
        (fun a => if a 0 = 0 then (Real.cos (0 / 2) : ℂ) else -Complex.I * Real.sin (0 / 2)) = 2 * |Real.sin (x / 4)| := by
      unfold dist2
      rw [hsum]
      have h1 : ‖(Real.cos (x / 2) : ℂ) - 1‖ ^ 2 = (Real.cos (x / 2) - 1) ^ 2 := by
        rw [← Complex.ofReal_one, ← Complex.ofReal_sub, Complex.norm_real, Real.norm_eq_abs, sq_abs]
      have h2 : ‖-Complex.I * (Real.sin (x / 2) : ℂ)‖ ^ 2 = Real.sin (x / 2) ^ 2 := by
        rw [norm_mul, norm_neg, Complex.norm_I, one_mul, Complex.norm_real, Real.norm_eq_abs, sq_abs]
      simp only [Matrix.cons_val_zero, if_true, zero_div, Real.cos_zero, Complex.ofReal_one, Real.sin_zero,
        Complex.ofReal_zero, mul_zero, sub_zero, one_ne_zero, if_false]
      rw [h1, h2, Real.sqrt_eq_iff_mul_self_eq (by positivity) (by positivity)]
      have h3 : Real.cos (x / 2) = 1 - 2 * Real.sin (x / 4) ^ 2 := by
        rw [show x / 2 = 2 * (x / 4) by ring, Real.cos_two_mul, Real.cos_sq']; ring
      have h4 := Real.sin_sq_add_cos_sq (x / 2)
      have h5 := abs_mul_abs_self (Real.sin (x / 4))
      nlinarith
    rw [e1, e2]
    linarith
  · obtain ⟨x, hx, h⟩ := sin_steep c hc 2 (by norm_num)
    have hket : ∀ θ : ℝ, circuitOp [Item.gate (.u1 θ (0 : Fin 1))] *ᵥ (fun a : Bits 1 => if a 0 = 0 then (0 : ℂ) else 1) =
        fun a => if a 0 = 0 then 0 else Complex.exp (θ * Complex.I) := by
      intro θ
      rw [u1_circuit]
      funext a
      have ha : a = ![a 0] := by ext i; fin_cases i; rfl
      rw [ha]
      generalize a 0 = x
      simp only [Matrix.mulVec, dotProduct, sum_bits1, onQubit]
      fin_cases x <;> simp [Spec.phase]
    have hn : norm2 (fun a : Bits 1 => if a 0 = 0 then (0 : ℂ) else 1) = 1 := by
      unfold norm2
      rw [hsum]
      simp
    refine ⟨x, fun a => if a 0 = 0 then 0 else 1, hx, hn, ?_⟩
    rw [hket, hket, hn, mul_one]
    have e1 : stateDist [Item.gate (.u1 x (0 : Fin 1))] [.gate (.u1 0 0)] = 2 * |x / 2| := by
      simp [stateDist, Item.speed, paramDist, Item.params, Instr.params, abs_div]
      ring
    have e2 : dist2 (N := 1) (fun a => if a 0 = 0 then 0 else Complex.exp (x * Complex.I))
        (fun a => if a 0 = 0 then 0 else Complex.exp ((0 : ℝ) * Complex.I)) = 2 * |Real.sin (x / 2)| := by
      unfold dist2
      rw [hsum]
      have := Complex.norm_exp_I_mul_ofReal_sub_one x
      rw [mul_comm] at this
      simp only [Matrix.cons_val_zero, if_true, sub_self, norm_zero, one_ne_zero, if_false, Complex.ofReal_zero, zero_mul,
        Complex.exp_zero]
      rw [this, zero_pow two_ne_zero, zero_add, Real.sqrt_sq (norm_nonneg _), Real.norm_eq_abs, abs_mul, abs_two]
    rw [e1, e2]
    linarith

/-- Two circuits of a kind with parametrised gates, phase gates and layers. -/
example : SameForm (N := 3)
      [.gate (.cu3 1 2 3 0 1), .gate (.cphase 1 1 2), .layer .xz [2, 0] [1, 2, 3, 4], .gate (.mcnot [0, 1] 2)]
      [.gate (.cu3 4 5 6 0 1), .gate (.cphase 2 1 2), .layer .xz [2, 0] [0, 0, 0, 0], .gate (.mcnot [0, 1] 2)] ∧
    ∀ it ∈ ([.gate (.cu3 1 2 3 0 1), .gate (.cphase 1 1 2), .layer .xz [2, 0] [1, 2, 3, 4], .gate (.mcnot [0, 1] 2)] :
      List (Item 3)), it.WF := by
  refine ⟨.cons ⟨[4, 5, 6], rfl, rfl⟩ (.cons ⟨[2], rfl, rfl⟩ (.cons ⟨[0, 0, 0, 0], rfl, rfl⟩ (.cons ⟨[], rfl, rfl⟩ .nil))), ?_⟩
  intro it hit
  simp only [List.mem_cons, List.not_mem_nil, or_false] at hit
  rcases hit with rfl | rfl | rfl | rfl
  · exact show (0 : Fin 3) ≠ 1 by decide
  · exact show (1 : Fin 3) ≠ 2 by decide
  · exact ⟨by norm_num, by decide, by simp [LayerKind.axes]⟩
  · exact ⟨by simp, by decide⟩

/-- The bound on the observable holds with `B = 1` for Pauli observables. -/
example (i : Fin N) (w : QState N) : norm2 (onQubit i Spec.X *ᵥ w) ≤ 1 * norm2 w := by
  rw [norm2_unitary (show IsUnitaryOp (onQubit i Spec.X) from instr_unitary (.x i) trivial), one_mul]

/-- Weights and samples as the network theorems ask for. -/
example : (List.replicate 45 (0.1 : ℝ)).length = Demo.qnn.perQubit * 3 ∧ (List.replicate 63 (0.1 : ℝ)).length = 21 * 3 ∧
    GoodSamples 3 [[0.1], [0.2, 0.3]] ∧ GoodBatch 3 [[0.1], [0.2, 0.3]] ∧
    inputDist 3 [0.1] [0.2] = 3 * 0.1 := by
  refine ⟨by simp [Demo.perQubit], by simp, ?_, ⟨by simp, ?_⟩, ?_⟩
  · intro x hx; simp at hx; rcases hx with rfl | rfl <;> simp
  · intro x hx; simp at hx; rcases hx with rfl | rfl <;> simp
  · norm_num [inputDist, Finset.sum_range_succ, abs_of_neg]

end QTN.Props
