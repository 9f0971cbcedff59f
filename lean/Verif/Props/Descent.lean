import Verif.Lemmas.Descent
import Verif.Props.ShiftDemo
import Verif.Props.RoundGrad

/-! # Property C107: gradient descent lowers the expectation value and comes close to a stationary point -/

namespace QTN.Props

open QTN QTN.Spec Matrix Finset

variable {N : ℕ}

/-- The sum of the squared partial derivatives of what the demo minimises. -/
noncomputable def gradSq (hN : 2 ≤ N) (p : List ℝ) : ℝ :=
  ∑ j ∈ range p.length, deriv (fun x => demoEnergy hN (p.set j x)) (p.getD j 0) ^ 2

/-! ## One step -/

theorem step_exact {n : ℕ} {C lr : ℝ} (hC : 0 ≤ C) (δ d : ℕ → ℝ) (hd : ∀ j ∈ range n, d j = -(lr * δ j)) :
    ∑ j ∈ range n, δ j * d j + C / 2 * (∑ j ∈ range n, |d j|) ^ 2 ≤
      -(lr * (1 - lr * (n * C) / 2) * ∑ j ∈ range n, δ j ^ 2) := by
  have h1 : (∑ j ∈ range n, |d j|) ^ 2 ≤ n * ∑ j ∈ range n, d j ^ 2 := by
    have := sq_sum_le_card_mul_sum_sq (s := range n) (f := fun j => |d j|)
    simpa only [Finset.card_range, sq_abs] using this
  have h2 : ∑ j ∈ range n, d j ^ 2 = lr ^ 2 * ∑ j ∈ range n, δ j ^ 2 := by
    rw [Finset.mul_sum]
    exact Finset.sum_congr rfl fun j hj => by rw [hd j hj]; ring
  have h3 : ∑ j ∈ range n, δ j * d j = -(lr * ∑ j ∈ range n, δ j ^ 2) := by
    rw [Finset.mul_sum, ← Finset.sum_neg_distrib]
    exact Finset.sum_congr rfl fun j hj => by rw [hd j hj]; ring
  rw [h2] at h1
  rw [h3]
  have h4 := mul_le_mul_of_nonneg_left h1 (by positivity : 0 ≤ C / 2)
  refine (add_le_add_right h4 _).trans (le_of_eq ?_)
  ring

theorem step_approx {n : ℕ} {C lr ε : ℝ} (hC : 0 ≤ C) (hl : 0 < lr) (hlr : lr * (n * C) ≤ 1) (δ d : ℕ → ℝ)
    (hd : ∀ j ∈ range n, |d j + lr * δ j| ≤ lr * ε) :
    ∑ j ∈ range n, δ j * d j + C / 2 * (∑ j ∈ range n, |d j|) ^ 2 ≤
      -(lr / 2 * (∑ j ∈ range n, δ j ^ 2 - n * ε ^ 2)) := by
  have h1 : (∑ j ∈ range n, |d j|) ^ 2 ≤ n * ∑ j ∈ range n, d j ^ 2 := by
    have := sq_sum_le_card_mul_sum_sq (s := range n) (f := fun j => |d j|)
    simpa only [Finset.card_range, sq_abs] using this
  have h4 := mul_le_mul_of_nonneg_left h1 (by positivity : 0 ≤ C / 2)
  have hS : 0 ≤ ∑ j ∈ range n, d j ^ 2 := Finset.sum_nonneg fun j _ => sq_nonneg _
  have h5 : C / 2 * (n * ∑ j ∈ range n, d j ^ 2) ≤ 1 / (2 * lr) * ∑ j ∈ range n, d j ^ 2 := by
    rw [← mul_assoc]
    refine mul_le_mul_of_nonneg_right ?_ hS
    rw [le_div_iff₀ (by positivity)]
    nlinarith
  have h6 : ∀ j ∈ range n, δ j * d j + 1 / (2 * lr) * d j ^ 2 ≤ -(lr / 2 * (δ j ^ 2 - ε ^ 2)) := by
    intro j hj
    have hsq : (d j + lr * δ j) ^ 2 ≤ (lr * ε) ^ 2 := sq_le_sq' (abs_le.1 (hd j hj)).1 (abs_le.1 (hd j hj)).2
    have e : δ j * d j + 1 / (2 * lr) * d j ^ 2 = 1 / (2 * lr) * ((d j + lr * δ j) ^ 2 - (lr * δ j) ^ 2) := by
      field_simp
      ring
    rw [e]
    have e2 : -(lr / 2 * (δ j ^ 2 - ε ^ 2)) = 1 / (2 * lr) * ((lr * ε) ^ 2 - (lr * δ j) ^ 2) := by
      field_simp
      ring
    rw [e2]
    exact mul_le_mul_of_nonneg_left (by linarith) (by positivity)
  have h7 := Finset.sum_le_sum h6
  rw [Finset.sum_add_distrib, ← Finset.mul_sum, Finset.sum_neg_distrib, ← Finset.mul_sum, Finset.sum_sub_distrib,
    Finset.sum_const, Finset.card_range, nsmul_eq_mul] at h7
  linarith

theorem descend_getD {lr : ℝ} {p g : List ℝ} (hl : g.length = p.length) {j : ℕ} (hj : j < p.length) :
    (List.zipWith (fun x y => x - lr * y) p g).getD j 0 = p.getD j 0 - lr * g.getD j 0 := by
  simp [List.getD_eq_getElem?_getD, hj, hl]

/-- C107, one step with `cal_params_grad` (circuits without controlled U3 gates that are evaluated by their matrix): the
circuit with the parameters `params - lr*grad` has an expectation value that is lower by at least
`lr (1 - lr n C / 2)` times the sum of the squared entries of the gradient, where `n` is the number of parameters and
`C` bounds the observable times the squared norm of the input.  So no step with `0 ≤ lr ≤ 2/(n C)` raises the
expectation value. -/
theorem C107_step (svd : SVDOracle) (l : List (Item N)) (h : ∀ it ∈ l, it.WF) (hc : ∀ it ∈ l, ¬ IsCu3 it)
    (it : Item N) (hit : it ∈ l) (hu : Unflagged it) (init M : Tensor ℂ) (v : QState N) (hi : IsRow init v)
    (O : QOp N) (hM : Represents M O) (B : ℝ) (hB0 : 0 ≤ B) (hB : ∀ w : QState N, norm2 (O *ᵥ w) ≤ B * norm2 w)
    (lr : ℝ) (s : List (Tensor ℂ)) :
    ∃ (ops : List Op) (g : List ℝ) (s' : List (Tensor ℂ)) (l' : List (Item N)) (ops' : List Op) (r r' : ℝ),
      l.mapM buildItem = .ok ops ∧
      (⟨init, M⟩ : PShift).cal_params_grad svd (circ N ops, s) = (.ok g, (circ N ops, s')) ∧
      SameForm l l' ∧ ShiftDemo.descend lr (allParams l) g = .ok (allParams l') ∧ l'.mapM buildItem = .ok ops' ∧
      (circ N ops).cir_expectation svd init M false s = (.ok r, s) ∧
      (circ N ops').cir_expectation svd init M false s = (.ok r', s) ∧
      r' ≤ r - lr * (1 - lr * ((allParams l).length * (B * norm2 v ^ 2)) / 2) * (g.map (· ^ 2)).sum := by
  obtain ⟨ops, hops, e⟩ := C28_matrix_path svd l h init M v hi O hM s
  obtain ⟨s', eg⟩ := grad_circ (svd := svd) (q := False) (ps := ⟨init, M⟩) hi hM ⟨h, .inl ⟨it, hit, hu⟩⟩
    (mapM_mem hops) s (fun h => h.elim)
  set g := (List.range (allParams l).length).map (shiftValue O v l) with hg
  have hgl : g.length = (allParams l).length := by simp [hg]
  set q := List.zipWith (fun x y => x - lr * y) (allParams l) g with hq
  have hql : q.length = (allParams l).length := by simp [hq, hgl]
  set l' := fill l (fun i => q.getD i 0) with hl'
  have hs : SameForm l l' := sameForm_fill l _
  have hp' : allParams l' = q := by
    rw [hl', fill_params, ← hql, map_range_getD]
  obtain ⟨ops', hops', e'⟩ := C28_matrix_path svd l' (sameForm_wf hs h) init M v hi O hM s
  rw [← braket_mul] at e e'
  refine ⟨ops, g, s', l', ops', _, _, hops, eg, hs, ?_, hops', e, e', ?_⟩
  · rw [hp']
    exact if_pos hgl.symm
  have h1 := energy_descent hB0 hB hs h hc v
  have h2 := step_exact (n := (allParams l).length) (C := B * norm2 v ^ 2) (lr := lr)
    (mul_nonneg hB0 (sq_nonneg _)) (shiftValue O v l)
    (fun j => (allParams l').getD j 0 - (allParams l).getD j 0) (fun j hj => by
      have hj' := Finset.mem_range.1 hj
      rw [hp', hq, descend_getD hgl hj']
      have : g.getD j 0 = shiftValue O v l j := by
        rw [hg, List.getD_eq_getElem _ _ (by simpa using hj')]
        simp
      rw [this]
      ring)
  have h3 : (g.map (· ^ 2)).sum = ∑ j ∈ range (allParams l).length, shiftValue O v l j ^ 2 := by
    rw [hg, List.map_map, Finset.sum_range, ← List.sum_ofFn, List.ofFn_eq_map, ← List.map_coe_finRange_eq_range]
    rw [List.map_map]
    rfl
  rw [h3]
  unfold energy at h1
  linarith

/-- C107, one step on the tensor network path (circuits without controlled U3 gates all of whose operations have a
working `TN_operation`), whatever the decompositions discard: with `lr ≤ 1/(n B)` the expectation value drops by half
the learning rate times the sum of the squared derivatives, up to a term that is quadratic in the accuracy. -/
theorem C107_step_tn {svd : SVDOracle} (hv : ValidSVD svd) (hN : 0 < N) (l : List (Item N)) (h : ∀ it ∈ l, it.WF)
    (hc : ∀ it ∈ l, ¬ IsCu3 it) (ht : ∀ it ∈ l, HasTN it) (init M : Tensor ℂ) (v : QState N) (hi : IsRow init v)
    (hn : norm2 v ≤ 1) (ha : accuracy l < norm2 v) (O : QOp N) (hM : Represents M O) (B : ℝ) (hB0 : 0 ≤ B)
    (hB : ∀ w : QState N, norm2 (O *ᵥ w) ≤ B * norm2 w) (lr : ℝ) (hl : 0 < lr)
    (hlr : lr * ((allParams l).length * B) ≤ 1) :
    ∃ ops, l.mapM buildItem = .ok ops ∧ ∀ s, ∃ (g : List ℝ) (s' : List (Tensor ℂ)) (l' : List (Item N)) (δ : ℕ → ℝ),
      (⟨init, M⟩ : PShift).cal_params_grad svd (circ N ops, s) = (.ok g, (circ N ops, s')) ∧
      SameForm l l' ∧ ShiftDemo.descend lr (allParams l) g = .ok (allParams l') ∧
      (∀ j, j < (allParams l).length → IsPartial O v l j (δ j)) ∧
      energy O v l' ≤ energy O v l - lr / 2 * (∑ j ∈ range (allParams l).length, δ j ^ 2 -
        (allParams l).length * (2 * B * accuracy l) ^ 2) := by
  obtain ⟨ops, hops, hr⟩ := C66_shift_gradient hv hN l h ht init M v hi hn ha O hM B hB
  refine ⟨ops, hops, fun s => ?_⟩
  obtain ⟨g, s', eg, hgl, hg⟩ := hr s
  set q := List.zipWith (fun x y => x - lr * y) (allParams l) g with hq
  have hql : q.length = (allParams l).length := by simp [hq, hgl]
  set l' := fill l (fun i => q.getD i 0) with hl'
  have hs : SameForm l l' := sameForm_fill l _
  have hp' : allParams l' = q := by
    rw [hl', fill_params, ← hql, map_range_getD]
  have hpart : ∀ j, j < (allParams l).length → IsPartial O v l j (shiftValue O v l j) := fun j hj =>
    shift_partial O v l h j hj fun it hit => shiftOk_of (hc it (QTN.owner_mem hit))
  refine ⟨g, s', l', shiftValue O v l, eg, hs, by rw [hp']; exact if_pos hgl.symm, hpart, ?_⟩
  have h1 := energy_descent hB0 hB hs h hc v
  have hnn := norm2_nonneg v
  have hv1 : norm2 v ^ 2 ≤ 1 := by nlinarith
  have hB1 : B * norm2 v ^ 2 ≤ B := by nlinarith
  have h2 := step_approx (n := (allParams l).length) (C := B) (lr := lr) (ε := 2 * B * accuracy l)
    hB0 hl hlr (shiftValue O v l)
    (fun j => (allParams l').getD j 0 - (allParams l).getD j 0) (fun j hj => by
      have hj' := Finset.mem_range.1 hj
      obtain ⟨δ, hδ, hb⟩ := hg j (by omega) (fun it hit => hc it (QTN.owner_mem hit))
      rw [hδ.unique (hpart j hj')] at hb
      rw [hp', hq, descend_getD hgl hj',
        show (allParams l).getD j 0 - lr * g.getD j 0 - (allParams l).getD j 0 + lr * shiftValue O v l j =
          -(lr * (g.getD j 0 - shiftValue O v l j)) by ring, abs_neg, abs_mul, abs_of_pos hl]
      exact mul_le_mul_of_nonneg_left hb hl.le)
  have h3 := mul_le_mul_of_nonneg_right (div_le_div_of_nonneg_right hB1 zero_le_two)
    (sq_nonneg (∑ j ∈ range (allParams l).length, |(allParams l').getD j 0 - (allParams l).getD j 0|))
  linarith

/-- C107, one step with the derivatives of `cal_params_grad2` (circuits without u1, cphase and cu3), for an observable that
is an operation: the same drop, with the accuracy of that routine. -/
theorem C107_step_saved {svd : SVDOracle} (hv : ValidSVD svd) (hN : 0 < N) (l : List (Item N)) (hne : l ≠ [])
    (h : ∀ it ∈ l, it.WF) (hc : ∀ it ∈ l, ¬ IsPhase it) (ht : ∀ it ∈ l, HasTN it) (ps : PShift) (v : QState N)
    (hi : IsRow ps.init_state v) (hn : norm2 v ≤ 1) (m : Item N) (hm : m.WF) (hmt : HasTN m) (hmh : Hermitian m.op)
    (ha : accuracy (l ++ m :: l) < norm2 v) (lr : ℝ) (hl : 0 < lr) (hlr : lr * (allParams l).length ≤ 1) :
    ∃ ops mo, l.mapM buildItem = .ok ops ∧ buildItem m = .ok mo ∧ ∀ s, ∃ d psi s1,
      ps.save_mid_MPS svd (circ N ops) mo s = (.ok (d, psi), s1) ∧
      ∀ s2, ∃ (g : List ℝ) (s' : List (Tensor ℂ)) (l' : List (Item N)) (δ : ℕ → ℝ),
        ps.cal_params_grad2 svd d (circ N ops, s2) = (.ok g, (circ N ops, s')) ∧
        SameForm l l' ∧ ShiftDemo.descend lr (allParams l) g = .ok (allParams l') ∧
        (∀ j, j < (allParams l).length → IsPartial m.op v l j (δ j)) ∧
        energy m.op v l' ≤ energy m.op v l - lr / 2 * (∑ j ∈ range (allParams l).length, δ j ^ 2 -
          (allParams l).length * (accuracy l + accuracy (l ++ m :: l)) ^ 2) := by
  have hc3 : ∀ it ∈ l, ¬ IsCu3 it := by
    intro it hit h3
    refine hc it hit ?_
    revert h3
    cases it with
    | gate ins => cases ins <;> simp [IsCu3, IsPhase]
    | _ => exact fun h => h
  obtain ⟨ops, mo, hops, hmo, hr⟩ := C66_saved_gradient hv hN l hne h ht ps v hi hn m hm hmt hmh ha
  refine ⟨ops, mo, hops, hmo, fun s => ?_⟩
  obtain ⟨d, psi, w, s1, e1, -, -, hr⟩ := hr s
  refine ⟨d, psi, s1, e1, fun s2 => ?_⟩
  obtain ⟨g, s', eg, hgl, hg⟩ := hr s2
  set q := List.zipWith (fun x y => x - lr * y) (allParams l) g with hq
  have hql : q.length = (allParams l).length := by simp [hq, hgl]
  set l' := fill l (fun i => q.getD i 0) with hl'
  have hs : SameForm l l' := sameForm_fill l _
  have hp' : allParams l' = q := by
    rw [hl', fill_params, ← hql, map_range_getD]
  have hpart : ∀ j, j < (allParams l).length → IsPartial m.op v l j (shiftValue m.op v l j) := fun j hj =>
    shift_partial m.op v l h j hj fun it hit => shiftOk_of (hc3 it (QTN.owner_mem hit))
  refine ⟨g, s', l', shiftValue m.op v l, eg, hs, by rw [hp']; exact if_pos hgl.symm, hpart, ?_⟩
  have hB : ∀ w : QState N, norm2 (m.op *ᵥ w) ≤ 1 * norm2 w := fun w => by
    rw [norm2_unitary (item_unitary m hm), one_mul]
  have h1 := energy_descent zero_le_one hB hs h hc3 v
  have hnn := norm2_nonneg v
  have hv1 : 1 * norm2 v ^ 2 ≤ 1 := by nlinarith
  have h2 := step_approx (n := (allParams l).length) (C := 1) (lr := lr) (ε := accuracy l + accuracy (l ++ m :: l))
    zero_le_one hl (by rwa [mul_one]) (shiftValue m.op v l)
    (fun j => (allParams l').getD j 0 - (allParams l).getD j 0) (fun j hj => by
      have hj' := Finset.mem_range.1 hj
      obtain ⟨δ, hδ, hb⟩ := hg j (by omega) (fun it hit => hc it (QTN.owner_mem hit))
      rw [hδ.unique (hpart j hj')] at hb
      rw [hp', hq, descend_getD hgl hj',
        show (allParams l).getD j 0 - lr * g.getD j 0 - (allParams l).getD j 0 + lr * shiftValue m.op v l j =
          -(lr * (g.getD j 0 - shiftValue m.op v l j)) by ring, abs_neg, abs_mul, abs_of_pos hl]
      exact mul_le_mul_of_nonneg_left hb hl.le)
  have h3 := mul_le_mul_of_nonneg_right (div_le_div_of_nonneg_right hv1 zero_le_two)
    (sq_nonneg (∑ j ∈ range (allParams l).length, |(allParams l').getD j 0 - (allParams l).getD j 0|))
  linarith

/-- The hypotheses on the circuit, the input and the observable are those of `C66_saved_gradient`, whose example applies;
the sample circuit has ten parameters. -/
example : (0.1 : ℝ) * (allParams sampleItems).length ≤ 1 ∧ sampleItems ≠ [] := by
  have : (allParams sampleItems).length = 10 := rfl
  rw [this]
  exact ⟨by norm_num, by simp [sampleItems]⟩

/-- The hypotheses of `C107_step` hold for a circuit of layers and rotations and the observable Z on qubit 0. -/
example : ∃ (M init : Tensor ℂ), IsRow init (ket0 3) ∧ Represents M (onQubit (0 : Fin 3) Spec.Z) ∧
    (∀ w : QState 3, norm2 (onQubit (0 : Fin 3) Spec.Z *ᵥ w) ≤ 1 * norm2 w) ∧ (∀ it ∈ gradCircuit, it.WF) ∧
    (∀ it ∈ gradCircuit, ¬ IsCu3 it) ∧ ∃ it ∈ gradCircuit, Unflagged it := by
  obtain ⟨M, h1, h2⟩ := z_example
  refine ⟨M, ShiftDemo.psi 3, demo_psi 3, h1, h2, gradCircuit_wf, ?_, gradCircuit_unflagged⟩
  simp [gradCircuit, IsCu3]

/-- The hypotheses of `C107_step_tn` hold for the circuit of the demo with four qubits, whose accuracy is below
`4e-7`. -/
example (p : List ℝ) (hp : p.length = 36) : ∃ svd, ValidSVD svd ∧ (∀ it ∈ demoItems 4 p, it.WF) ∧
    (∀ it ∈ demoItems 4 p, ¬ IsCu3 it) ∧ (∀ it ∈ demoItems 4 p, HasTN it) ∧
    accuracy (demoItems 4 p) < norm2 (ket0 4) ∧ (1 / 36 : ℝ) * ((allParams (demoItems 4 p)).length * 1) ≤ 1 := by
  have hw := stack_wf (N := 4) (by norm_num) 2 (p := p) (by omega)
  refine ⟨_, Classical.choose_spec exists_validSVD, fun it h => (hw it h).1, ?_, fun it h => (hw it h).2, ?_, ?_⟩
  · intro it hit
    unfold demoItems stack stack stack at hit
    fin_cases hit <;> exact fun h => h
  · rw [demo_accuracy_four, ket0_norm]; norm_num
  · unfold demoItems
    rw [stack_params 2 (by omega), hp]; norm_num

/-! ## The loops of the demo -/

theorem stack_sameForm (R : ℕ) {p q : List ℝ} (h : p.length = q.length) : SameForm (stack N R p) (stack N R q) := by
  induction R generalizing p q with
  | zero => exact .cons ⟨q.take (3 * N), by simp [Item.params, h], rfl⟩ .nil
  | succ R ih =>
    exact .cons ⟨q.take (3 * N), by simp [Item.params, h], rfl⟩ (.cons ⟨[], rfl, rfl⟩ (ih (by simp [h])))

theorem stack_cu3 (R : ℕ) (p : List ℝ) : ∀ it ∈ stack N R p, ¬ IsCu3 it := by
  induction R generalizing p with
  | zero => intro it hit; obtain rfl := List.mem_singleton.1 hit; exact fun h => h
  | succ R ih =>
    intro it hit
    rcases List.mem_cons.1 hit with rfl | hit
    · exact fun h => h
    rcases List.mem_cons.1 hit with rfl | hit
    · exact fun h => h
    exact ih _ it hit

/-- C107, one step of the demo: if the learning rate is at most one over the number of parameters, a step with
derivatives that are off by at most `ε` lowers the expectation value by half the learning rate times the sum of the
squared derivatives, up to `lr/2 · 9N · ε²`. -/
theorem C107_demo_step (hN : 2 ≤ N) (lr ε : ℝ) (hl : 0 < lr) (hlr : lr * (9 * N) ≤ 1) (p q : List ℝ)
    (hp : p.length = 9 * N) (hs : DescentStep hN lr ε p q) :
    demoEnergy hN q ≤ demoEnergy hN p - lr / 2 * (gradSq hN p - 9 * N * ε ^ 2) := by
  have h3 : p.length = 3 * N * (2 + 1) := by omega
  have h3q : q.length = 3 * N * (2 + 1) := by rw [hs.1]; omega
  have h1 := energy_descent zero_le_one (firstZ_bound hN) (stack_sameForm (N := N) 2 (p := p) (q := q) hs.1.symm)
    (fun it h => (stack_wf hN 2 h3 it h).1) (stack_cu3 2 p) (ket0 N)
  rw [stack_params 2 h3, stack_params 2 h3q, ket0_norm] at h1
  have hn : ((p.length : ℕ) : ℝ) = 9 * N := by rw [hp]; push_cast; ring
  have h2 := step_approx (n := p.length) (C := 1) (lr := lr) (ε := ε) zero_le_one hl (by rw [hn, mul_one]; exact hlr)
    (fun j => shiftValue (firstZ hN) (ket0 N) (stack N 2 p) j) (fun j => q.getD j 0 - p.getD j 0) (fun j hj => by
      obtain ⟨δ, hδ, hb⟩ := hs.2 j (Finset.mem_range.1 hj)
      have e : δ = shiftValue (firstZ hN) (ket0 N) (stack N 2 p) j :=
        hδ.unique (demo_shift hN hp (Finset.mem_range.1 hj))
      rw [← e, show q.getD j 0 - p.getD j 0 + lr * δ = q.getD j 0 - (p.getD j 0 - lr * δ) by ring]
      rwa [abs_of_pos hl] at hb)
  have h4 : gradSq hN p = ∑ j ∈ range p.length, shiftValue (firstZ hN) (ket0 N) (stack N 2 p) j ^ 2 :=
    Finset.sum_congr rfl fun j hj => by rw [(demo_shift hN hp (Finset.mem_range.1 hj)).deriv]; rfl
  rw [h4]
  rw [hn] at h2
  unfold demoEnergy demoItems
  norm_num at h1 h2 ⊢
  linarith

theorem demo_energy_le (hN : 2 ≤ N) {p : List ℝ} (hp : p.length = 9 * N) : |demoEnergy hN p| ≤ 1 := by
  have h := energy_le (firstZ_bound hN) (fun it h => (stack_wf hN 2 (p := p) (by omega) it h).1) (ket0 N)
  rw [ket0_norm] at h
  norm_num at h
  exact h

/-- The loops of the demo as far as needed here. -/
theorem loop_descent (hN : 2 ≤ N) {lr ε : ℝ} (hl : 0 < lr) (hlr : lr * (9 * N) ≤ 1)
    (T : ℕ → List ℝ → TNM (List ℝ)) (hT0 : ∀ p s, T 0 p s = (.ok p, s))
    (hT : ∀ p s, p.length = 9 * N → ∃ m s1, DescentStep hN lr ε p m ∧ ∀ k, T (k + 1) p s = T k m s1) (k : ℕ)
    (p : List ℝ) (hp : p.length = 9 * N) (s : List (Tensor ℂ)) :
    ∃ q s', T k p s = (.ok q, s') ∧ q.length = 9 * N ∧
      ∀ G, (∀ m q' s'', m < k → T m p s = (.ok q', s'') → G ≤ gradSq hN q') →
        demoEnergy hN q ≤ demoEnergy hN p - k * (lr / 2 * (G - 9 * N * ε ^ 2)) := by
  induction k generalizing p s with
  | zero => exact ⟨p, s, hT0 p s, hp, fun G _ => by simp⟩
  | succ k ih =>
    obtain ⟨m, s1, hm, e⟩ := hT p s hp
    obtain ⟨q, s', e2, hq, hG⟩ := ih m (hm.1.trans hp) s1
    refine ⟨q, s', by rw [e, e2], hq, fun G h => ?_⟩
    have h1 := C107_demo_step hN lr ε hl hlr p m hp hm
    have h2 := hG G fun m' q' s'' hm' e' => h (m' + 1) q' s'' (by omega) (by rw [e, e'])
    have h3 := h 0 p s (by omega) (hT0 p s)
    have h4 := mul_le_mul_of_nonneg_left h3 (by linarith : 0 ≤ lr / 2)
    push_cast
    linarith

theorem loop_stationary (hN : 2 ≤ N) {lr ε : ℝ} (hl : 0 < lr) (hlr : lr * (9 * N) ≤ 1)
    (T : ℕ → List ℝ → TNM (List ℝ)) (hT0 : ∀ p s, T 0 p s = (.ok p, s))
    (hT : ∀ p s, p.length = 9 * N → ∃ m s1, DescentStep hN lr ε p m ∧ ∀ k, T (k + 1) p s = T k m s1) (k : ℕ)
    (p : List ℝ) (hp : p.length = 9 * N) (s : List (Tensor ℂ)) :
    (∃ q s', T k p s = (.ok q, s') ∧ demoEnergy hN q ≤ demoEnergy hN p + k * (lr / 2 * (9 * N * ε ^ 2))) ∧
    (0 < k → ∃ m q s', m < k ∧ T m p s = (.ok q, s') ∧ gradSq hN q ≤ 4 / (lr * k) + 9 * N * ε ^ 2) := by
  obtain ⟨q, s', e, hq, hG⟩ := loop_descent hN hl hlr T hT0 hT k p hp s
  refine ⟨⟨q, s', e, ?_⟩, fun hk => ?_⟩
  · have := hG 0 fun _ _ _ _ _ => Finset.sum_nonneg fun _ _ => sq_nonneg _
    linarith
  have hall : ∀ m, ∃ q', ∃ s'', T m p s = (.ok q', s'') := fun m => by
    obtain ⟨q', s'', e', -⟩ := loop_descent hN hl hlr T hT0 hT m p hp s
    exact ⟨q', s'', e'⟩
  choose Q hQ using hall
  obtain ⟨m, hm, hmin⟩ := Finset.exists_min_image (range k) (fun m => gradSq hN (Q m)) ⟨0, by simpa using hk⟩
  obtain ⟨s'', em⟩ := hQ m
  refine ⟨m, Q m, s'', Finset.mem_range.1 hm, em, ?_⟩
  have h1 := hG (gradSq hN (Q m)) fun m' q' t hm' e' => by
    obtain ⟨t', e''⟩ := hQ m'
    rw [e''] at e'
    have : Q m' = q' := by
      have := congrArg Prod.fst e'
      simpa using this
    rw [← this]
    exact hmin m' (Finset.mem_range.2 hm')
  have h2 := abs_le.1 (demo_energy_le hN hp)
  have h3 := abs_le.1 (demo_energy_le hN hq)
  have hk' : (0 : ℝ) < k := by exact_mod_cast hk
  have h4 : lr * k * (gradSq hN (Q m) - 9 * N * ε ^ 2) ≤ 4 := by nlinarith [h2.2, h3.1]
  have h5 : gradSq hN (Q m) - 9 * N * ε ^ 2 ≤ 4 / (lr * k) := by
    rw [le_div_iff₀ (by positivity)]
    linarith
  linarith

/-- C107, the first training loop, for every start and every learning rate of at most one over the number of parameters:
after `k` steps the expectation value is not above the one at the start but for a term quadratic in the accuracy, and at
one of the parameters passed the sum of the squared derivatives is at most `4/(lr k)`, but for another such term. -/
theorem C107_train {svd : SVDOracle} (hv : ValidSVD svd) (hN : 2 ≤ N) (lr : ℝ) (hl : 0 < lr)
    (hlr : lr * (9 * N) ≤ 1) (k : ℕ) (p : List ℝ) (hp : p.length = 9 * N) (ha : accuracy (demoItems N p) < 1)
    (s : List (Tensor ℂ)) :
    (∃ q s', ShiftDemo.train svd N lr k p s = (.ok q, s') ∧
      demoEnergy hN q ≤ demoEnergy hN p + k * (lr / 2 * (9 * N * (2 * accuracy (demoItems N p)) ^ 2))) ∧
    (0 < k → ∃ m q s', m < k ∧ ShiftDemo.train svd N lr m p s = (.ok q, s') ∧
      gradSq hN q ≤ 4 / (lr * k) + 9 * N * (2 * accuracy (demoItems N p)) ^ 2) := by
  refine loop_stationary hN hl hlr (ShiftDemo.train svd N lr) (fun _ _ => rfl) (fun p' s hp' => ?_) k p hp s
  have hac : ∀ q, accuracy (demoItems N q) = accuracy (demoItems N p) := fun q => stack_accuracy 2 q p
  obtain ⟨g, s1, e1, hgl, hg⟩ := C73_gradient hv hN p' hp' (by rw [hac]; exact ha) s
  rw [hac] at hg
  obtain ⟨m, e2, hm⟩ := demo_descend hN lr hgl hg
  obtain ⟨r, s2, e3, -⟩ := C73_forward hv hN m (hm.1.trans hp') (by rw [hac]; exact ha) s1
  refine ⟨m, s2, hm, fun k => ?_⟩
  rw [ShiftDemo.train, TNM.bind_ok e1]
  dsimp only
  rw [e2, TNM.lift_ok_bind, TNM.bind_ok e3]

/-- C107, the second training loop, which uses `parameter_shift.cal_params_grad`. -/
theorem C107_train2 {svd : SVDOracle} (hv : ValidSVD svd) (hN : 2 ≤ N) (lr : ℝ) (hl : 0 < lr)
    (hlr : lr * (9 * N) ≤ 1) (k : ℕ) (p : List ℝ) (hp : p.length = 9 * N) (ha : accuracy (demoItems N p) < 1)
    (s : List (Tensor ℂ)) :
    (∃ q s', ShiftDemo.train2 svd N lr k p s = (.ok q, s') ∧
      demoEnergy hN q ≤ demoEnergy hN p + k * (lr / 2 * (9 * N * (2 * accuracy (demoItems N p)) ^ 2))) ∧
    (0 < k → ∃ m q s', m < k ∧ ShiftDemo.train2 svd N lr m p s = (.ok q, s') ∧
      gradSq hN q ≤ 4 / (lr * k) + 9 * N * (2 * accuracy (demoItems N p)) ^ 2) := by
  refine loop_stationary hN hl hlr (ShiftDemo.train2 svd N lr) (fun _ _ => rfl) (fun p' s hp' => ?_) k p hp s
  have hac : ∀ q, accuracy (demoItems N q) = accuracy (demoItems N p) := fun q => stack_accuracy 2 q p
  obtain ⟨m, s1, e1, hm⟩ := demo_step2 hv hN lr p' hp' (by rw [hac]; exact ha) s
  rw [hac] at hm
  refine ⟨m, s1, hm, fun k => ?_⟩
  rw [ShiftDemo.train2, TNM.bind_ok e1]

/-- Four qubits as in the file: with learning rate 1/36 and 5000 steps, one of the parameters passed has a sum of squared
derivatives below 0.0289. -/
theorem C107_four {svd : SVDOracle} (hv : ValidSVD svd) (p : List ℝ) (hp : p.length = 36) (s : List (Tensor ℂ)) :
    ∃ m q s', m < 5000 ∧ ShiftDemo.train2 svd 4 (1 / 36) m p s = (.ok q, s') ∧
      gradSq (N := 4) (by norm_num) q ≤ 0.0289 := by
  obtain ⟨-, h⟩ := C107_train2 hv (N := 4) (by norm_num) (1 / 36) (by norm_num) (by norm_num) 5000 p hp
    (by rw [demo_accuracy_four]; norm_num) s
  obtain ⟨m, q, s', hm, e, hg⟩ := h (by norm_num)
  refine ⟨m, q, s', hm, e, hg.trans ?_⟩
  rw [demo_accuracy_four]
  norm_num

example : (List.replicate 36 (0.3 : ℝ)).length = 9 * 4 ∧ accuracy (demoItems 4 (List.replicate 36 (0.3 : ℝ))) < 1 ∧
    ∃ svd, ValidSVD svd :=
  ⟨by simp, by rw [demo_accuracy_four]; norm_num, _, Classical.choose_spec exists_validSVD⟩

end QTN.Props
