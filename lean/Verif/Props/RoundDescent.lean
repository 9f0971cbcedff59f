import Verif.Lemmas.RoundDescent

/-! # Property C108: gradient descent in rounded arithmetic -/

namespace QTN.Props

open QTN QTN.Spec Matrix Finset

variable {N : ℕ}

theorem slope_eq {O : QOp N} {v : QState N} {l : List (Item N)} (hw : ∀ it ∈ l, it.WF) (hc : ∀ it ∈ l, ¬ IsCu3 it) :
    slope O v l = ∑ j ∈ range (allParams l).length, shiftValue O v l j ^ 2 :=
  Finset.sum_congr rfl fun j hj => by
    rw [(shift_partial O v l hw j (Finset.mem_range.1 hj) fun it hit => shiftOk_of (hc it (QTN.owner_mem hit))).deriv]

/-- C108, one step, in every floating-point arithmetic, for circuits without controlled U3 gates that are evaluated by
their matrix: the new parameters are floating-point numbers again and not far from the old ones, and the expectation value at them is lower than before
by half the learning rate times the sum of the squared derivatives, up to the square of the error of the step for every
parameter. -/
theorem C108_step (A : Arith) (l : List (Item N)) (hw : ∀ it ∈ l, it.WF) (hu : ∃ it ∈ l, Unflagged it)
    (hc : ∀ it ∈ l, ¬ IsCu3 it) (init M : Tensor ℂ) (v : QState N) (hi : IsRow init v) (hv : norm2 v = 1) (O : QOp N)
    (hM : Represents M O) (B : ℝ) (hB0 : 0 ≤ B) (hB : ∀ w : QState N, norm2 (O *ᵥ w) ≤ B * norm2 w)
    (tn : Circuit → Tensor ℂ → Tensor ℂ → Py ℝ) (lr : ℝ) (hl : 0 < lr) (hlr : lr * ((allParams l).length * B) ≤ 1)
    (p : List ℝ) (hp : p.length = (allParams l).length) (hf : ∀ x ∈ p, A.fl x = x) (X : ℝ) (hX : ∀ x ∈ p, |x| ≤ X)
    (e : ℝ) (he : gradErr A.u A.δ B (setParams l p) ≤ e) :
    ∃ (ops : List Op) (g : List ℝ) (c' : Circuit) (q : List ℝ), (setParams l p).mapM A.buildItem = .ok ops ∧
      A.cal_params_grad tn (circ N ops) init M = .ok (g, c') ∧ A.descend lr p g = .ok q ∧
      q.length = p.length ∧ (∀ x ∈ q, A.fl x = x) ∧
      (∀ j < p.length, |q.getD j 0 - p.getD j 0| ≤ lr * (B + stepErr A.u lr B X e)) ∧
      energy O v (setParams l q) ≤ energy O v (setParams l p) -
        lr / 2 * (slope O v (setParams l p) - (allParams l).length * stepErr A.u lr B X e ^ 2) := by
  have hs := setParams_sameForm l p hp
  have hwp := sameForm_wf hs hw
  have hcp := sameForm_cu3 hs hc
  obtain ⟨ops, g, c', h1, h2, h3, h4, -⟩ := C106_gradient_partial A (setParams l p) hwp (sameForm_unflagged hs hu) init M v
    hi hv O hM B hB0 hB tn
  rw [setParams_params l p hp] at h3 h4
  rw [mapAngles_fixed A l p hp hf] at h4
  set q := List.zipWith (fun x y => A.fl (x - A.fl (A.fl lr * y))) p g with hq
  have hql : q.length = p.length := by simp [hq, h3]
  have hpart : ∀ j, j < p.length → IsPartial O v (setParams l p) j (shiftValue O v (setParams l p) j) := fun j hj =>
    shift_partial O v _ hwp j (by rwa [setParams_params l p hp]) fun it hit => shiftOk_of (hcp it (QTN.owner_mem hit))
  have hbnd : ∀ j, j < p.length → |shiftValue O v (setParams l p) j| ≤ B := fun j hj => by
    have hd1 := C96_partial (setParams l p) hwp O B hB0 hB v j _ (hpart j hj)
    rwa [hv, one_pow, mul_one] at hd1
  have hmove : ∀ j, j < p.length →
      |q.getD j 0 - p.getD j 0 + lr * shiftValue O v (setParams l p) j| ≤ lr * stepErr A.u lr B X e := fun j hj' => by
    obtain ⟨d, hd, hb⟩ := h4 j hj' fun it hit => hcp it (QTN.owner_mem hit)
    rw [hd.unique (hpart j hj')] at hb
    have hqj : q.getD j 0 = A.fl (p.getD j 0 - A.fl (A.fl lr * g.getD j 0)) := by
      simp [hq, List.getD_eq_getElem?_getD, hj', h3]
    rw [hqj]
    refine round_step A hl ?_ (hb.trans he) (hbnd j hj')
    rw [List.getD_eq_getElem _ _ hj']
    exact hX _ (List.getElem_mem _)
  refine ⟨ops, g, c', q, h1, h2, if_pos h3.symm, hql, ?_, ?_, ?_⟩
  · intro x hx
    rw [hq, List.zipWith_eq_zipWith_take_min, ← List.map_uncurry_zip_eq_zipWith] at hx
    obtain ⟨y, -, rfl⟩ := List.mem_map.1 hx
    exact A.fl_fl _
  · intro j hj
    have a1 := abs_le.1 (hmove j hj)
    have a2 := abs_le.1 (hbnd j hj)
    have a3 := mul_le_mul_of_nonneg_left a2.1 hl.le
    have a4 := mul_le_mul_of_nonneg_left a2.2 hl.le
    rw [abs_le]
    constructor <;> nlinarith
  have hdes := energy_descent hB0 hB (setParams_forms l p q hp (hql.trans hp)) hwp hcp v
  rw [setParams_params l p hp, setParams_params l q (hql.trans hp), hv] at hdes
  have hst := step_approx (n := p.length) (C := B) (lr := lr) (ε := stepErr A.u lr B X e) hB0 hl (by rwa [hp])
    (shiftValue O v (setParams l p)) (fun j => q.getD j 0 - p.getD j 0) (fun j hj => hmove j (Finset.mem_range.1 hj))
  rw [slope_eq hwp hcp, setParams_params l p hp, ← hp]
  rw [one_pow, mul_one] at hdes
  linarith

/-- C108, many steps, if the parameters cannot leave `[-X, X]` on the way: the loop returns, and at one of the parameters
passed the sum of the squared derivatives is at most `4 B/(lr k)` plus the number of parameters
times the square of that error. -/
theorem C108_train (A : Arith) (l : List (Item N)) (hw : ∀ it ∈ l, it.WF) (hu : ∃ it ∈ l, Unflagged it)
    (hc : ∀ it ∈ l, ¬ IsCu3 it) (init M : Tensor ℂ) (v : QState N) (hi : IsRow init v) (hv : norm2 v = 1) (O : QOp N)
    (hM : Represents M O) (B : ℝ) (hB0 : 0 ≤ B) (hB : ∀ w : QState N, norm2 (O *ᵥ w) ≤ B * norm2 w)
    (tn : Circuit → Tensor ℂ → Tensor ℂ → Py ℝ) (lr : ℝ) (hl : 0 < lr) (hlr : lr * ((allParams l).length * B) ≤ 1)
    (X e : ℝ) (he : ∀ p : List ℝ, p.length = (allParams l).length → (∀ x ∈ p, |x| ≤ X) →
      gradErr A.u A.δ B (setParams l p) ≤ e)
    (k : ℕ) (hk : 0 < k) (p : List ℝ) (hp : p.length = (allParams l).length) (hf : ∀ x ∈ p, A.fl x = x) (X0 : ℝ)
    (hX0 : ∀ x ∈ p, |x| ≤ X0) (hX : X0 + k * (lr * (B + stepErr A.u lr B X e)) ≤ X) (hS : 0 ≤ stepErr A.u lr B X e) :
    (∃ q, A.train tn l init M lr k p = .ok q ∧ energy O v (setParams l q) ≤ energy O v (setParams l p) +
      k * (lr / 2 * ((allParams l).length * stepErr A.u lr B X e ^ 2))) ∧ ∃ m < k, ∃ q, A.train tn l init M lr m p = .ok q ∧
      slope O v (setParams l q) ≤ 4 * B / (lr * k) + (allParams l).length * stepErr A.u lr B X e ^ 2 := by
  set E := (allParams l).length * stepErr A.u lr B X e ^ 2 with hE
  set S := lr * (B + stepErr A.u lr B X e) with hSdef
  have hS0 : 0 ≤ S := mul_nonneg hl.le (by linarith)
  have main : ∀ (k : ℕ) (p : List ℝ) (X0 : ℝ), p.length = (allParams l).length → (∀ x ∈ p, A.fl x = x) →
      (∀ x ∈ p, |x| ≤ X0) → X0 + k * S ≤ X →
      ∃ q, A.train tn l init M lr k p = .ok q ∧ q.length = p.length ∧
        ∀ G, (∀ m < k, ∀ q', A.train tn l init M lr m p = .ok q' → G ≤ slope O v (setParams l q')) →
          energy O v (setParams l q) ≤ energy O v (setParams l p) - k * (lr / 2 * (G - E)) := by
    intro k
    induction k with
    | zero => intro p _ _ _ _ _; exact ⟨p, rfl, rfl, fun G _ => by simp⟩
    | succ k ih =>
      intro p X0 hp hf hp0 hX
      push_cast at hX
      have hkS : 0 ≤ (k : ℝ) * S := mul_nonneg (Nat.cast_nonneg k) hS0
      have hX0 : ∀ x ∈ p, |x| ≤ X := fun x hx => (hp0 x hx).trans (by linarith)
      obtain ⟨ops, g, c', m, h1, h2, h3, h4, h5, h7, h6⟩ := C108_step A l hw hu hc init M v hi hv O hM B hB0 hB tn lr hl hlr p
        hp hf X hX0 e (he p hp hX0)
      have hT : ∀ k, A.train tn l init M lr (k + 1) p = A.train tn l init M lr k m := by
        intro k
        rw [Arith.train, h1]
        change (do let (g, _) ← A.cal_params_grad tn (circ N ops) init M
                   let q ← A.descend lr p g
                   A.train tn l init M lr k q) = _
        rw [h2]
        change (do let q ← A.descend lr p g
                   A.train tn l init M lr k q) = _
        rw [h3]
        rfl
      obtain ⟨q, e1, e2, e3⟩ := ih m (X0 + S) (h4.trans hp) h5 (fun x hx => by
        obtain ⟨j, hj, rfl⟩ := List.getElem_of_mem hx
        have hj' : j < p.length := by omega
        have b1 := h7 j hj'
        rw [List.getD_eq_getElem _ _ hj, List.getD_eq_getElem _ _ hj'] at b1
        have b2 := hp0 _ (List.getElem_mem hj')
        have b3 := abs_sub_abs_le_abs_sub m[j] p[j]
        linarith) (by linarith)
      refine ⟨q, by rw [hT, e1], e2.trans h4, fun G hG => ?_⟩
      have a1 := e3 G fun m' hm' q' hq' => hG (m' + 1) (by omega) q' (by rw [hT]; exact hq')
      have a2 := hG 0 (by omega) p rfl
      have a3 := mul_le_mul_of_nonneg_left a2 (by linarith : 0 ≤ lr / 2)
      push_cast
      linarith
  obtain ⟨q, e1, e2, e3⟩ := main k p X0 hp hf hX0 hX
  refine ⟨⟨q, e1, ?_⟩, ?_⟩
  · have := e3 0 fun _ _ _ _ => Finset.sum_nonneg fun _ _ => sq_nonneg _
    linarith
  have hall : ∀ m, ∃ q', m < k → A.train tn l init M lr m p = .ok q' := fun m => by
    by_cases hm : m < k
    · obtain ⟨q', e', -⟩ := main m p X0 hp hf hX0 (by
        have : (m : ℝ) * S ≤ k * S := mul_le_mul_of_nonneg_right (by exact_mod_cast hm.le) hS0
        linarith)
      exact ⟨q', fun _ => e'⟩
    · exact ⟨[], fun h => absurd h hm⟩
  choose Q hQ using hall
  obtain ⟨m, hm, hmin⟩ := Finset.exists_min_image (range k) (fun m => slope O v (setParams l (Q m))) ⟨0, by simpa using hk⟩
  have hm' := Finset.mem_range.1 hm
  refine ⟨m, hm', Q m, hQ m hm', ?_⟩
  have b1 := e3 (slope O v (setParams l (Q m))) fun m' hm' q' hq' => by
    rw [hQ m' hm', Except.ok.injEq] at hq'
    rw [← hq']
    exact hmin m' (Finset.mem_range.2 hm')
  have b2 := abs_le.1 (energy_le hB (sameForm_wf (setParams_sameForm l p hp) hw) v)
  have b3 := abs_le.1 (energy_le hB (sameForm_wf (setParams_sameForm l q (e2.trans hp)) hw) v)
  rw [hv] at b2 b3
  have hk' : (0 : ℝ) < k := by exact_mod_cast hk
  have b4 : lr * k * (slope O v (setParams l (Q m)) - E) ≤ 4 * B := by nlinarith [b2.2, b3.1]
  have b5 : slope O v (setParams l (Q m)) - E ≤ 4 * B / (lr * k) := by
    rw [le_div_iff₀ (by positivity)]
    linarith
  linarith

/-- C108, single precision: on up to 4 qubits, for up to 20 gates and layers other than `BasicEntangleLayer` with up to
100 parameters in `[-4, 4]`, and learning rates of at least 0.001, the error of the step is below
`0.0036 B + 0.0003`. -/
theorem C108_float32 (A : Arith) (hu : A.u ≤ 2⁻¹ ^ 24) (hδ : A.δ ≤ 2⁻¹ ^ 23) (hN : N ≤ 4) (l : List (Item N))
    (hw : ∀ it ∈ l, it.WF) (hb : ∀ ws p reps, Item.basic ws p reps ∉ l) (hl : l.length ≤ 20)
    (hn : (allParams l).length ≤ 100) (p : List ℝ) (hp : p.length = (allParams l).length) (h4 : ∀ x ∈ p, |x| ≤ 4)
    (B : ℝ) (hB0 : 0 ≤ B) (lr : ℝ) (hlr : 0.001 ≤ lr) :
    gradErr A.u A.δ B (setParams l p) ≤ 0.0035 * B ∧ stepErr A.u lr B 4 (0.0035 * B) ≤ 0.0036 * B + 0.0003 := by
  have hs := setParams_sameForm l p hp
  refine ⟨C106_float32 A hu hδ hN _ (sameForm_wf hs hw) ?_ (by rw [← hs.length_eq]; exact hl)
    (by rw [setParams_params l p hp, hp]; exact hn) (by rw [setParams_params l p hp]; exact h4) B hB0, ?_⟩
  · intro ws p' reps hmem
    have : ∀ {l l' : List (Item N)}, SameForm l l' → Item.basic ws p' reps ∈ l' → ∃ p'', Item.basic ws p'' reps ∈ l := by
      intro l l' h
      induction h with
      | nil => simp
      | @cons it it' l l' h _ ih =>
        intro hm
        obtain ⟨r, -, rfl⟩ := h
        rcases List.mem_cons.1 hm with hm | hm
        · cases it with
          | basic ws' r' reps' =>
            simp only [Item.withParams, Item.basic.injEq] at hm
            exact ⟨r', by simp [hm.1, hm.2.2]⟩
          | gate ins => simp [Item.withParams] at hm
          | _ => simp [Item.withParams] at hm
        · obtain ⟨p'', h''⟩ := ih hm
          exact ⟨p'', by simp [h'']⟩
    obtain ⟨p'', h''⟩ := this hs hmem
    exact hb ws p'' reps h''
  · have hu0 := A.u_nonneg
    have hu' : A.u ≤ 6e-8 := hu.trans (by norm_num)
    unfold stepErr
    have c1 : (1 + A.u) ^ 3 - 1 ≤ 1.9e-7 := by
      have : (1 + A.u) ^ 3 ≤ (1 + 6e-8) ^ 3 := pow_le_pow_left₀ (by linarith) (by linarith) 3
      refine (sub_le_sub_right this 1).trans (by norm_num)
    have c2 : ((1 + A.u) ^ 3 - 1) * (B + 0.0035 * B) ≤ 1.9e-7 * (B + 0.0035 * B) :=
      mul_le_mul_of_nonneg_right c1 (by nlinarith)
    have c3 : A.u * 4 / lr ≤ 0.0003 := by
      rw [div_le_iff₀ (by linarith)]
      nlinarith
    nlinarith

/-- The hypotheses hold for IEEE single precision and a circuit of layers and gates. -/
example : ∃ (M init : Tensor ℂ), IsRow init (ket0 3) ∧ Represents M (onQubit (0 : Fin 3) Spec.Z) ∧
    (∀ w : QState 3, norm2 (onQubit (0 : Fin 3) Spec.Z *ᵥ w) ≤ 1 * norm2 w) ∧ norm2 (ket0 3) = 1 ∧
    (∀ it ∈ gradCircuit, it.WF) ∧ (∀ it ∈ gradCircuit, ¬ IsCu3 it) ∧ (∃ it ∈ gradCircuit, Unflagged it) ∧
    (0.05 : ℝ) * ((allParams gradCircuit).length * 1) ≤ 1 ∧
    (1 : ℝ) + (40 : ℕ) * (0.05 * (1 + stepErr (binary 24 (by norm_num)).u 0.05 1 4 (0.0035 * 1))) ≤ 4 ∧ (allParams gradCircuit).length = 12 ∧
    gradErr (binary 24 (by norm_num)).u (binary 24 (by norm_num)).δ 1 (setParams gradCircuit (List.replicate 12 0)) ≤
      0.0035 ∧ ∀ x ∈ List.replicate 12 (0 : ℝ), (binary 24 (by norm_num)).fl x = x := by
  obtain ⟨M, h1, h2⟩ := z_example
  have h12 : (allParams gradCircuit).length = 12 := rfl
  have hfl := C108_float32 (binary 24 (by norm_num)) (show (2 : ℝ) ^ (-((24 : ℕ) : ℤ)) ≤ _ by norm_num)
    (show (2 : ℝ) ^ (-((24 : ℕ) : ℤ)) ≤ _ by norm_num) (by norm_num) gradCircuit gradCircuit_wf (by simp [gradCircuit])
    (by simp [gradCircuit]) (by rw [h12]; norm_num) (List.replicate 12 0)
    (by simp [h12]) (by intro x hx; rw [List.eq_of_mem_replicate hx]; norm_num) 1 zero_le_one 0.05 (by norm_num)
  refine ⟨M, ShiftDemo.psi 3, demo_psi 3, h1, h2, ket0_norm 3, gradCircuit_wf, by simp [gradCircuit, IsCu3],
    gradCircuit_unflagged, by rw [h12]; norm_num, ?_, h12, by simpa using hfl.1, ?_⟩
  · have := hfl.2
    push_cast
    linarith
  · intro x hx
    rw [List.eq_of_mem_replicate hx]
    exact (binary 24 (by norm_num)).fl_zero

end QTN.Props
