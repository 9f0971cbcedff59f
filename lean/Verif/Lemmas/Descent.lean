import Verif.Props.Lipschitz
import Mathlib.Analysis.Calculus.Deriv.MeanValue
import Mathlib.Algebra.Order.Chebyshev

/-! # How an expectation value changes when all parameters move (property C107) -/

namespace QTN

open QTN.Spec Matrix Finset Function

/-! ## Functions of one and of several variables -/

theorem descent_one {f f' : ℝ → ℝ} {C : ℝ} (hf : ∀ t, HasDerivAt f (f' t) t) (hL : ∀ t s, |f' t - f' s| ≤ C * |t - s|)
    (a b : ℝ) : f b ≤ f a + f' a * (b - a) + C / 2 * (b - a) ^ 2 := by
  set h : ℝ → ℝ := fun t => f t - f' a * (t - a) - C / 2 * (t - a) ^ 2 with hh
  have hd : ∀ t, HasDerivAt h (f' t - f' a - C * (t - a)) t := by
    intro t
    have h1 : HasDerivAt (fun t : ℝ => t - a) 1 t := (hasDerivAt_id t).sub_const a
    have := ((hf t).sub (h1.const_mul (f' a))).sub ((h1.pow 2).const_mul (C / 2))
    refine this.congr_deriv ?_
    push_cast
    ring
  have hc : Continuous h := continuous_iff_continuousAt.2 fun t => (hd t).continuousAt
  have key : h b ≤ h a := by
    rcases le_total a b with hab | hab
    · refine antitoneOn_of_deriv_nonpos (convex_Ici a) hc.continuousOn
        (fun t _ => (hd t).differentiableAt.differentiableWithinAt) (fun t ht => ?_) (Set.mem_Ici.2 le_rfl)
        (Set.mem_Ici.2 hab) hab
      rw [interior_Ici, Set.mem_Ioi] at ht
      rw [(hd t).deriv]
      have := (abs_le.1 (hL t a)).2
      rw [abs_of_pos (sub_pos.2 ht)] at this
      linarith
    · refine monotoneOn_of_deriv_nonneg (convex_Iic a) hc.continuousOn
        (fun t _ => (hd t).differentiableAt.differentiableWithinAt) (fun t ht => ?_) (Set.mem_Iic.2 hab)
        (Set.mem_Iic.2 le_rfl) hab
      rw [interior_Iic, Set.mem_Iio] at ht
      rw [(hd t).deriv]
      have := (abs_le.1 (hL t a)).1
      rw [abs_of_neg (sub_neg.2 ht)] at this
      linarith
  simp only [hh, sub_self, mul_zero, sub_zero] at key
  norm_num at key
  linarith

/-- The half difference of the values at two shifted places. -/
noncomputable def halfShift (F : (ℕ → ℝ) → ℝ) (x : ℕ → ℝ) (j : ℕ) : ℝ :=
  0.5 * (F (update x j (x j + 0.5 * Real.pi)) - F (update x j (x j - 0.5 * Real.pi)))

theorem sum_abs_update (n : ℕ) (x : ℕ → ℝ) (i : ℕ) (hi : i < n) (a b : ℝ) :
    ∑ k ∈ range n, |update x i a k - update x i b k| = |a - b| := by
  rw [Finset.sum_eq_single_of_mem i (Finset.mem_range.2 hi)]
  · simp
  · intro k _ hk
    simp [hk]

theorem halfShift_lip {F : (ℕ → ℝ) → ℝ} {n : ℕ} {C : ℝ} (hL : ∀ x y, |F x - F y| ≤ C * ∑ i ∈ range n, |x i - y i|)
    (x : ℕ → ℝ) {i j : ℕ} (hi : i < n) (y : ℝ) :
    |halfShift F (update x i y) j - halfShift F x j| ≤ C * |y - x i| := by
  have key : ∀ c, |F (update (update x i y) j (update x i y j + c)) - F (update x j (x j + c))| ≤ C * |y - x i| := by
    intro c
    refine (hL _ _).trans (le_of_eq ?_)
    congr 1
    by_cases h : j = i
    · subst h
      rw [update_idem, update_self, sum_abs_update n x j hi]
      congr 1; ring
    · rw [update_of_ne h, update_comm (Ne.symm h)]
      rw [← sum_abs_update n (update x j (x j + c)) i hi y (x i)]
      have : update (update x j (x j + c)) i (x i) = update x j (x j + c) := by
        conv_rhs => rw [← update_eq_self i (update x j (x j + c))]
        rw [update_of_ne (Ne.symm h)]
      rw [this]
  have h1 := key (0.5 * Real.pi)
  have h2 := key (-(0.5 * Real.pi))
  simp only [← sub_eq_add_neg] at h2
  unfold halfShift
  rw [abs_le] at h1 h2 ⊢
  constructor <;> norm_num at h1 h2 ⊢ <;> linarith [h1.1, h1.2, h2.1, h2.2]

theorem descent_many {F : (ℕ → ℝ) → ℝ} {n : ℕ} {C : ℝ}
    (hL : ∀ x y, |F x - F y| ≤ C * ∑ i ∈ range n, |x i - y i|)
    (hD : ∀ x j, j < n → HasDerivAt (fun t => F (update x j t)) (halfShift F x j) (x j)) (p q : ℕ → ℝ) :
    F q ≤ F p + ∑ j ∈ range n, halfShift F p j * (q j - p j) + C / 2 * (∑ j ∈ range n, |q j - p j|) ^ 2 := by
  set mix : ℕ → ℕ → ℝ := fun k i => if i < k then q i else p i with hmix
  have hstep : ∀ k, mix (k + 1) = update (mix k) k (q k) := by
    intro k
    funext i
    by_cases h : i = k
    · subst h; simp [hmix]
    · rw [update_of_ne h]
      simp only [hmix]
      have : i < k + 1 ↔ i < k := by omega
      simp only [this]
  have h0 : mix 0 = p := by funext i; simp [hmix]
  have hat : ∀ k, mix k k = p k := by intro k; simp [hmix]
  have hdrift : ∀ k j, k ≤ n → |halfShift F (mix k) j - halfShift F p j| ≤ C * ∑ i ∈ range k, |q i - p i| := by
    intro k j
    induction k with
    | zero => intro _; rw [h0]; simp
    | succ k ih =>
      intro hk
      have h1 := ih (by omega)
      have h2 := halfShift_lip hL (mix k) (i := k) (j := j) (by omega) (q k)
      rw [hat] at h2
      rw [hstep, Finset.sum_range_succ, mul_add]
      exact (abs_sub_le _ (halfShift F (mix k) j) _).trans (by linarith)
  have main : ∀ k, k ≤ n → F (mix k) ≤ F p + ∑ j ∈ range k, halfShift F p j * (q j - p j) +
      C / 2 * (∑ j ∈ range k, |q j - p j|) ^ 2 := by
    intro k
    induction k with
    | zero => intro _; rw [h0]; simp
    | succ k ih =>
      intro hk
      have h1 := ih (by omega)
      have hone := descent_one (f := fun t => F (update (mix k) k t))
        (f' := fun t => halfShift F (update (mix k) k t) k) (C := C)
        (fun t => by
          have := hD (update (mix k) k t) k (by omega)
          simpa only [update_idem, update_self] using this)
        (fun t s => by
          have := halfShift_lip hL (update (mix k) k s) (i := k) (j := k) (by omega) t
          simpa only [update_idem, update_self] using this)
        (mix k k) (q k)
      simp only [update_eq_self] at hone
      rw [hat] at hone
      have h2 := hdrift k k (by omega)
      have h3 : halfShift F (mix k) k * (q k - p k) ≤ halfShift F p k * (q k - p k) +
          C * (∑ i ∈ range k, |q i - p i|) * |q k - p k| := by
        have : (halfShift F (mix k) k - halfShift F p k) * (q k - p k) ≤
            C * (∑ i ∈ range k, |q i - p i|) * |q k - p k| := by
          refine (le_abs_self _).trans ?_
          rw [abs_mul]
          exact mul_le_mul_of_nonneg_right h2 (abs_nonneg _)
        linarith
      rw [hstep, Finset.sum_range_succ, Finset.sum_range_succ]
      have h4 : (q k - p k) ^ 2 = |q k - p k| ^ 2 := (sq_abs _).symm
      rw [h4] at hone
      nlinarith
  have hn := main n le_rfl
  have e : F (mix n) = F q := by
    have := hL (mix n) q
    rw [Finset.sum_eq_zero (fun i hi => by simp [hmix, Finset.mem_range.1 hi]), mul_zero] at this
    exact sub_eq_zero.1 (abs_eq_zero.1 (le_antisymm this (abs_nonneg _)))
  rwa [e] at hn

/-! ## The parameters of a circuit as a function -/

variable {N : ℕ}

/-- The circuit with the parameters `x 0`, `x 1`, … -/
noncomputable def fill : List (Item N) → (ℕ → ℝ) → List (Item N)
  | [], _ => []
  | it :: l, x => it.withParams ((List.range it.params.length).map x) ::
      fill l (fun i => x (i + it.params.length))

theorem fill_params (l : List (Item N)) (x : ℕ → ℝ) :
    allParams (fill l x) = (List.range (allParams l).length).map x := by
  induction l generalizing x with
  | nil => rfl
  | cons it l ih =>
    simp only [allParams, fill, List.flatMap_cons, List.length_append] at ih ⊢
    rw [ih, params_withParams _ _ (by simp), List.range_add, List.map_append, List.map_map]
    congr 2
    funext i
    simp [add_comm]

theorem fill_congr (l : List (Item N)) {x y : ℕ → ℝ} (h : ∀ i, i < (allParams l).length → x i = y i) :
    fill l x = fill l y := by
  induction l generalizing x y with
  | nil => rfl
  | cons it l ih =>
    simp only [allParams, List.flatMap_cons, List.length_append] at h ih
    unfold fill
    rw [List.map_congr_left (g := y) (fun i hi => h i (by have := List.mem_range.1 hi; omega)),
      ih (x := fun i => x (i + it.params.length)) (y := fun i => y (i + it.params.length))
        (fun i hi => h _ (by omega))]

theorem map_range_getD (p : List ℝ) : (List.range p.length).map (fun i => p.getD i 0) = p := by
  apply List.ext_getElem
  · simp
  · intro i h1 h2
    simp [List.getD_eq_getElem?_getD, h2]

theorem fill_of_sameForm {l l' : List (Item N)} (hs : SameForm l l') :
    fill l (fun i => (allParams l').getD i 0) = l' := by
  induction hs with
  | nil => rfl
  | @cons it it' l l' h hs ih =>
    obtain ⟨p, hp, rfl⟩ := h
    unfold fill
    simp only [allParams, List.flatMap_cons] at ih ⊢
    rw [params_withParams _ _ hp]
    congr 1
    · congr 1
      rw [← hp]
      conv_rhs => rw [← map_range_getD p]
      refine List.map_congr_left fun i hi => ?_
      rw [List.getD_append _ _ _ _ (List.mem_range.1 hi)]
    · rw [← ih]
      refine congrArg (fill l) (funext fun i => ?_)
      rw [List.getD_append_right _ _ _ _ (by omega), hp, Nat.add_sub_cancel, ih]

theorem fill_set (l : List (Item N)) (x : ℕ → ℝ) (j : ℕ) (hj : j < (allParams l).length) (y : ℝ) :
    setParam (fill l x) j y = fill l (update x j y) := by
  induction l generalizing x j with
  | nil => simp [allParams] at hj
  | cons it l ih =>
    simp only [allParams, List.flatMap_cons, List.length_append] at hj ih
    have hlen : ((it.withParams ((List.range it.params.length).map x))).params.length = it.params.length := by
      rw [params_withParams _ _ (by simp)]; simp
    unfold fill setParam
    rw [hlen]
    split_ifs with h
    · rw [params_withParams _ _ (by simp), withParams_twice _ _ _ (by simp) (by simp)]
      congr 1
      · congr 1
        apply List.ext_getElem
        · simp
        · intro i h1 h2
          rw [List.getElem_set]
          simp only [List.getElem_map, List.getElem_range]
          by_cases hij : j = i
          · subst hij; simp
          · rw [if_neg hij, update_of_ne (Ne.symm hij)]
      · refine congrArg (fill l) (funext fun i => ?_)
        rw [update_of_ne (by omega)]
    · rw [ih _ _ (by omega)]
      congr 1
      · congr 1
        refine List.map_congr_left fun i hi => ?_
        have := List.mem_range.1 hi
        rw [update_of_ne (by omega)]
      · refine congrArg (fill l) (funext fun i => ?_)
        by_cases hi : i = j - it.params.length
        · subst hi
          rw [update_self, show j - it.params.length + it.params.length = j by omega, update_self]
        · rw [update_of_ne hi, update_of_ne (by omega)]

theorem fill_sameForm (l : List (Item N)) (x y : ℕ → ℝ) : SameForm (fill l x) (fill l y) := by
  induction l generalizing x y with
  | nil => exact .nil
  | cons it l ih =>
    exact .cons ⟨_, by rw [params_withParams _ _ (by simp)]; simp, (withParams_twice it _ _ (by simp) (by simp)).symm⟩
      (ih _ _)

theorem sameForm_fill (l : List (Item N)) (x : ℕ → ℝ) : SameForm l (fill l x) := by
  induction l generalizing x with
  | nil => exact .nil
  | cons it l ih => exact .cons ⟨_, by simp, rfl⟩ (ih _)

theorem cu3_withParams (it : Item N) (p : List ℝ) (h : ¬ Props.IsCu3 it) : ¬ Props.IsCu3 (it.withParams p) := by
  cases it with
  | gate ins =>
    cases ins with
    | cu3 => exact absurd trivial h
    | rx | ry | rz | u1 | rxx | ryy | rzz | cphase =>
      rcases p with _ | ⟨a, _ | ⟨b, p⟩⟩ <;> exact fun h => h
    | u3 => rcases p with _ | ⟨a, _ | ⟨b, _ | ⟨c, _ | ⟨d, p⟩⟩⟩⟩ <;> exact fun h => h
    | _ => exact fun h => h
  | _ => exact fun h => h

theorem sameForm_cu3 {l l' : List (Item N)} (hs : SameForm l l') (h : ∀ it ∈ l, ¬ Props.IsCu3 it) :
    ∀ it ∈ l', ¬ Props.IsCu3 it := by
  induction hs with
  | nil => simp
  | cons h' _ ih =>
    obtain ⟨p, -, rfl⟩ := h'
    intro it hit
    rcases List.mem_cons.1 hit with rfl | hit
    · exact cu3_withParams _ _ (h _ (by simp))
    · exact ih (fun x hx => h x (by simp [hx])) it hit

theorem owner_mem {l : List (Item N)} {j : ℕ} {it : Item N} (h : ownerOf l j = some it) : it ∈ l := by
  induction l generalizing j with
  | nil => cases h
  | cons a l ih =>
    unfold ownerOf at h
    split_ifs at h
    · simp only [Option.some.injEq] at h; simp [h]
    · exact List.mem_cons_of_mem _ (ih h)

/-- The expectation value after a move of all parameters: at most the linear prediction and half the square of the
length of the move. -/
theorem energy_descent {O : QOp N} {B : ℝ} (hB0 : 0 ≤ B) (hB : ∀ w : QState N, norm2 (O *ᵥ w) ≤ B * norm2 w)
    {l l' : List (Item N)} (hs : SameForm l l') (hw : ∀ it ∈ l, it.WF) (hc : ∀ it ∈ l, ¬ Props.IsCu3 it) (v : QState N) :
    energy O v l' ≤ energy O v l +
      ∑ j ∈ range (allParams l).length, shiftValue O v l j * ((allParams l').getD j 0 - (allParams l).getD j 0) +
      B * norm2 v ^ 2 / 2 * (∑ j ∈ range (allParams l).length, |(allParams l').getD j 0 - (allParams l).getD j 0|) ^ 2 := by
  set n := (allParams l).length with hn
  set F : (ℕ → ℝ) → ℝ := fun x => energy O v (fill l x) with hF
  have hwf : ∀ x, ∀ it ∈ fill l x, it.WF := fun x => Props.sameForm_wf (sameForm_fill l x) hw
  have hval : ∀ x j, j < n → shiftValue O v (fill l x) j = halfShift F x j := by
    intro x j hj
    unfold shiftValue halfShift
    rw [fill_params, fill_set l x j hj, fill_set l x j hj]
    have : (List.map x (List.range (allParams l).length)).getD j 0 = x j := by
      rw [List.getD_eq_getElem _ _ (by simpa using hj)]
      simp
    rw [this]
  have hL : ∀ x y, |F x - F y| ≤ B * norm2 v ^ 2 * ∑ i ∈ range n, |x i - y i| := by
    intro x y
    refine (Props.energy_diff hB hB0 (fill_sameForm l x y) (hwf x) v).trans (le_of_eq ?_)
    unfold paramDist
    rw [fill_params, fill_params, List.length_map, List.length_range, mul_right_comm]
    congr 1
    refine Finset.sum_congr rfl fun i hi => ?_
    have hi' := Finset.mem_range.1 hi
    rw [List.getD_eq_getElem _ _ (by simpa using hi'), List.getD_eq_getElem _ _ (by simpa using hi')]
    simp
  have hD : ∀ x j, j < n → HasDerivAt (fun t => F (update x j t)) (halfShift F x j) (x j) := by
    intro x j hj
    have h1 := shift_partial O v (fill l x) (hwf x) j (by rw [fill_params]; simpa using hj)
      (fun it hit => Props.shiftOk_of (sameForm_cu3 (sameForm_fill l x) hc it (owner_mem hit)))
    unfold IsPartial at h1
    rw [hval x j hj, fill_params, List.getD_eq_getElem _ _ (by simpa using hj)] at h1
    simp only [fill_set l x j hj, List.getElem_map, List.getElem_range] at h1
    exact h1
  have main := descent_many hL hD (fun i => (allParams l).getD i 0) (fun i => (allParams l').getD i 0)
  have e0 : fill l (fun i => (allParams l).getD i 0) = l :=
    fill_of_sameForm (List.forall₂_same.2 fun it _ => ⟨it.params, rfl, (withParams_self it).symm⟩)
  have e1 := fill_of_sameForm hs
  have ev : ∀ j ∈ range n, halfShift F (fun i => (allParams l).getD i 0) j = shiftValue O v l j := by
    intro j hj
    rw [← hval _ j (Finset.mem_range.1 hj), e0]
  rw [Finset.sum_congr rfl fun j hj => by rw [ev j hj]] at main
  simp only [hF, e0, e1] at main
  exact main

end QTN
