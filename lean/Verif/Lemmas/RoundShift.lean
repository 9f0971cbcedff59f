import Verif.Lemmas.RoundExpect

/-! # The parameter-shift rule in rounded arithmetic -/

namespace QTN

open Spec Matrix Complex Finset Props

namespace Arith

variable {N : ℕ} {A : Arith}

/-! ## Shifting a parameter -/

theorem addErr_ge {u y d e : ℝ} (hu : 0 ≤ u) (he : 0 ≤ e) : e ≤ addErr u y d e := by
  unfold addErr
  have h1 : 0 ≤ u * |d| := mul_nonneg hu (abs_nonneg _)
  have h2 : 0 ≤ u * |y| := mul_nonneg hu (abs_nonneg _)
  nlinarith

theorem plus_err {y x d e z : ℝ} (h : |y - x| ≤ e) (hz : x + d = z) : |A.plus y d - z| ≤ addErr A.u z d e := by
  subst hz
  unfold plus addErr
  have h1 := A.fl_err (y + A.fl d)
  have h2 := A.fl_err d
  have hu := A.u_nonneg
  have h3 : |y + A.fl d - (x + d)| ≤ e + A.u * |d| := by
    rw [show y + A.fl d - (x + d) = (y - x) + (A.fl d - d) by ring]
    exact (abs_add_le _ _).trans (add_le_add h h2)
  have h4 : |y + A.fl d| ≤ |x + d| + (e + A.u * |d|) := by
    rw [show y + A.fl d = (x + d) + (y + A.fl d - (x + d)) by ring]
    exact (abs_add_le _ _).trans (add_le_add le_rfl h3)
  calc |A.fl (y + A.fl d) - (x + d)|
      ≤ |A.fl (y + A.fl d) - (y + A.fl d)| + |y + A.fl d - (x + d)| := abs_sub_le _ _ _
    _ ≤ A.u * (|x + d| + (e + A.u * |d|)) + (e + A.u * |d|) :=
      add_le_add (h1.trans (mul_le_mul_of_nonneg_left h4 hu)) h3
    _ = _ := by ring

theorem half_pi : (0.5 : ℝ) * Real.pi = Real.pi / 2 := by
  rw [show (0.5 : ℝ) = 1 / 2 by norm_num]; ring

/-- The three values a parameter takes while it is shifted. -/
theorem shifts_err (A : Arith) (x : ℝ) :
    |A.plus x (0.5 * Real.pi) - (x + 0.5 * Real.pi)| ≤ drift A.u x ∧
    |A.plus (A.plus x (0.5 * Real.pi)) (-(1.0 * Real.pi)) - (x - 0.5 * Real.pi)| ≤ drift A.u x ∧
    |A.plus (A.plus (A.plus x (0.5 * Real.pi)) (-(1.0 * Real.pi))) (0.5 * Real.pi) - x| ≤ drift A.u x ∧
    |A.plus x (-(0.5 * Real.pi)) - (x - 0.5 * Real.pi)| ≤ drift A.u x ∧ 0 ≤ drift A.u x := by
  have hu := A.u_nonneg
  have e1 : (0.5 : ℝ) * Real.pi = Real.pi / 2 := half_pi
  have e2 : (1.0 : ℝ) * Real.pi = Real.pi := by norm_num
  rw [e1, e2]
  have h1 := plus_err (A := A) (y := x) (x := x) (d := Real.pi / 2) (e := 0) (by simp) rfl
  have h2 := plus_err (A := A) (d := -Real.pi) h1 (z := x - Real.pi / 2) (by ring)
  have h3 := plus_err (A := A) (d := Real.pi / 2) h2 (z := x) (by ring)
  have h4 := plus_err (A := A) (y := x) (x := x) (d := -(Real.pi / 2)) (e := 0) (by simp) (z := x - Real.pi / 2) (by ring)
  have e3 : ∀ y e, addErr A.u y (-Real.pi) e = addErr A.u y Real.pi e := fun y e => by unfold addErr; rw [abs_neg]
  rw [e3] at h3 h2
  have k1 := (abs_nonneg _).trans h1
  have g1 := addErr_ge (y := x - Real.pi / 2) (d := Real.pi) hu k1
  have k2 := (abs_nonneg _).trans h2
  have g2 := addErr_ge (y := x) (d := Real.pi / 2) hu k2
  refine ⟨h1.trans (g1.trans g2), h2.trans g2, h3, h4.trans (le_trans ?_ g2), k2.trans g2⟩
  have p1 : |Real.pi / 2| = |Real.pi| / 2 := by rw [abs_div]; norm_num
  have p2 : 0 ≤ A.u * |Real.pi| := mul_nonneg hu (abs_nonneg _)
  generalize addErr A.u (x + Real.pi / 2) (Real.pi / 2) 0 = e at k1
  unfold addErr
  rw [abs_neg, p1]
  exact add_le_add (mul_le_mul_of_nonneg_left (by linarith) (by linarith)) le_rfl

theorem restored_eq (A : Arith) (x : ℝ) :
    A.plus (A.plus (A.plus x (0.5 * Real.pi)) (-(1.0 * Real.pi))) (0.5 * Real.pi) = restored A.fl x := by
  unfold plus restored
  rw [A.fl_neg, half_pi, show (1.0 : ℝ) * Real.pi = Real.pi by norm_num]
  rfl

theorem drift_nonneg (A : Arith) (x : ℝ) : 0 ≤ drift A.u x := (shifts_err A x).2.2.2.2

theorem restored_err (A : Arith) (x : ℝ) : |restored A.fl x - x| ≤ drift A.u x := by
  rw [← restored_eq]; exact (shifts_err A x).2.2.1

theorem driftList_nonneg (A : Arith) (p : List ℝ) : 0 ≤ (p.map (drift A.u)).sum :=
  List.sum_nonneg fun y hy => by
    obtain ⟨x, -, rfl⟩ := List.mem_map.1 hy
    exact drift_nonneg A x

theorem paramDist_drift {p q x : List ℝ} (hp : p.length = x.length)
    (h : ∀ k < x.length, |p.getD k 0 - q.getD k 0| ≤ drift A.u (x.getD k 0)) :
    paramDist p q ≤ (x.map (drift A.u)).sum := by
  unfold paramDist
  have e : (x.map (drift A.u)).sum = ∑ k ∈ Finset.range x.length, drift A.u (x.getD k 0) := by
    clear h hp
    induction x with
    | nil => simp
    | cons a x ih => rw [List.map_cons, List.sum_cons, ih, List.length_cons, Finset.sum_range_succ']; simp [add_comm]
  rw [hp, e]
  exact Finset.sum_le_sum fun k hk => h k (Finset.mem_range.1 hk)

/-! ## The circuit after some of its operations have been processed -/

/-- The gate or layer after its gradient has been computed. -/
noncomputable def afterItem (A : Arith) (it : Item N) : Item N := it.withParams (it.after A.fl)

theorem after_length (it : Item N) : (it.after A.fl).length = it.params.length := by
  unfold Item.after
  split <;> simp

theorem sameForm_refl (l : List (Item N)) : SameForm l l :=
  List.forall₂_same.2 fun it _ => ⟨it.params, rfl, (withParams_self it).symm⟩

theorem sameForm_after (l : List (Item N)) : SameForm l (l.map (afterItem A)) := by
  induction l with
  | nil => exact .nil
  | cons it l ih => exact .cons ⟨_, after_length it, rfl⟩ ih

theorem sameForm_mid {pre pre' post : List (Item N)} {it : Item N} {p : List ℝ} (h : SameForm pre pre')
    (hp : p.length = it.params.length) : SameForm (pre ++ it :: post) (pre' ++ it.withParams p :: post) := by
  induction h with
  | nil => exact .cons ⟨p, hp, rfl⟩ (sameForm_refl post)
  | cons h _ ih => exact .cons h ih

theorem after_dist (l : List (Item N)) :
    paramDist (allParams l) (allParams (l.map (afterItem A))) ≤ driftSum A.u l := by
  unfold driftSum
  induction l with
  | nil => simp [allParams, paramDist]
  | cons it l ih =>
    have e1 : allParams (it :: l) = it.params ++ allParams l := by simp [allParams]
    have e2 : allParams ((it :: l).map (afterItem A)) = it.after A.fl ++ allParams (l.map (afterItem A)) := by
      simp [allParams, afterItem, params_withParams _ _ (after_length it)]
    rw [e1, e2, paramDist_append (after_length it).symm, List.map_append, List.sum_append]
    refine add_le_add (paramDist_drift rfl fun k hk => ?_) ih
    unfold Item.after
    split
    · rw [sub_self, abs_zero]
      exact drift_nonneg A _
    · rw [List.getD_eq_getElem _ _ hk, List.getD_eq_getElem _ _ (by simpa using hk), List.getElem_map, abs_sub_comm]
      exact restored_err A _

theorem fixed_after {it : Item N} (h : Fixed A it.params) : Fixed A (it.after A.fl) := by
  unfold Item.after
  split
  · exact h
  · intro y hy
    obtain ⟨x, -, rfl⟩ := List.mem_map.1 hy
    exact A.fl_fl _

/-- Compares a circuit in the course of the computation with the exactly shifted one. -/
theorem near_shift {O : QOp N} {v : QState N} (hv : norm2 v = 1) {B : ℝ} (hB0 : 0 ≤ B)
    (hB : ∀ w : QState N, norm2 (O *ᵥ w) ≤ B * norm2 w) {pre post : List (Item N)} {it : Item N}
    (hw : ∀ x ∈ pre ++ it :: post, x.WF) {i : ℕ} (hi : i < it.params.length) {t : ℝ} {p : List ℝ}
    (hp : p.length = it.params.length)
    (h : ∀ k < it.params.length, |(it.params.set i t).getD k 0 - p.getD k 0| ≤ drift A.u (it.params.getD k 0)) :
    |energy O v (pre.map (afterItem A) ++ it.withParams p :: post) -
      energy O v (setParam (pre ++ it :: post) ((allParams pre).length + i) t)| ≤
        B * driftSum A.u (pre ++ it :: post) := by
  rw [setParam_append _ _ _ _ hi, abs_sub_comm]
  have hl : (it.params.set i t).length = it.params.length := by simp
  have hs : SameForm (pre ++ it.withParams (it.params.set i t) :: post)
      (pre.map (afterItem A) ++ it.withParams p :: post) := by
    have := sameForm_mid (post := post) (it := it.withParams (it.params.set i t)) (p := p) (sameForm_after (A := A) pre)
      (by rw [params_withParams _ _ hl, hl, hp])
    rwa [withParams_twice _ _ _ hl hp] at this
  have hw' : ∀ x ∈ pre ++ it.withParams (it.params.set i t) :: post, x.WF :=
    sameForm_wf (sameForm_mid (sameForm_refl pre) hl) hw
  refine (energy_diff hB hB0 hs hw' v).trans ?_
  rw [hv, one_pow, mul_one]
  refine mul_le_mul_of_nonneg_left ?_ hB0
  have e : ∀ (a : List (Item N)) (x : Item N), allParams (a ++ x :: post) = allParams a ++ (x.params ++ allParams post) :=
    fun a x => by simp [allParams]
  unfold driftSum
  rw [e, e, e, params_withParams _ _ hl, params_withParams _ _ hp,
    paramDist_append (sameForm_length (sameForm_after (A := A) pre)).symm, paramDist_append (hl.trans hp.symm),
    List.map_append, List.map_append, List.sum_append, List.sum_append]
  have h0 : paramDist (allParams post) (allParams post) = 0 := by simp [paramDist]
  have := after_dist (A := A) pre
  have := paramDist_drift (A := A) hl h
  have := driftList_nonneg A (allParams post)
  unfold driftSum at *
  linarith

theorem energy_le {O : QOp N} {v : QState N} (hv : norm2 v = 1) {B : ℝ}
    (hB : ∀ w : QState N, norm2 (O *ᵥ w) ≤ B * norm2 w) {l : List (Item N)} (hw : ∀ x ∈ l, x.WF) :
    |energy O v l| ≤ B := by
  have h1 := braket_diff hB (circuitOp l *ᵥ v) 0
  have h2 : norm2 (circuitOp l *ᵥ v) = 1 := by rw [norm2_unitary (circuitOp_unitary l hw), hv]
  have h3 : norm2 (0 : QState N) = 0 := by simp [norm2]
  have h4 : braket O (0 : QState N) = 0 := by simp [braket]
  rw [dist2_eq, sub_zero, h2, h3, h4, sub_zero] at h1
  have := Complex.abs_re_le_norm (braket O (circuitOp l *ᵥ v))
  unfold energy
  linarith

/-- An entry of the gradient from two expectation values. -/
theorem halfDiff_err {e1 e2 t1 t2 S B : ℝ} (h1 : |e1 - t1| ≤ S) (h2 : |e2 - t2| ≤ S) (k1 : |t1| ≤ B) (k2 : |t2| ≤ B) :
    |A.halfDiff e1 e2 - 0.5 * (t1 - t2)| ≤ S + A.u * (B + S) := by
  have e : A.halfDiff e1 e2 = A.fl (e1 - e2) / 2 := by
    unfold halfDiff
    rw [show (0.5 : ℝ) * A.fl (e1 - e2) = A.fl (e1 - e2) / 2 by ring, A.fl_half _ (A.fl_fl _)]
  have hu := A.u_nonneg
  have h3 := A.fl_err (e1 - e2)
  have h4 : |e1 - e2| ≤ 2 * (B + S) := by
    have a1 := abs_le.1 h1; have a2 := abs_le.1 h2; have a3 := abs_le.1 k1; have a4 := abs_le.1 k2
    exact abs_le.2 ⟨by linarith, by linarith⟩
  have h5 := mul_le_mul_of_nonneg_left h4 hu
  rw [e]
  have a1 := abs_le.1 h1; have a2 := abs_le.1 h2; have a3 := abs_le.1 (h3.trans h5)
  exact abs_le.2 ⟨by linarith, by linarith⟩

end Arith

end QTN
