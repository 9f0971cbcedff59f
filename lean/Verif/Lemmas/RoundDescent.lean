import Verif.Model.RoundDescent
import Verif.Props.Descent

/-! # One step of gradient descent in rounded arithmetic (property C108) -/

namespace QTN

open QTN.Spec Matrix Finset

variable {N : ℕ}

theorem setParams_eq_fill (l : List (Item N)) (p : List ℝ) (hp : p.length = (allParams l).length) :
    setParams l p = fill l (fun i => p.getD i 0) := by
  induction l generalizing p with
  | nil => rfl
  | cons it l ih =>
    simp only [allParams, List.flatMap_cons, List.length_append] at hp ih
    unfold setParams fill
    rw [ih (p.drop it.params.length) (by rw [List.length_drop]; omega)]
    congr 1
    · congr 1
      have : (p.take it.params.length).length = it.params.length := by simp; omega
      conv_lhs => rw [← map_range_getD (p.take it.params.length), this]
      refine List.map_congr_left fun i hi => ?_
      have hi' := List.mem_range.1 hi
      simp [List.getD_eq_getElem?_getD, hi']
    · refine congrArg (fill l) (funext fun i => ?_)
      simp [List.getD_eq_getElem?_getD, add_comm]

theorem setParams_sameForm (l : List (Item N)) (p : List ℝ) (hp : p.length = (allParams l).length) :
    SameForm l (setParams l p) := by
  rw [setParams_eq_fill l p hp]
  exact sameForm_fill l _

theorem setParams_params (l : List (Item N)) (p : List ℝ) (hp : p.length = (allParams l).length) :
    allParams (setParams l p) = p := by
  rw [setParams_eq_fill l p hp, fill_params, ← hp, map_range_getD]

theorem setParams_forms (l : List (Item N)) (p q : List ℝ) (hp : p.length = (allParams l).length)
    (hq : q.length = (allParams l).length) : SameForm (setParams l p) (setParams l q) := by
  rw [setParams_eq_fill l p hp, setParams_eq_fill l q hq]
  exact fill_sameForm l _ _

theorem mapAngles_fixed (A : Arith) (l : List (Item N)) (p : List ℝ) (hp : p.length = (allParams l).length)
    (hf : ∀ x ∈ p, A.fl x = x) : (setParams l p).map (Item.mapAngles A.fl) = setParams l p := by
  have h1 := fill_of_sameForm (Arith.sameForm_fl A (setParams l p))
  have h2 := fill_of_sameForm (Arith.sameForm_refl (setParams l p))
  rw [← h1, Props.allParams_fl, setParams_params l p hp]
  have e : p.map A.fl = p := by
    conv_rhs => rw [← List.map_id p]
    exact List.map_congr_left hf
  rw [e]
  rw [setParams_params l p hp] at h2
  exact h2

theorem sameForm_unflagged {l l' : List (Item N)} (hs : SameForm l l') (h : ∃ it ∈ l, Props.Unflagged it) :
    ∃ it ∈ l', Props.Unflagged it := by
  induction hs with
  | nil => simp at h
  | @cons it it' l l' h' _ ih =>
    obtain ⟨p, -, rfl⟩ := h'
    obtain ⟨a, ha, hu⟩ := h
    rcases List.mem_cons.1 ha with rfl | ha
    · exact ⟨_, by simp, unflagged_withParams hu p⟩
    · obtain ⟨b, hb, hu'⟩ := ih ⟨a, ha, hu⟩
      exact ⟨b, by simp [hb], hu'⟩

theorem round_step (A : Arith) {lr x g δ B X e : ℝ} (hl : 0 < lr) (hx : |x| ≤ X) (hg : |g - δ| ≤ e) (hδ : |δ| ≤ B) :
    |A.fl (x - A.fl (A.fl lr * g)) - x + lr * δ| ≤ lr * stepErr A.u lr B X e := by
  have hu := A.u_nonneg
  have hgB : |g| ≤ B + e := by
    have := abs_sub_abs_le_abs_sub g δ
    linarith
  have h1 : |A.fl lr - lr| ≤ A.u * lr := by have := A.fl_err lr; rwa [abs_of_pos hl] at this
  have h1' : |A.fl lr| ≤ (1 + A.u) * lr := by
    have := abs_sub_abs_le_abs_sub (A.fl lr) lr
    rw [abs_of_pos hl] at this
    linarith
  have h2 := A.fl_err (A.fl lr * g)
  rw [abs_mul] at h2
  have h2' : A.u * (|A.fl lr| * |g|) ≤ A.u * ((1 + A.u) * lr * |g|) :=
    mul_le_mul_of_nonneg_left (mul_le_mul_of_nonneg_right h1' (abs_nonneg _)) hu
  have h3 : |A.fl lr * g - lr * g| ≤ A.u * lr * |g| := by
    rw [← sub_mul, abs_mul]
    exact mul_le_mul_of_nonneg_right h1 (abs_nonneg _)
  have h4 : |A.fl (A.fl lr * g) - lr * g| ≤ ((1 + A.u) ^ 2 - 1) * lr * |g| := by
    refine (abs_sub_le _ (A.fl lr * g) _).trans ?_
    nlinarith
  have h5 := A.fl_err (x - A.fl (A.fl lr * g))
  have h6 : |x - A.fl (A.fl lr * g)| ≤ |x| + (1 + A.u) ^ 2 * lr * |g| := by
    have a1 := abs_sub x (A.fl (A.fl lr * g))
    have a2 := abs_sub_abs_le_abs_sub (A.fl (A.fl lr * g)) (lr * g)
    rw [abs_mul lr g, abs_of_pos hl] at a2
    nlinarith
  have h7 : A.u * |x - A.fl (A.fl lr * g)| ≤ A.u * (|x| + (1 + A.u) ^ 2 * lr * |g|) := mul_le_mul_of_nonneg_left h6 hu
  have h8 : |lr * δ - lr * g| ≤ lr * e := by
    rw [← mul_sub, abs_mul, abs_of_pos hl, abs_sub_comm]
    exact mul_le_mul_of_nonneg_left hg hl.le
  have h9 : |A.fl (x - A.fl (A.fl lr * g)) - x + lr * δ| ≤
      |A.fl (x - A.fl (A.fl lr * g)) - (x - A.fl (A.fl lr * g))| + |A.fl (A.fl lr * g) - lr * g| + |lr * δ - lr * g| := by
    have : A.fl (x - A.fl (A.fl lr * g)) - x + lr * δ = (A.fl (x - A.fl (A.fl lr * g)) - (x - A.fl (A.fl lr * g))) -
        (A.fl (A.fl lr * g) - lr * g) + (lr * δ - lr * g) := by ring
    rw [this]
    exact (abs_add_le _ _).trans (add_le_add (abs_sub _ _) le_rfl)
  have h10 : ((1 + A.u) ^ 3 - 1) * lr * |g| ≤ ((1 + A.u) ^ 3 - 1) * lr * (B + e) := by
    refine mul_le_mul_of_nonneg_left hgB (mul_nonneg ?_ hl.le)
    nlinarith [pow_nonneg hu 3, sq_nonneg A.u]
  have h11 : A.u * |x| ≤ A.u * X := mul_le_mul_of_nonneg_left hx hu
  have e1 : lr * stepErr A.u lr B X e = lr * e + ((1 + A.u) ^ 3 - 1) * lr * (B + e) + A.u * X := by
    unfold stepErr
    field_simp
  rw [e1]
  nlinarith

end QTN
