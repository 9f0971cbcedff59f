import Verif.SpecRound
import Verif.Lemmas.Lipschitz
import Verif.Lemmas.Unitary
import Mathlib.Analysis.Matrix.Normed

/-! # Bounds for the norms of expanded gates -/

namespace QTN

open Spec Matrix Complex Finset

variable {N : ℕ}

/-- `M` stretches vectors by at most `c`. -/
def Bnd (c : ℝ) (M : QOp N) : Prop := ∀ v, norm2 (M *ᵥ v) ≤ c * norm2 v

/-- The operator of the absolute values of the entries. -/
noncomputable def absOp {n : Type} (M : Matrix n n ℂ) : Matrix n n ℂ := fun a b => ((‖M a b‖ : ℝ) : ℂ)

/-- Frobenius norm of a 2×2 matrix. -/
noncomputable def frob (M : Mat2) : ℝ := Real.sqrt (∑ x, ∑ y, ‖M x y‖ ^ 2)

theorem norm2_mono {v w : QState N} (h : ∀ a, ‖v a‖ ≤ ‖w a‖) : norm2 v ≤ norm2 w :=
  Real.sqrt_le_sqrt (Finset.sum_le_sum fun a _ => by
    have := h a; have := norm_nonneg (v a); gcongr)

theorem Bnd.mono {c d : ℝ} {M : QOp N} (h : Bnd c M) (hl : c ≤ d) : Bnd d M := fun v =>
  (h v).trans (mul_le_mul_of_nonneg_right hl (norm2_nonneg v))

theorem Bnd.add {c d : ℝ} {M M' : QOp N} (h : Bnd c M) (h' : Bnd d M') : Bnd (c + d) (M + M') := fun v => by
  rw [Matrix.add_mulVec]
  refine (norm2_add_le _ _).trans ?_
  have := h v; have := h' v
  linarith

theorem Bnd.smul {c : ℝ} {M : QOp N} (h : Bnd c M) (z : ℂ) : Bnd (‖z‖ * c) (z • M) := fun v => by
  rw [Matrix.smul_mulVec, norm2_smul, mul_assoc]
  exact mul_le_mul_of_nonneg_left (h v) (norm_nonneg _)

theorem Bnd.unitary {M : QOp N} (h : IsUnitaryOp M) : Bnd 1 M := fun v => by
  rw [norm2_unitary h, one_mul]

theorem Bnd.neg {c : ℝ} {M : QOp N} (h : Bnd c M) : Bnd c (-M) := by
  have := h.smul (-1)
  simpa using this

theorem Bnd.sub {c d : ℝ} {M M' : QOp N} (h : Bnd c M) (h' : Bnd d M') : Bnd (c + d) (M - M') := by
  rw [sub_eq_add_neg]; exact h.add h'.neg

/-! ## Frobenius norm -/

theorem frob_nonneg (M : Mat2) : 0 ≤ frob M := Real.sqrt_nonneg _

theorem frob_sq (M : Mat2) : frob M ^ 2 = ∑ x, ∑ y, ‖M x y‖ ^ 2 :=
  Real.sq_sqrt (Finset.sum_nonneg fun _ _ => Finset.sum_nonneg fun _ _ => by positivity)

section
open scoped Matrix.Norms.Frobenius

theorem frob_eq (M : Mat2) : frob M = ‖M‖ := by
  rw [Matrix.frobenius_norm_def, frob, Real.sqrt_eq_rpow]
  simp

theorem frob_add (M M' : Mat2) : frob (M + M') ≤ frob M + frob M' := by
  simp only [frob_eq]; exact norm_add_le _ _

theorem frob_mul (M M' : Mat2) : frob (M * M') ≤ frob M * frob M' := by
  simp only [frob_eq]; exact Matrix.frobenius_norm_mul _ _

end

theorem frob_smul (c : ℂ) (M : Mat2) : frob (c • M) = ‖c‖ * frob M := by
  have : frob (c • M) ^ 2 = (‖c‖ * frob M) ^ 2 := by
    rw [frob_sq, mul_pow, frob_sq]
    simp only [Fin.sum_univ_two, Matrix.smul_apply, smul_eq_mul, norm_mul]
    ring
  exact (pow_left_inj₀ (frob_nonneg _) (mul_nonneg (norm_nonneg _) (frob_nonneg _)) two_ne_zero).1 this

theorem frob_sub (M M' : Mat2) : frob (M - M') ≤ frob M + frob M' := by
  have := frob_add M ((-1 : ℂ) • M')
  rw [frob_smul] at this
  simpa [sub_eq_add_neg] using this

theorem frob_absOp (M : Mat2) : frob (absOp M) = frob M := by
  unfold frob absOp; simp

theorem frob_trace (M : Mat2) : ((frob M ^ 2 : ℝ) : ℂ) = (Mᴴ * M).trace := by
  have e : ∀ z : ℂ, ((‖z‖ : ℝ) : ℂ) ^ 2 = (starRingEnd ℂ) z * z := fun z => by
    rw [← Complex.normSq_eq_conj_mul_self, Complex.normSq_eq_norm_sq, Complex.ofReal_pow]
  rw [frob_sq]
  simp only [Matrix.trace, Matrix.diag, Matrix.mul_apply, Fin.sum_univ_two, Matrix.conjTranspose_apply]
  push_cast
  simp only [e, Complex.star_def]
  ring

theorem frob_le_of {M M' : Mat2} (h : ((frob M ^ 2 : ℝ) : ℂ) = ((frob M' ^ 2 : ℝ) : ℂ)) : frob M = frob M' :=
  (pow_left_inj₀ (frob_nonneg _) (frob_nonneg _) two_ne_zero).1 (Complex.ofReal_inj.1 h)

theorem frob_u2_left {U : Mat2} (hU : IsU2 U) (M : Mat2) : frob (U * M) = frob M := by
  apply frob_le_of
  rw [frob_trace, frob_trace, conjTranspose_mul, mul_assoc, ← mul_assoc Uᴴ, hU.2, one_mul]

theorem frob_u2_right {U : Mat2} (hU : IsU2 U) (M : Mat2) : frob (M * U) = frob M := by
  apply frob_le_of
  rw [frob_trace, frob_trace, conjTranspose_mul, mul_assoc, Matrix.trace_mul_comm, mul_assoc, mul_assoc, hU.1,
    mul_one]

theorem frob_one : frob 1 = Real.sqrt 2 := by
  unfold frob
  congr 1
  simp [Fin.sum_univ_two]
  norm_num

theorem frob_u2 {U : Mat2} (hU : IsU2 U) : frob U = Real.sqrt 2 := by
  rw [← mul_one U, frob_u2_left hU, frob_one]

theorem frob_near {U M : Mat2} (hU : IsU2 U) : frob M ≤ Real.sqrt 2 + frob (M - U) := by
  have := frob_add U (M - U)
  rwa [add_sub_cancel, frob_u2 hU] at this

theorem frob_mono {M M' : Mat2} (h : ∀ x y, ‖M x y‖ ≤ ‖M' x y‖) : frob M ≤ frob M' :=
  Real.sqrt_le_sqrt (Finset.sum_le_sum fun x _ => Finset.sum_le_sum fun y _ => by
    have := h x y; have := norm_nonneg (M x y); gcongr)

/-! ## Expanded 2×2 matrices -/

/-- Exchange of a bit with a spare one. -/
def bitSwap (t : Fin N) : Bits N × Fin 2 ≃ Bits N × Fin 2 where
  toFun x := (Function.update x.1 t x.2, x.1 t)
  invFun x := (Function.update x.1 t x.2, x.1 t)
  left_inv x := by simp
  right_inv x := by simp

theorem sum_update (t : Fin N) (g : Bits N → ℝ) :
    ∑ a : Bits N, ∑ y : Fin 2, g (Function.update a t y) = 2 * ∑ a, g a := by
  rw [← Fintype.sum_prod_type']
  refine (Equiv.sum_comp (bitSwap t) (fun x : Bits N × Fin 2 => g x.1)).trans ?_
  rw [Fintype.sum_prod_type]
  simp [Finset.mul_sum, two_mul]

theorem bnd_onQubit (t : Fin N) (M : Mat2) : Bnd (frob M) (onQubit t M) := by
  intro v
  refine le_of_sq_le_sq ?_ (mul_nonneg (frob_nonneg _) (norm2_nonneg _))
  rw [norm2_sq, mul_pow, norm2_sq, frob_sq]
  simp only [onQubit_mulVec]
  have h2 : (2 : ℝ) * ∑ a : Bits N, ‖∑ y, M (a t) y * v (Function.update a t y)‖ ^ 2 ≤
      2 * ((∑ x, ∑ y, ‖M x y‖ ^ 2) * ∑ a, ‖v a‖ ^ 2) := by
    rw [← sum_update t (fun a => ‖∑ y, M (a t) y * v (Function.update a t y)‖ ^ 2)]
    have e : (2 : ℝ) * ((∑ x, ∑ y, ‖M x y‖ ^ 2) * ∑ a, ‖v a‖ ^ 2) =
        ∑ a : Bits N, (∑ x, ∑ y, ‖M x y‖ ^ 2) * ∑ y, ‖v (Function.update a t y)‖ ^ 2 := by
      rw [← Finset.mul_sum, sum_update t (fun a => ‖v a‖ ^ 2)]; ring
    rw [e]
    refine Finset.sum_le_sum fun a _ => ?_
    rw [Finset.sum_mul]
    refine Finset.sum_le_sum fun x _ => ?_
    simp only [Function.update_self, Function.update_idem]
    calc ‖∑ y, M x y * v (Function.update a t y)‖ ^ 2
        ≤ (∑ y, ‖M x y‖ * ‖v (Function.update a t y)‖) ^ 2 := by
          gcongr
          refine (norm_sum_le _ _).trans (Finset.sum_le_sum fun y _ => ?_)
          rw [norm_mul]
      _ ≤ _ := Finset.sum_mul_sq_le_sq_mul_sq _ _ _
  linarith

/-- Rows with at most two entries. -/
def TwoRow (M : QOp N) : Prop := ∀ a, (Finset.univ.filter (fun b => M a b ≠ 0)).card ≤ 2

theorem twoRow_of {M : QOp N} (h : ∀ a, ∃ b c, ∀ d, M a d ≠ 0 → d = b ∨ d = c) : TwoRow M := by
  intro a
  obtain ⟨b, c, hbc⟩ := h a
  refine (Finset.card_le_card (t := {b, c}) fun d hd => ?_).trans Finset.card_le_two
  simpa using hbc d (by simpa using hd)

theorem onQubit_rows (t : Fin N) (M : Mat2) (a d : Bits N) (h : onQubit t M a d ≠ 0) :
    d = Function.update a t 0 ∨ d = Function.update a t 1 := by
  have h' : ∀ j, j ≠ t → a j = d j := by
    by_contra hc
    exact h (by unfold onQubit; rw [if_neg hc])
  have hd : d = Function.update a t (d t) := by
    funext j
    by_cases hj : j = t
    · subst hj; simp
    · rw [Function.update_of_ne hj, h' j hj]
  have key : ∀ x : Fin 2, x = 0 ∨ x = 1 := by decide
  rcases key (d t) with e | e
  · left; rw [hd, e]
  · right; rw [hd, e]

theorem twoRow_onQubit (t : Fin N) (M : Mat2) : TwoRow (onQubit t M) :=
  twoRow_of fun a => ⟨_, _, onQubit_rows t M a⟩

theorem twoRow_controlled (cs : List (Fin N)) (t : Fin N) (M : Mat2) : TwoRow (controlled cs t M) := by
  refine twoRow_of fun a => ?_
  refine ⟨Function.update a t 0, Function.update a t 1, fun d hd => ?_⟩
  unfold controlled at hd
  split_ifs at hd with h
  · exact onQubit_rows t M a d hd
  · rw [Matrix.one_apply] at hd
    have e : a = d := by
      by_contra hc
      exact hd (by rw [if_neg hc])
    subst e
    have key : ∀ x : Fin 2, x = 0 ∨ x = 1 := by decide
    rcases key (a t) with e | e
    · left; rw [← e]; simp
    · right; rw [← e]; simp

theorem absOp_onQubit (t : Fin N) (M : Mat2) : absOp (onQubit t M) = onQubit t (absOp M) := by
  ext a b
  unfold absOp onQubit
  split_ifs <;> simp

theorem absOp_controlled (cs : List (Fin N)) (t : Fin N) (M : Mat2) :
    absOp (controlled cs t M) = controlled cs t (absOp M) := by
  ext a b
  have h := congrFun (congrFun (absOp_onQubit t M) a) b
  unfold absOp controlled at *
  split_ifs
  · exact h
  · rw [Matrix.one_apply]; split_ifs <;> simp

theorem controlled_sub {cs : List (Fin N)} {t : Fin N} (ht : t ∉ cs) (g h : Mat2) :
    controlled cs t g - controlled cs t h = onQubit t (g - h) * onEach (ctrlProj cs) := by
  have e : ∀ m, onQubit t m * onEach (ctrlProj cs) = onEach (Function.update (ctrlProj cs) t m) := fun m => by
    rw [← onEach_update_one, onEach_mul]
    congr 1
    funext j
    by_cases hj : j = t
    · subst hj; simp [ctrlProj, ht]
    · simp [Function.update_of_ne hj]
  have e2 : onQubit t (g - h) = onQubit t g - onQubit t h := by
    ext a b; rw [Matrix.sub_apply]; unfold onQubit; split_ifs <;> simp
  rw [controlled_multi_eq cs ht, controlled_multi_eq cs ht, e2, sub_mul, e, e]
  abel

theorem norm2_ctrl (cs : List (Fin N)) (v : QState N) : norm2 (onEach (ctrlProj cs) *ᵥ v) ≤ norm2 v := by
  refine norm2_mono fun a => ?_
  rw [ctrl_mulVec]
  split_ifs
  · exact le_rfl
  · simp

theorem bnd_controlled_sub {cs : List (Fin N)} {t : Fin N} (ht : t ∉ cs) (g h : Mat2) :
    Bnd (frob (g - h)) (controlled cs t g - controlled cs t h) := fun v => by
  rw [controlled_sub ht, ← Matrix.mulVec_mulVec]
  exact (bnd_onQubit t _ _).trans (mul_le_mul_of_nonneg_left (norm2_ctrl cs v) (frob_nonneg _))

theorem bnd_controlled {cs : List (Fin N)} {t : Fin N} (ht : t ∉ cs) (M : Mat2) {c : ℝ} (h1 : 1 ≤ c)
    (hc : frob M ≤ c) : Bnd c (controlled cs t M) := by
  intro v
  set w := onEach (ctrlProj cs) *ᵥ v with hw
  have e : ∀ a, ‖(controlled cs t M *ᵥ v) a‖ ^ 2 =
      ‖(onQubit t M *ᵥ w) a‖ ^ 2 + (if ∀ k ∈ cs, a k = 1 then 0 else ‖v a‖ ^ 2) := by
    intro a
    have e1 : controlled cs t M *ᵥ v = onQubit t M *ᵥ w + (v - w) := by
      have := controlled_sub ht M 1
      rw [controlled_one ht] at this
      have h2 : controlled cs t M = onQubit t (M - 1) * onEach (ctrlProj cs) + 1 := by rw [← this]; abel
      have e2 : onQubit t (M - 1) = onQubit t M - 1 := by
        rw [← onQubit_one t]
        ext a b; rw [Matrix.sub_apply]; unfold onQubit; split_ifs <;> simp
      rw [h2, Matrix.add_mulVec, ← Matrix.mulVec_mulVec, Matrix.one_mulVec, e2, Matrix.sub_mulVec, Matrix.one_mulVec]
      abel
    rw [e1, Pi.add_apply, Pi.sub_apply, hw, ctrl_mulVec]
    by_cases h : ∀ k ∈ cs, a k = 1
    · rw [if_pos h, if_pos h, sub_self, add_zero, add_zero]
    · rw [if_neg h, if_neg h, sub_zero]
      have hz : (onQubit t M *ᵥ (onEach (ctrlProj cs) *ᵥ v)) a = 0 := by
        rw [onQubit_mulVec]
        refine Finset.sum_eq_zero fun y _ => ?_
        rw [ctrl_mulVec, if_neg, mul_zero]
        intro hk
        apply h
        intro k hkc
        have := hk k hkc
        rwa [Function.update_of_ne (fun e : k = t => ht (e ▸ hkc))] at this
      rw [hz, zero_add]; simp
  refine le_of_sq_le_sq ?_ (mul_nonneg (zero_le_one.trans h1) (norm2_nonneg _))
  rw [norm2_sq, mul_pow, norm2_sq, Finset.sum_congr rfl fun a _ => e a, Finset.sum_add_distrib, ← norm2_sq]
  have hq : norm2 (onQubit t M *ᵥ w) ^ 2 ≤ c ^ 2 * norm2 w ^ 2 := by
    rw [← mul_pow]
    exact pow_le_pow_left₀ (norm2_nonneg _) ((bnd_onQubit t M w).trans
      (mul_le_mul_of_nonneg_right hc (norm2_nonneg _))) 2
  rw [norm2_sq w] at hq
  have hw2 : ∀ a, ‖w a‖ ^ 2 = if ∀ k ∈ cs, a k = 1 then ‖v a‖ ^ 2 else 0 := fun a => by
    rw [hw, ctrl_mulVec]; split_ifs <;> simp
  have hc1 : (1 : ℝ) ≤ c ^ 2 := one_le_pow₀ h1
  have hs : ∑ a, (if ∀ k ∈ cs, a k = 1 then 0 else ‖v a‖ ^ 2) ≤
      c ^ 2 * ∑ a, (if ∀ k ∈ cs, a k = 1 then 0 else ‖v a‖ ^ 2) :=
    le_mul_of_one_le_left (Finset.sum_nonneg fun a _ => by split_ifs <;> positivity) hc1
  have hsum : ∑ a, ‖v a‖ ^ 2 = ∑ a, ‖w a‖ ^ 2 + ∑ a, (if ∀ k ∈ cs, a k = 1 then 0 else ‖v a‖ ^ 2) := by
    rw [← Finset.sum_add_distrib]
    refine Finset.sum_congr rfl fun a _ => ?_
    rw [hw2]; split_ifs <;> simp
  rw [hsum, mul_add]
  linarith

end QTN
