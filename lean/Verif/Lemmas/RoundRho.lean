import Verif.Lemmas.RoundMeasure
import Verif.Lemmas.RoundBinary
import Verif.Model.RoundRho

/-! # Density matrices in rounded arithmetic -/

namespace QTN.Arith

open QTN Spec Matrix Complex Finset

variable {N : ℕ} {A : Arith}

/-! ## Routines that exist -/

/-- Adding one number after the other. -/
noncomputable def seqSum (A : Arith) : ℕ → (ℕ → ℂ) → ℂ
  | 0, _ => 0
  | n + 1, a => A.add (seqSum A n a) (a n)

theorem seqSum_err (A : Arith) (n : ℕ) (a : ℕ → ℂ) :
    ‖A.seqSum n a - ∑ k ∈ range n, a k‖ ≤ ((1 + A.u) ^ n - 1) * ∑ k ∈ range n, ‖a k‖ := by
  induction n with
  | zero => simp [seqSum]
  | succ n ih =>
    rw [seqSum, Finset.sum_range_succ, Finset.sum_range_succ]
    have h1 := A.add_err (A.seqSum n a) (a n)
    have hST := norm_sum_le (range n) a
    generalize A.seqSum n a = d at *
    generalize ∑ k ∈ range n, a k = S at *
    generalize ∑ k ∈ range n, ‖a k‖ = T at *
    have hu := A.u_nonneg
    have hp : 1 ≤ (1 + A.u) ^ n := one_le_pow₀ (by linarith)
    have hT : 0 ≤ T := (norm_nonneg S).trans hST
    have h2 : ‖d + a n‖ ≤ ‖d - S‖ + ‖S‖ + ‖a n‖ := by
      calc ‖d + a n‖ = ‖(d - S) + S + a n‖ := by congr 1; ring
        _ ≤ _ := (norm_add_le _ _).trans (add_le_add (norm_add_le _ _) le_rfl)
    have h3 : ‖A.add d (a n) - (S + a n)‖ ≤ ‖A.add d (a n) - (d + a n)‖ + ‖d - S‖ := by
      calc _ = ‖(A.add d (a n) - (d + a n)) + (d - S)‖ := by congr 1; ring
        _ ≤ _ := norm_add_le _ _
    have h4 : A.u * ‖d + a n‖ ≤ A.u * (((1 + A.u) ^ n - 1) * T + T + ‖a n‖) :=
      mul_le_mul_of_nonneg_left (by linarith) hu
    have h5 : A.u * ‖a n‖ ≤ ((1 + A.u) ^ (n + 1) - 1) * ‖a n‖ := by
      refine mul_le_mul_of_nonneg_right ?_ (norm_nonneg _)
      rw [pow_succ]
      nlinarith
    have h6 : A.u * (((1 + A.u) ^ n - 1) * T + T) + ((1 + A.u) ^ n - 1) * T = ((1 + A.u) ^ (n + 1) - 1) * T := by
      rw [pow_succ]; ring
    linarith

/-- Adding in the order of the indices, and an absolute value that is rounded once. -/
noncomputable def seqTrace (A : Arith) : TraceRoutines A where
  sum := A.seqSum
  abs z := A.fl ‖z‖
  sum_err := A.seqSum_err
  abs_err z := by
    have h := A.fl_err ‖z‖
    rw [abs_of_nonneg (norm_nonneg z)] at h
    refine h.trans (mul_le_mul_of_nonneg_right ?_ (norm_nonneg _))
    have := A.u_nonneg
    nlinarith [pow_nonneg this 2, pow_nonneg this 3]

/-! ## One value -/

variable (R : TraceRoutines A)

/-- What the check of the trace computes. -/
noncomputable def gap (R : TraceRoutines A) (state : Tensor ℂ) (d : ℕ) : ℝ :=
  R.abs (A.sub (R.sum d fun k => state.get [k, k]) 1)

theorem sub_err' (z w : ℂ) : ‖A.sub z w - (z - w)‖ ≤ A.u * ‖z - w‖ :=
  norm_round A.u_nonneg A.fl_err (z - w)

theorem gap_err {state : Tensor ℂ} {ρ : QOp N} (h : Represents state ρ) :
    ∃ x, |x - ‖(∑ a, ρ a a) - 1‖| ≤ ((1 + A.u) ^ (2 ^ N) - 1) * ∑ a, ‖ρ a a‖ ∧ 0 ≤ x ∧
      |gap R state (2 ^ N) - x| ≤ ((1 + A.u) ^ 4 - 1) * x := by
  have h1 := R.sum_err (2 ^ N) fun k => state.get [k, k]
  rw [sum_enc N (fun k => state.get [k, k]), sum_enc N (fun k => ‖state.get [k, k]‖)] at h1
  simp only [h.2] at h1
  unfold gap
  generalize R.sum (2 ^ N) (fun k => state.get [k, k]) = t at *
  have h2 := sub_err' (A := A) t 1
  have h3 := R.abs_err (A.sub t 1)
  refine ⟨‖t - 1‖, le_trans ?_ h1, norm_nonneg _, ?_⟩
  · have := abs_norm_sub_norm_le (t - 1) ((∑ a, ρ a a) - 1)
    rwa [sub_sub_sub_cancel_right] at this
  · have h4 := abs_norm_sub_norm_le (A.sub t 1) (t - 1)
    generalize R.abs (A.sub t 1) = g at *
    generalize ‖A.sub t 1‖ = s at *
    have h5 := h4.trans h2
    have hx := norm_nonneg (t - 1)
    generalize ‖t - 1‖ = x at *
    have hu := A.u_nonneg
    have hp : 0 ≤ (1 + A.u) ^ 3 - 1 := by nlinarith [pow_nonneg hu 2, pow_nonneg hu 3]
    have h6 : s ≤ (1 + A.u) * x := by linarith [(abs_le.1 h5).2]
    have h7 := mul_le_mul_of_nonneg_left h6 hp
    have h8 := abs_sub_le g s x
    have h9 : ((1 + A.u) ^ 3 - 1) * ((1 + A.u) * x) + A.u * x = ((1 + A.u) ^ 4 - 1) * x := by ring
    linarith

theorem gap_accept {state : Tensor ℂ} {ρ : QOp N} (h : Represents state ρ)
    (ht : (1 + A.u) ^ 4 * (‖(∑ a, ρ a a) - 1‖ + ((1 + A.u) ^ (2 ^ N) - 1) * ∑ a, ‖ρ a a‖) ≤ (1 - A.u) * 1e-4) :
    ¬ gap R state (2 ^ N) > A.fl 1e-4 := by
  obtain ⟨x, h1, h2, h3⟩ := gap_err R h
  have h4 := A.fl_err 1e-4
  rw [abs_of_pos (show (0 : ℝ) < 1e-4 by norm_num)] at h4
  have h5 := (abs_le.1 h1).2
  have hu := A.u_nonneg
  have h6 : (1 + A.u) ^ 4 * x ≤
      (1 + A.u) ^ 4 * (‖(∑ a, ρ a a) - 1‖ + ((1 + A.u) ^ (2 ^ N) - 1) * ∑ a, ‖ρ a a‖) :=
    mul_le_mul_of_nonneg_left (by linarith) (by positivity)
  have h7 := (abs_le.1 h3).2
  have h8 := (abs_le.1 h4).1
  linarith

theorem gap_reject {state : Tensor ℂ} {ρ : QOp N} (h : Represents state ρ) (hu4 : (1 + A.u) ^ 4 ≤ 2)
    (ht : (1 + A.u) * 1e-4 < (2 - (1 + A.u) ^ 4) * (‖(∑ a, ρ a a) - 1‖ - ((1 + A.u) ^ (2 ^ N) - 1) * ∑ a, ‖ρ a a‖)) :
    gap R state (2 ^ N) > A.fl 1e-4 := by
  obtain ⟨x, h1, h2, h3⟩ := gap_err R h
  have h4 := A.fl_err 1e-4
  rw [abs_of_pos (show (0 : ℝ) < 1e-4 by norm_num)] at h4
  have h5 := (abs_le.1 h1).1
  have h6 : (2 - (1 + A.u) ^ 4) * (‖(∑ a, ρ a a) - 1‖ - ((1 + A.u) ^ (2 ^ N) - 1) * ∑ a, ‖ρ a a‖) ≤
      (2 - (1 + A.u) ^ 4) * x := mul_le_mul_of_nonneg_left (by linarith) (by linarith)
  have h7 := (abs_le.1 h3).1
  have h8 := (abs_le.1 h4).2
  linarith

/-- `expval` of Z: the product with the observable is exact, what remains is the sum of the diagonal. -/
theorem expvalRho_form {state M : Tensor ℂ} {ρ : QOp N} (h : Represents state ρ) (hr : ∀ a b, RepC A.fl (ρ a b))
    (i : Fin N) (hM : Represents M (onQubit i Spec.Z)) :
    ∃ f : ℕ → ℂ, (∀ a : Bits N, f (enc a) = ρ a a * (if a i = 0 then 1 else -1)) ∧
      A.expvalRho R state M =
        if gap R state (2 ^ N) > A.fl 1e-4 then .error .valueError else .ok (R.sum (2 ^ N) f).re := by
  have ht : A.trace R state = .ok (R.sum (2 ^ N) fun k => state.get [k, k]) := by
    unfold trace
    rw [h.1]
    simp only [min_self]
  refine ⟨fun k => (Tensor.ofFn [2 ^ N, 2 ^ N] (fun idx => A.dot (2 ^ N) (fun x => state.get [idx.getD 0 0, x])
    (fun x => M.get [x, idx.getD 1 0]))).get [k, k], fun a => ?_, ?_⟩
  · beta_reduce
    rw [Tensor.get_ofFn (by simp [enc_lt a])]
    simp only [List.getD_cons_zero, List.getD_cons_succ]
    have := A.dot_exact (2 ^ N) (fun x => state.get [enc a, x]) (fun x => M.get [x, enc a]) (enc a) (enc_lt a)
      (fun j hj hne => by
        obtain ⟨d, rfl⟩ := exists_enc hj
        right
        rw [hM.2, onQubit_Z, if_neg]
        rintro rfl; exact hne rfl)
      (Or.inr ⟨by rw [h.2]; exact hr a a, by rw [hM.2]; exact signM_onQubit i signM_Z _ _⟩)
    rw [this, h.2, hM.2, onQubit_Z, if_pos rfl]
  · unfold expvalRho
    rw [ht, Py.ok_bind]
    show (do raiseIf (gap R state (2 ^ N) > A.fl 1e-4) .valueError; _) = _
    split
    · next h => rw [raiseIf_true h, Py.error_bind]
    · next h' =>
      rw [raiseIf_false h', Py.ok_bind, matmul_shape h.1 hM.1, Py.ok_bind]
      unfold trace
      simp only [Tensor.shape_ofFn, min_self, Py.ok_bind]

theorem sum_value {ρ : QOp N} {f : ℕ → ℂ} (i : Fin N)
    (hf : ∀ a : Bits N, f (enc a) = ρ a a * (if a i = 0 then 1 else -1)) :
    |(R.sum (2 ^ N) f).re - (prob (fun a => (ρ a a).re) i 0 - prob (fun a => (ρ a a).re) i 1)| ≤
      ((1 + A.u) ^ (2 ^ N) - 1) * ∑ a, ‖ρ a a‖ := by
  have h := R.sum_err (2 ^ N) f
  rw [sum_enc N f, sum_enc N (fun k => ‖f k‖)] at h
  have e1 : ∑ a : Bits N, ‖f (enc a)‖ = ∑ a, ‖ρ a a‖ := Finset.sum_congr rfl fun a _ => by
    rw [hf, norm_mul]
    split <;> simp
  have e2 : (∑ a : Bits N, f (enc a)).re = ∑ a : Bits N, (if a i = 0 then 1 else -1) * (ρ a a).re := by
    rw [Complex.re_sum]
    refine Finset.sum_congr rfl fun a _ => ?_
    rw [hf]
    split <;> simp
  rw [e1] at h
  rw [← prob_diff, ← e2, ← Complex.sub_re]
  exact (Complex.abs_re_le_norm _).trans h

end QTN.Arith
