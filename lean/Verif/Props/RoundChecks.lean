import Verif.Model.RoundChecks
import Verif.Lemmas.RoundRho
import Verif.Lemmas.RoundBinary

/-! # C113: the checks for Hermitian matrices, unit vectors and unitary matrices in rounded arithmetic -/

namespace QTN.Props

open QTN Spec Complex Finset Arith

variable {A : Arith}

theorem absdiff_err (R : TraceRoutines A) (z w : ℂ) :
    |R.abs (A.sub z w) - ‖z - w‖| ≤ ((1 + A.u) ^ 4 - 1) * ‖z - w‖ := by
  have h2 := sub_err' (A := A) z w
  have h3 := R.abs_err (A.sub z w)
  have h4 := abs_norm_sub_norm_le (A.sub z w) (z - w)
  generalize R.abs (A.sub z w) = g at *
  generalize ‖A.sub z w‖ = s at *
  have h5 := h4.trans h2
  have hx := norm_nonneg (z - w)
  generalize ‖z - w‖ = x at *
  have hu := A.u_nonneg
  have hp : 0 ≤ (1 + A.u) ^ 3 - 1 := by nlinarith [pow_nonneg hu 2, pow_nonneg hu 3]
  have h6 : s ≤ (1 + A.u) * x := by linarith [(abs_le.1 h5).2]
  have h7 := mul_le_mul_of_nonneg_left h6 hp
  have h8 := abs_sub_le g s x
  have h9 : ((1 + A.u) ^ 3 - 1) * ((1 + A.u) * x) + A.u * x = ((1 + A.u) ^ 4 - 1) * x := by ring
  linarith

theorem threshold_err (A : Arith) : (1 - A.u) * 1e-6 ≤ A.fl 1e-6 ∧ A.fl 1e-6 ≤ (1 + A.u) * 1e-6 := by
  have h4 := A.fl_err 1e-6
  rw [abs_of_pos (show (0 : ℝ) < 1e-6 by norm_num)] at h4
  have := abs_le.1 h4
  constructor <;> linarith

/-- C113, Hermitian: a matrix whose entries differ from those of its conjugate transpose by little is accepted. -/
theorem C113_hermitian_accept (A : Arith) (R : TraceRoutines A) (m : Tensor ℂ) (d : ℕ) (hs : m.shape = [d, d])
    (h : ∀ i j, i < d → j < d → (1 + A.u) ^ 4 * ‖m.get [i, j] - star (m.get [j, i])‖ ≤ (1 - A.u) * 1e-6) :
    A.IsHermitian R m = .ok true := by
  unfold Arith.IsHermitian
  rw [hs]
  simp only [ne_eq, not_true_eq_false, raiseIf_false (not_false), Py.ok_bind]
  rw [if_neg]
  intro hc
  rw [List.any_eq_true] at hc
  obtain ⟨i, hi, hc⟩ := hc
  rw [List.any_eq_true] at hc
  obtain ⟨j, hj, hc⟩ := hc
  rw [List.mem_range] at hi
  rw [List.mem_range'_1] at hj
  have hc := of_decide_eq_true hc
  have h1 := (abs_le.1 (absdiff_err R (m.get [i, j]) (star (m.get [j, i])))).2
  have h2 := h i j hi (by omega)
  have h3 := (threshold_err A).1
  linarith

/-- C113, Hermitian: a matrix with a pair of entries that differ too much is not. -/
theorem C113_hermitian_reject (A : Arith) (R : TraceRoutines A) (m : Tensor ℂ) (d : ℕ) (hs : m.shape = [d, d])
    (i j : ℕ) (hi : i < d) (hj : j < d)
    (h : (1 + A.u) * 1e-6 < (2 - (1 + A.u) ^ 4) * ‖m.get [i, j] - star (m.get [j, i])‖) :
    A.IsHermitian R m = .ok false := by
  wlog hij : i ≤ j generalizing i j
  · refine this j i hj hi ?_ (by omega)
    have e : ‖m.get [j, i] - star (m.get [i, j])‖ = ‖m.get [i, j] - star (m.get [j, i])‖ := by
      rw [← norm_star (m.get [j, i] - star (m.get [i, j])), star_sub, star_star, norm_sub_rev]
    rwa [e]
  unfold Arith.IsHermitian
  rw [hs]
  simp only [ne_eq, not_true_eq_false, raiseIf_false (not_false), Py.ok_bind]
  rw [if_pos]
  rw [List.any_eq_true]
  refine ⟨i, List.mem_range.2 hi, ?_⟩
  rw [List.any_eq_true]
  refine ⟨j, List.mem_range'_1.2 ⟨hij, by omega⟩, decide_eq_true ?_⟩
  have h1 := (abs_le.1 (absdiff_err R (m.get [i, j]) (star (m.get [j, i])))).1
  have h3 := (threshold_err A).2
  linarith

/-! ## Unit vectors -/

theorem sqSum_err (R : TraceRoutines A) (g : ℕ → ℂ) (n : ℕ) :
    |A.sqSum R g n - ∑ k ∈ range n, ‖g k‖ ^ 2| ≤ ((1 + A.u) ^ (n + 7) - 1) * ∑ k ∈ range n, ‖g k‖ ^ 2 := by
  have hu := A.u_nonneg
  have h1u : 1 ≤ 1 + A.u := by linarith
  induction n with
  | zero => simp [Arith.sqSum]
  | succ n ih =>
    rw [Arith.sqSum, sum_range_succ]
    have hS : 0 ≤ ∑ k ∈ range n, ‖g k‖ ^ 2 := sum_nonneg fun _ _ => sq_nonneg _
    have ha := R.abs_err (g n)
    have hx := norm_nonneg (g n)
    generalize ∑ k ∈ range n, ‖g k‖ ^ 2 = S at *
    generalize A.sqSum R g n = s at *
    generalize R.abs (g n) = a at *
    generalize ‖g n‖ = x at *
    -- the square
    have h2 : |a ^ 2 - x ^ 2| ≤ ((1 + A.u) ^ 6 - 1) * x ^ 2 := by
      have e : a ^ 2 - x ^ 2 = (a - x) * (a - x + 2 * x) := by ring
      have h3 : |a - x + 2 * x| ≤ ((1 + A.u) ^ 3 - 1) * x + 2 * x :=
        (abs_add_le _ _).trans (add_le_add ha (le_of_eq (abs_of_nonneg (by linarith))))
      rw [e, abs_mul]
      have h4 : 0 ≤ ((1 + A.u) ^ 3 - 1) * x := (abs_nonneg _).trans ha
      refine (mul_le_mul ha h3 (abs_nonneg _) h4).trans (le_of_eq ?_)
      ring
    have hq := A.fl_err (a ^ 2)
    rw [abs_of_nonneg (sq_nonneg a)] at hq
    have h5 : |A.fl (a ^ 2) - x ^ 2| ≤ ((1 + A.u) ^ 7 - 1) * x ^ 2 := by
      have h6 := abs_sub_le (A.fl (a ^ 2)) (a ^ 2) (x ^ 2)
      have h7 : a ^ 2 ≤ (1 + A.u) ^ 6 * x ^ 2 := by linarith [(abs_le.1 h2).2]
      have h8 := mul_le_mul_of_nonneg_left h7 hu
      have e : A.u * ((1 + A.u) ^ 6 * x ^ 2) + ((1 + A.u) ^ 6 - 1) * x ^ 2 = ((1 + A.u) ^ 7 - 1) * x ^ 2 := by ring
      linarith
    generalize A.fl (a ^ 2) = q at *
    have hx2 : 0 ≤ x ^ 2 := sq_nonneg x
    generalize x ^ 2 = y at *
    -- the sum
    have hP : (1 + A.u) ^ 7 ≤ (1 + A.u) ^ (n + 7) := pow_le_pow_right₀ h1u (by omega)
    have e1 : (1 + A.u) ^ (n + 1 + 7) = (1 + A.u) * (1 + A.u) ^ (n + 7) := by ring
    rw [e1]
    generalize (1 + A.u) ^ (n + 7) = P at *
    have h9 := mul_le_mul_of_nonneg_right (sub_le_sub_right hP 1) hx2
    have h10 : |s + q - (S + y)| ≤ (P - 1) * (S + y) := by
      have e : s + q - (S + y) = (s - S) + (q - y) := by ring
      rw [e]
      have := abs_add_le (s - S) (q - y)
      linarith
    have h11 := A.fl_err (s + q)
    have h12 : |s + q| ≤ P * (S + y) := by
      have := abs_add_le (s + q - (S + y)) (S + y)
      rw [sub_add_cancel, abs_of_nonneg (show 0 ≤ S + y by linarith)] at this
      linarith
    have h13 := mul_le_mul_of_nonneg_left h12 hu
    have h14 := abs_sub_le (A.fl (s + q)) (s + q) (S + y)
    have e : A.u * (P * (S + y)) + (P - 1) * (S + y) = ((1 + A.u) * P - 1) * (S + y) := by ring
    linarith

theorem norm_form (R : TraceRoutines A) {v : Tensor ℂ} {d : ℕ} (hs : v.shape = [d]) (hd : 0 < d) :
    A.IsNormalized R v = if |A.fl (A.sqSum R (fun i => v.get [i]) d - 1)| > A.fl 1e-6 then .ok false else .ok true := by
  unfold Arith.IsNormalized
  rw [raiseIf_false (by simp [Tensor.rank, hs]), Py.ok_bind, raiseIf_false (by simp [hs]; omega), Py.ok_bind, hs]
  rfl

theorem unit_accept (R : TraceRoutines A) (g : ℕ → ℂ) (d : ℕ) {S : ℝ} (hS : ∑ k ∈ range d, ‖g k‖ ^ 2 = S)
    (h : (1 + A.u) * (|S - 1| + ((1 + A.u) ^ (d + 7) - 1) * S) ≤ (1 - A.u) * 1e-6) :
    ¬|A.fl (A.sqSum R g d - 1)| > A.fl 1e-6 := by
  have h1 := sqSum_err R g d
  rw [hS] at h1
  generalize A.sqSum R g d = s at *
  have h2 := A.fl_err (s - 1)
  have h3 := abs_sub_le s S 1
  have h4 := abs_sub_abs_le_abs_sub (A.fl (s - 1)) (s - 1)
  have h5 := (threshold_err A).1
  have h6 := mul_le_mul_of_nonneg_left (h3.trans (add_le_add h1 le_rfl)) (by linarith [A.u_nonneg] : 0 ≤ 1 + A.u)
  rw [not_lt]
  linarith

theorem unit_reject (R : TraceRoutines A) (g : ℕ → ℂ) (d : ℕ) {S : ℝ} (hS : ∑ k ∈ range d, ‖g k‖ ^ 2 = S)
    (hu : A.u ≤ 1) (h : (1 + A.u) * 1e-6 < (1 - A.u) * (|S - 1| - ((1 + A.u) ^ (d + 7) - 1) * S)) :
    |A.fl (A.sqSum R g d - 1)| > A.fl 1e-6 := by
  have h1 := sqSum_err R g d
  rw [hS] at h1
  generalize A.sqSum R g d = s at *
  have h2 := A.fl_err (s - 1)
  have h3 := abs_sub_le S s 1
  rw [abs_sub_comm S s] at h3
  have h4 := abs_sub_abs_le_abs_sub (s - 1) (A.fl (s - 1))
  rw [abs_sub_comm (s - 1)] at h4
  have h5 := (threshold_err A).2
  have h6 : |S - 1| - ((1 + A.u) ^ (d + 7) - 1) * S ≤ |s - 1| := by linarith
  have h7 := mul_le_mul_of_nonneg_left h6 (by linarith : 0 ≤ 1 - A.u)
  show A.fl 1e-6 < _
  linarith

/-- C113, unit vectors: a vector whose squared norm is close enough to one is accepted. -/
theorem C113_normalized_accept (A : Arith) (R : TraceRoutines A) (v : Tensor ℂ) (d : ℕ) (hs : v.shape = [d])
    (hd : 0 < d) (S : ℝ) (hS : ∑ k ∈ range d, ‖v.get [k]‖ ^ 2 = S)
    (h : (1 + A.u) * (|S - 1| + ((1 + A.u) ^ (d + 7) - 1) * S) ≤ (1 - A.u) * 1e-6) :
    A.IsNormalized R v = .ok true := by
  rw [norm_form R hs hd, if_neg (unit_accept R _ d hS h)]

/-- C113, unit vectors: a vector whose squared norm is too far from one is not. -/
theorem C113_normalized_reject (A : Arith) (R : TraceRoutines A) (v : Tensor ℂ) (d : ℕ) (hs : v.shape = [d])
    (hd : 0 < d) (S : ℝ) (hS : ∑ k ∈ range d, ‖v.get [k]‖ ^ 2 = S) (hu : A.u ≤ 1)
    (h : (1 + A.u) * 1e-6 < (1 - A.u) * (|S - 1| - ((1 + A.u) ^ (d + 7) - 1) * S)) :
    A.IsNormalized R v = .ok false := by
  rw [norm_form R hs hd, if_pos (unit_reject R _ d hS hu h)]

/-! ## Unitary matrices -/

theorem ovlSum_eq (a b : ℕ → ℂ) (n : ℕ) : A.ovlSum a b n = A.seqDot n a b := by
  induction n with
  | zero => rfl
  | succ n ih => rw [Arith.ovlSum, ih]; rfl

theorem ovlSum_err (a b : ℕ → ℂ) (n : ℕ) :
    ‖A.ovlSum a b n - ∑ k ∈ range n, a k * b k‖ ≤ sumErr A.u n * ∑ k ∈ range n, ‖a k‖ * ‖b k‖ := by
  rw [ovlSum_eq]
  refine (A.seqDot_err_card n a b).trans (mul_le_mul_of_nonneg_right ?_ (sum_nonneg fun _ _ => by positivity))
  have h1 : ((range n).filter (fun k => a k ≠ 0)).card ≤ n := (card_filter_le _ _).trans (card_range n).le
  have h2 := pow_le_pow_right₀ (by linarith [A.u_nonneg] : 1 ≤ 1 + A.u) h1
  have h3 := mul_le_mul_of_nonneg_right h2 (by linarith [mulErr_nonneg A.u_nonneg] : 0 ≤ 1 + mulErr A.u)
  unfold sumErr
  linarith

/-- The product of row `i` with the conjugate of row `k`, and the sum of the absolute values. -/
noncomputable def overlap (m : Tensor ℂ) (d i k : ℕ) : ℂ := ∑ j ∈ range d, m.get [i, j] * star (m.get [k, j])
noncomputable def absOverlap (m : Tensor ℂ) (d i k : ℕ) : ℝ := ∑ j ∈ range d, ‖m.get [i, j]‖ * ‖m.get [k, j]‖
noncomputable def rowSq (m : Tensor ℂ) (d i : ℕ) : ℝ := ∑ j ∈ range d, ‖m.get [i, j]‖ ^ 2

theorem overlap_err (R : TraceRoutines A) (m : Tensor ℂ) (d i k : ℕ) :
    R.abs (A.ovlSum (fun j => m.get [i, j]) (fun j => star (m.get [k, j])) d) ≤
        (1 + A.u) ^ 3 * (‖overlap m d i k‖ + sumErr A.u d * absOverlap m d i k) ∧
      ((1 + A.u) ^ 3 ≤ 2 → (2 - (1 + A.u) ^ 3) * (‖overlap m d i k‖ - sumErr A.u d * absOverlap m d i k) ≤
        R.abs (A.ovlSum (fun j => m.get [i, j]) (fun j => star (m.get [k, j])) d)) := by
  have h1 := ovlSum_err (A := A) (fun j => m.get [i, j]) (fun j => star (m.get [k, j])) d
  simp only [norm_star] at h1
  change ‖_ - overlap m d i k‖ ≤ _ * absOverlap m d i k at h1
  have h2 := abs_le.1 ((abs_norm_sub_norm_le _ _).trans h1)
  have h3 := abs_le.1 (R.abs_err (A.ovlSum (fun j => m.get [i, j]) (fun j => star (m.get [k, j])) d))
  generalize R.abs (A.ovlSum (fun j => m.get [i, j]) (fun j => star (m.get [k, j])) d) = g at *
  generalize ‖A.ovlSum (fun j => m.get [i, j]) (fun j => star (m.get [k, j])) d‖ = x at *
  generalize sumErr A.u d * absOverlap m d i k = e at *
  generalize ‖overlap m d i k‖ = o at *
  have hp : 0 ≤ (1 + A.u) ^ 3 := pow_nonneg (by linarith [A.u_nonneg]) 3
  generalize (1 + A.u) ^ 3 = P at *
  constructor
  · have := mul_le_mul_of_nonneg_left (show x ≤ o + e by linarith [h2.2]) hp
    linarith [h3.2]
  · intro hP
    have := mul_le_mul_of_nonneg_left (show o - e ≤ x by linarith [h2.1]) (show 0 ≤ 2 - P by linarith)
    linarith [h3.1]

/-- C113, unitary: rows of norm close to one whose products are close to zero. -/
theorem C113_unitary_accept (A : Arith) (R : TraceRoutines A) (m : Tensor ℂ) (d : ℕ) (hs : m.shape = [d, d])
    (h1 : ∀ i, i < d → (1 + A.u) * (|rowSq m d i - 1| + ((1 + A.u) ^ (d + 7) - 1) * rowSq m d i) ≤ (1 - A.u) * 1e-6)
    (h2 : ∀ i k, i < k → k < d →
      (1 + A.u) ^ 3 * (‖overlap m d i k‖ + sumErr A.u d * absOverlap m d i k) ≤ (1 - A.u) * 1e-6) :
    A.IsUnitary R m = .ok true := by
  unfold Arith.IsUnitary
  rw [hs]
  simp only [ne_eq, not_true_eq_false, raiseIf_false (not_false), Py.ok_bind]
  rw [if_neg, if_neg]
  · intro hc
    rw [List.any_eq_true] at hc
    obtain ⟨i, hi, hc⟩ := hc
    rw [List.any_eq_true] at hc
    obtain ⟨k, hk, hc⟩ := hc
    rw [List.mem_range] at hi
    rw [List.mem_range'_1] at hk
    have hc := of_decide_eq_true hc
    have h3 := (overlap_err R m d i k).1
    have h4 := h2 i k (by omega) (by omega)
    have h5 := (threshold_err A).1
    linarith
  · intro hc
    rw [List.any_eq_true] at hc
    obtain ⟨i, hi, hc⟩ := hc
    exact unit_accept R _ d rfl (h1 i (List.mem_range.1 hi)) (of_decide_eq_true hc)

/-- C113, unitary: a row whose norm is too far from one. -/
theorem C113_unitary_reject_row (A : Arith) (R : TraceRoutines A) (m : Tensor ℂ) (d : ℕ) (hs : m.shape = [d, d])
    (hu : A.u ≤ 1) (i : ℕ) (hi : i < d)
    (h : (1 + A.u) * 1e-6 < (1 - A.u) * (|rowSq m d i - 1| - ((1 + A.u) ^ (d + 7) - 1) * rowSq m d i)) :
    A.IsUnitary R m = .ok false := by
  unfold Arith.IsUnitary
  rw [hs]
  simp only [ne_eq, not_true_eq_false, raiseIf_false (not_false), Py.ok_bind]
  rw [if_pos]
  rw [List.any_eq_true]
  exact ⟨i, List.mem_range.2 hi, decide_eq_true (unit_reject R _ d rfl hu h)⟩

/-- C113, unitary: two rows whose product is too far from zero. -/
theorem C113_unitary_reject_pair (A : Arith) (R : TraceRoutines A) (m : Tensor ℂ) (d : ℕ) (hs : m.shape = [d, d])
    (hu : (1 + A.u) ^ 3 ≤ 2) (i k : ℕ) (hik : i < k) (hk : k < d)
    (h : (1 + A.u) * 1e-6 < (2 - (1 + A.u) ^ 3) * (‖overlap m d i k‖ - sumErr A.u d * absOverlap m d i k)) :
    A.IsUnitary R m = .ok false := by
  unfold Arith.IsUnitary
  rw [hs]
  simp only [ne_eq, not_true_eq_false, raiseIf_false (not_false), Py.ok_bind]
  split_ifs with ha hb
  · rfl
  · rfl
  · refine absurd ?_ hb
    rw [List.any_eq_true]
    refine ⟨i, List.mem_range.2 (by omega), ?_⟩
    rw [List.any_eq_true]
    refine ⟨k, List.mem_range'_1.2 ⟨hik, by omega⟩, decide_eq_true ?_⟩
    have h3 := (overlap_err R m d i k).2 hu
    have h5 := (threshold_err A).2
    linarith

/-! ## Exceptions -/

/-- C113, exceptions: they depend on the shape only. -/
theorem C113_errors (A : Arith) (R : TraceRoutines A) (m : Tensor ℂ) :
    (∀ r c, m.shape = [r, c] → r ≠ c →
      A.IsHermitian R m = .error .valueError ∧ A.IsUnitary R m = .error .valueError) ∧
    (m.shape.length < 2 → A.IsHermitian R m = .error .indexError ∧ A.IsUnitary R m = .error .indexError) ∧
    (m.shape.length ≠ 1 → A.IsNormalized R m = .error .valueError) ∧
    (m.shape = [0] → A.IsNormalized R m = .error .typeError) := by
  refine ⟨fun r c hs hrc => ?_, fun hs => ?_, fun hs => ?_, fun hs => ?_⟩
  · unfold Arith.IsHermitian Arith.IsUnitary
    rw [hs]
    simp only [raiseIf_true hrc]
    exact ⟨rfl, rfl⟩
  · unfold Arith.IsHermitian Arith.IsUnitary
    match hm : m.shape, hs with
    | [], _ => exact ⟨rfl, rfl⟩
    | [_], _ => exact ⟨rfl, rfl⟩
  · unfold Arith.IsNormalized
    rw [raiseIf_true (by simpa [Tensor.rank] using hs)]
    rfl
  · unfold Arith.IsNormalized
    rw [raiseIf_false (by simp [Tensor.rank, hs]), Py.ok_bind, raiseIf_true (by simp [hs])]
    rfl

/-! ## Single precision -/

theorem gamma15 (hu : A.u ≤ 2⁻¹ ^ 24) {d : ℕ} (hd : d ≤ 8) : (1 + A.u) ^ (d + 7) - 1 ≤ 8.95e-7 := by
  have h0 := A.u_nonneg
  have h2 := pow_le_pow_right₀ (by linarith : 1 ≤ 1 + A.u) (show d + 7 ≤ 15 by omega)
  have h3 : (1 + A.u) ^ 15 ≤ (1 + 2⁻¹ ^ 24) ^ 15 := pow_le_pow_left₀ (by linarith) (by linarith) 15
  have h4 : (1 + 2⁻¹ ^ 24 : ℝ) ^ 15 ≤ 1 + 8.95e-7 := by norm_num
  linarith

/-- C113, single precision, Hermitian: differences up to `9.9e-7` are accepted, one above `1.01e-6` is rejected. -/
theorem C113_hermitian_float32 (A : Arith) (R : TraceRoutines A) (hu : A.u ≤ 2⁻¹ ^ 24) (m : Tensor ℂ) (d : ℕ)
    (hs : m.shape = [d, d]) :
    ((∀ i j, i < d → j < d → ‖m.get [i, j] - star (m.get [j, i])‖ ≤ 9.9e-7) → A.IsHermitian R m = .ok true) ∧
    ∀ i j, i < d → j < d → 1.01e-6 < ‖m.get [i, j] - star (m.get [j, i])‖ → A.IsHermitian R m = .ok false := by
  have h0 := A.u_nonneg
  have hu' : A.u ≤ 6e-8 := hu.trans (by norm_num)
  have h4 : (1 + A.u) ^ 4 ≤ 1 + 3e-7 := (pow_le_pow_left₀ (by linarith) (by linarith : 1 + A.u ≤ 1 + 6e-8) 4).trans
    (by norm_num)
  refine ⟨fun h => C113_hermitian_accept A R m d hs fun i j hi hj => ?_, fun i j hi hj h =>
    C113_hermitian_reject A R m d hs i j hi hj ?_⟩
  · have := mul_le_mul h4 (h i j hi hj) (norm_nonneg _) (by norm_num)
    linarith
  · have := mul_le_mul (show (1 - 3e-7 : ℝ) ≤ 2 - (1 + A.u) ^ 4 by linarith) h.le (by norm_num) (by linarith)
    linarith

/-- C113, single precision, unit vectors of up to three qubits: a squared norm within `1e-7` of one is accepted, one that
is off by `2e-6` or more is rejected. -/
theorem C113_normalized_float32 (A : Arith) (R : TraceRoutines A) (hu : A.u ≤ 2⁻¹ ^ 24) (v : Tensor ℂ) (d : ℕ)
    (hs : v.shape = [d]) (hd : 0 < d) (hd' : d ≤ 8) (S : ℝ) (hS : ∑ k ∈ range d, ‖v.get [k]‖ ^ 2 = S) :
    (|S - 1| ≤ 1e-7 → A.IsNormalized R v = .ok true) ∧ (2e-6 ≤ |S - 1| → A.IsNormalized R v = .ok false) := by
  have h0 := A.u_nonneg
  have hu' : A.u ≤ 6e-8 := hu.trans (by norm_num)
  have h1 := gamma15 (A := A) hu hd'
  have hS0 : 0 ≤ S := by rw [← hS]; exact sum_nonneg fun _ _ => sq_nonneg _
  have hγ := mul_le_mul_of_nonneg_right h1 hS0
  have hp : 0 ≤ ((1 + A.u) ^ (d + 7) - 1) * S := mul_nonneg (sub_nonneg.2 (one_le_pow₀ (by linarith))) hS0
  constructor
  · intro h
    refine C113_normalized_accept A R v d hs hd S hS ?_
    have h2 : S ≤ 1 + 1e-7 := by linarith [(abs_le.1 h).2]
    have h3 : |S - 1| + ((1 + A.u) ^ (d + 7) - 1) * S ≤ 9.951e-7 := by linarith
    have h4 := mul_le_mul (show 1 + A.u ≤ 1 + 6e-8 by linarith) h3 (add_nonneg (abs_nonneg _) hp) (by norm_num)
    linarith
  · intro h
    refine C113_normalized_reject A R v d hs hd S hS (by linarith) ?_
    have h2 : S ≤ 1 + |S - 1| := by linarith [le_abs_self (S - 1)]
    have h3 : 1.1e-6 ≤ |S - 1| - ((1 + A.u) ^ (d + 7) - 1) * S := by linarith
    have h4 := mul_le_mul (show (1 - 6e-8 : ℝ) ≤ 1 - A.u by linarith) h3 (by norm_num) (by linarith)
    linarith

/-- C113, single precision, unitary matrices on up to three qubits: squared norms of rows within `1e-7` of one and products
of rows up to `2e-7` are accepted, a squared norm that is off by `2e-6` or a product of `2e-6` is rejected. -/
theorem C113_unitary_float32 (A : Arith) (R : TraceRoutines A) (hu : A.u ≤ 2⁻¹ ^ 24) (m : Tensor ℂ) (d : ℕ)
    (hs : m.shape = [d, d]) (hd : d ≤ 8) :
    ((∀ i, i < d → |rowSq m d i - 1| ≤ 1e-7) → (∀ i k, i < k → k < d → ‖overlap m d i k‖ ≤ 2e-7) →
      A.IsUnitary R m = .ok true) ∧
    (∀ i, i < d → 2e-6 ≤ |rowSq m d i - 1| → A.IsUnitary R m = .ok false) ∧
    ∀ i k, i < k → k < d → 2e-6 ≤ ‖overlap m d i k‖ → A.IsUnitary R m = .ok false := by
  have h0 := A.u_nonneg
  have hu' : A.u ≤ 6e-8 := hu.trans (by norm_num)
  have h1 := gamma15 (A := A) hu hd
  have h1' : 0 ≤ (1 + A.u) ^ (d + 7) - 1 := sub_nonneg.2 (one_le_pow₀ (by linarith))
  have h3 : (1 + A.u) ^ 3 ≤ 1 + 2e-7 := (pow_le_pow_left₀ (by linarith) (by linarith : 1 + A.u ≤ 1 + 6e-8) 3).trans
    (by norm_num)
  have hE : sumErr A.u d ≤ 6.7e-7 := by
    have e1 := pow_le_pow_right₀ (by linarith : 1 ≤ 1 + A.u) hd
    have e2 : (1 + A.u) ^ 8 ≤ 1 + 4.81e-7 := (pow_le_pow_left₀ (by linarith) (by linarith : 1 + A.u ≤ 1 + 6e-8) 8).trans
      (by norm_num)
    have e3 : Real.sqrt 2 ≤ 1.42 := Real.sqrt_le_iff.2 ⟨by norm_num, by norm_num⟩
    have e4 : (1 + A.u) ^ 2 - 1 ≤ 1.21e-7 := by nlinarith
    have e5 : mulErr A.u ≤ 1.42 * 1.21e-7 := mul_le_mul e3 e4 (by nlinarith) (by norm_num)
    have e6 := mul_le_mul (e1.trans e2) (show 1 + mulErr A.u ≤ 1 + 1.72e-7 by linarith)
      (by linarith [mulErr_nonneg h0]) (by norm_num)
    unfold sumErr
    linarith
  have hE0 : 0 ≤ sumErr A.u d := sumErr_nonneg h0 d
  have hS0 : ∀ i, 0 ≤ rowSq m d i := fun i => sum_nonneg fun _ _ => sq_nonneg _
  have hT0 : ∀ i k, 0 ≤ absOverlap m d i k := fun i k => sum_nonneg fun _ _ => by positivity
  have hT : ∀ i k, absOverlap m d i k ≤ (rowSq m d i + rowSq m d k) / 2 := fun i k => by
    unfold absOverlap rowSq
    rw [← sum_add_distrib, sum_div]
    exact sum_le_sum fun j _ => by nlinarith [sq_nonneg (‖m.get [i, j]‖ - ‖m.get [k, j]‖)]
  have hrow : ∀ i, i < d → 2e-6 ≤ |rowSq m d i - 1| → A.IsUnitary R m = .ok false := fun i hi h => by
    refine C113_unitary_reject_row A R m d hs (by linarith) i hi ?_
    have hγ := mul_le_mul_of_nonneg_right h1 (hS0 i)
    have h2 : rowSq m d i ≤ 1 + |rowSq m d i - 1| := by linarith [le_abs_self (rowSq m d i - 1)]
    have h3 : 1.1e-6 ≤ |rowSq m d i - 1| - ((1 + A.u) ^ (d + 7) - 1) * rowSq m d i := by linarith
    have h4 := mul_le_mul (show (1 - 6e-8 : ℝ) ≤ 1 - A.u by linarith) h3 (by norm_num) (by linarith)
    linarith
  refine ⟨fun ha hb => C113_unitary_accept A R m d hs (fun i hi => ?_) fun i k hik hk => ?_, hrow, fun i k hik hk h => ?_⟩
  · have hγ := mul_le_mul_of_nonneg_right h1 (hS0 i)
    have h := ha i hi
    have h2 : rowSq m d i ≤ 1 + 1e-7 := by linarith [(abs_le.1 h).2]
    have h3 : |rowSq m d i - 1| + ((1 + A.u) ^ (d + 7) - 1) * rowSq m d i ≤ 9.951e-7 := by linarith
    have h4 := mul_le_mul (show 1 + A.u ≤ 1 + 6e-8 by linarith) h3
      (add_nonneg (abs_nonneg _) (mul_nonneg h1' (hS0 i))) (by norm_num)
    linarith
  · have e1 := (abs_le.1 (ha i (by omega))).2
    have e2 := (abs_le.1 (ha k hk)).2
    have e3 := mul_le_mul hE (show absOverlap m d i k ≤ 1 + 1e-7 by linarith [hT i k]) (hT0 i k) (by norm_num)
    have e4 := hb i k hik hk
    have e5 := mul_le_mul h3 (show ‖overlap m d i k‖ + sumErr A.u d * absOverlap m d i k ≤ 8.8e-7 by linarith)
      (add_nonneg (norm_nonneg _) (mul_nonneg hE0 (hT0 i k))) (by norm_num)
    linarith
  · by_cases hi : 2e-6 ≤ |rowSq m d i - 1|
    · exact hrow i (by omega) hi
    by_cases hk' : 2e-6 ≤ |rowSq m d k - 1|
    · exact hrow k hk hk'
    rw [not_le] at hi hk'
    have e1 := (abs_lt.1 hi).2
    have e2 := (abs_lt.1 hk').2
    have e3 := mul_le_mul hE (show absOverlap m d i k ≤ 1 + 2e-6 by linarith [hT i k]) (hT0 i k) (by norm_num)
    refine C113_unitary_reject_pair A R m d hs (by linarith) i k hik hk ?_
    have e5 := mul_le_mul (show (1 - 2e-7 : ℝ) ≤ 2 - (1 + A.u) ^ 3 by linarith)
      (show 1.3e-6 ≤ ‖overlap m d i k‖ - sumErr A.u d * absOverlap m d i k by linarith) (by norm_num) (by linarith)
    linarith

/-! ## Examples -/

/-- Pauli-Y is unitary. -/
example (A : Arith) (R : TraceRoutines A) (hu : A.u ≤ 2⁻¹ ^ 24) :
    A.IsUnitary R (Tensor.ofRows [[0, -I], [I, 0]]) = .ok true := by
  refine (C113_unitary_float32 A R hu _ 2 rfl (by norm_num)).1 (fun i hi => ?_) fun i k hik hk => ?_
  · interval_cases i <;> norm_num [rowSq, sum_range_succ, Tensor.ofRows, Tensor.ofFn]
  · obtain ⟨rfl, rfl⟩ : i = 0 ∧ k = 1 := by omega
    norm_num [overlap, sum_range_succ, Tensor.ofRows, Tensor.ofFn]

/-- Two equal rows of norm one are not. -/
example (A : Arith) (R : TraceRoutines A) (hu : A.u ≤ 2⁻¹ ^ 24) :
    A.IsUnitary R (Tensor.ofRows [[0, 1], [0, 1]]) = .ok false := by
  refine (C113_unitary_float32 A R hu _ 2 rfl (by norm_num)).2.2 0 1 (by norm_num) (by norm_num) ?_
  norm_num [overlap, sum_range_succ, Tensor.ofRows, Tensor.ofFn]

/-- The matrix of Pauli-Y is Hermitian. -/
example (A : Arith) (R : TraceRoutines A) (hu : A.u ≤ 2⁻¹ ^ 24) :
    A.IsHermitian R (Tensor.ofRows [[0, -I], [I, 0]]) = .ok true := by
  refine (C113_hermitian_float32 A R hu _ 2 rfl).1 fun i j hi hj => ?_
  interval_cases i <;> interval_cases j <;> norm_num [Tensor.ofRows, Tensor.ofFn]

/-- That of S is not: `i` is not its own conjugate. -/
example (A : Arith) (R : TraceRoutines A) (hu : A.u ≤ 2⁻¹ ^ 24) :
    A.IsHermitian R (Tensor.ofRows [[1, 0], [0, I]]) = .ok false := by
  refine (C113_hermitian_float32 A R hu _ 2 rfl).2 1 1 (by norm_num) (by norm_num) ?_
  have e : ‖(I : ℂ) - star I‖ = 2 := by
    have : (I : ℂ) - star I = 2 * I := by simp; ring
    rw [this]; simp
  show 1.01e-6 < ‖(I : ℂ) - star I‖
  rw [e]; norm_num

/-- The vector (0.6, 0.8 i) has norm one, also if its entries have been rounded to within `1e-8`. -/
example (A : Arith) (R : TraceRoutines A) (hu : A.u ≤ 2⁻¹ ^ 24) (a b : ℝ) (ha : |a - 0.6| ≤ 1e-8) (hb : |b - 0.8| ≤ 1e-8) :
    A.IsNormalized R (Tensor.ofFn [2] fun i => if i = [0] then (a : ℂ) else b * I) = .ok true := by
  refine (C113_normalized_float32 A R hu _ 2 rfl (by norm_num) (by norm_num) (a ^ 2 + b ^ 2) ?_).1 ?_
  · simp [sum_range_succ, Tensor.ofFn]
  · have := abs_le.1 ha
    have := abs_le.1 hb
    rw [abs_le]
    constructor <;> nlinarith

end QTN.Props
