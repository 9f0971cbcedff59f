import Verif.Lemmas.RoundGate
import Mathlib.Data.Int.Log

/-! # Concrete arithmetics: binary floating-point numbers with `p` digits

Rounding to nearest, ties to even, unbounded exponents.  Two routines for sums of products: term by term
with rounding after every operation, and the exact sum rounded once.
-/

namespace QTN

open Spec Complex Finset

noncomputable section

/-! ## Rounding -/

/-- Nearest integer, ties to even. -/
def roundEven (y : ℝ) : ℤ :=
  if Int.fract y < 1 / 2 then ⌊y⌋
  else if 1 / 2 < Int.fract y then ⌊y⌋ + 1
  else if Even ⌊y⌋ then ⌊y⌋ else ⌊y⌋ + 1

theorem roundEven_err (y : ℝ) : |(roundEven y : ℝ) - y| ≤ 1 / 2 := by
  have h1 := Int.self_sub_floor y
  have h2 := Int.fract_nonneg y
  have h3 := Int.fract_lt_one y
  unfold roundEven
  rw [abs_le]
  by_cases c1 : Int.fract y < 1 / 2
  · rw [if_pos c1]
    constructor <;> linarith
  rw [if_neg c1]
  by_cases c2 : 1 / 2 < Int.fract y
  · rw [if_pos c2]
    push_cast
    constructor <;> linarith
  rw [if_neg c2]
  split_ifs
  · constructor <;> linarith
  · push_cast
    constructor <;> linarith

theorem roundEven_int (n : ℤ) : roundEven n = n := by simp [roundEven]

/-- Rounding to `p` binary digits. -/
def binFl (p : ℕ) (x : ℝ) : ℝ :=
  let q : ℝ := (2 : ℝ) ^ (Int.log 2 |x| - p + 1)
  SignType.sign x * (roundEven (|x| / q) * q)

theorem binFl_zero (p : ℕ) : binFl p 0 = 0 := by simp [binFl]

theorem binFl_neg (p : ℕ) (x : ℝ) : binFl p (-x) = -binFl p x := by
  unfold binFl
  rw [abs_neg, Left.sign_neg]
  simp

theorem log_bounds {x : ℝ} (hx : x ≠ 0) : (2 : ℝ) ^ Int.log 2 |x| ≤ |x| ∧ |x| < 2 ^ (Int.log 2 |x| + 1) := by
  have h0 : 0 < |x| := abs_pos.2 hx
  constructor
  · exact_mod_cast Int.zpow_log_le_self (b := 2) (by norm_num) h0
  · exact_mod_cast Int.lt_zpow_succ_log_self (b := 2) (by norm_num) |x|

theorem binFl_err (p : ℕ) (x : ℝ) : |binFl p x - x| ≤ (2 : ℝ) ^ (-(p : ℤ)) * |x| := by
  by_cases hx : x = 0
  · subst hx; simp [binFl_zero]
  obtain ⟨h1, -⟩ := log_bounds hx
  set e := Int.log 2 |x| with he
  set q : ℝ := (2 : ℝ) ^ (e - p + 1) with hq
  have hq0 : 0 < q := by positivity
  have e1 : binFl p x - x = SignType.sign x * ((roundEven (|x| / q) - |x| / q) * q) := by
    have : (SignType.sign x : ℝ) * |x| = x := sign_mul_abs x
    unfold binFl
    simp only [← he, ← hq]
    rw [sub_mul, div_mul_cancel₀ _ hq0.ne', mul_sub, this]
  have hs' : |((SignType.sign x : SignType) : ℝ)| ≤ 1 := by
    rcases lt_trichotomy x 0 with h | h | h
    · simp [sign_neg h]
    · exact absurd h hx
    · simp [sign_pos h]
  rw [e1, abs_mul, abs_mul, abs_of_pos hq0]
  have h2 := roundEven_err (|x| / q)
  have h3 : 1 / 2 * q = (2 : ℝ) ^ (-(p : ℤ)) * 2 ^ e := by
    rw [hq, zpow_add₀ (by norm_num), zpow_sub₀ (by norm_num), zpow_neg]
    field_simp
  calc _ ≤ 1 * (1 / 2 * q) := mul_le_mul hs' (mul_le_mul_of_nonneg_right h2 hq0.le) (by positivity) (by norm_num)
    _ = (2 : ℝ) ^ (-(p : ℤ)) * 2 ^ e := by rw [one_mul, h3]
    _ ≤ _ := mul_le_mul_of_nonneg_left h1 (by positivity)

/-- The numbers with `p` digits are exactly the integers up to `2 ^ p` times a power of two. -/
theorem binFl_of {p : ℕ} (hp : 1 ≤ p) (m k : ℤ) (hm : |m| ≤ 2 ^ p) :
    binFl p (m * (2 : ℝ) ^ k) = m * (2 : ℝ) ^ k := by
  by_cases h0 : m = 0
  · subst h0; simp [binFl_zero]
  set x : ℝ := m * (2 : ℝ) ^ k with hx
  have hk0 : (0 : ℝ) < 2 ^ k := by positivity
  have hxne : x ≠ 0 := mul_ne_zero (by exact_mod_cast h0) hk0.ne'
  have habs : |x| = ((|m| : ℤ) : ℝ) * (2 : ℝ) ^ k := by
    rw [hx, abs_mul, abs_of_pos hk0, Int.cast_abs]
  obtain ⟨h1, h2⟩ := log_bounds hxne
  set e := Int.log 2 |x| with he
  have hmr : ((|m| : ℤ) : ℝ) ≤ 2 ^ p := by exact_mod_cast hm
  have key : ∃ n : ℤ, |x| = n * (2 : ℝ) ^ (e - p + 1) := by
    by_cases heq : |m| = 2 ^ p
    · have hxx : |x| = (2 : ℝ) ^ ((p : ℤ) + k) := by
        rw [habs, heq, zpow_add₀ (by norm_num)]; norm_cast
      have hle : e = p + k := by
        rw [hxx] at h1 h2
        have a1 := (zpow_le_zpow_iff_right₀ (by norm_num : (1 : ℝ) < 2)).1 h1
        have a2 := (zpow_lt_zpow_iff_right₀ (by norm_num : (1 : ℝ) < 2)).1 h2
        omega
      refine ⟨2 ^ (p - 1), ?_⟩
      rw [hxx, hle]
      push_cast
      rw [← zpow_natCast, ← zpow_add₀ (by norm_num)]
      congr 1
      have : ((p - 1 : ℕ) : ℤ) = (p : ℤ) - 1 := by omega
      rw [this]; ring
    · have hlt : |m| < 2 ^ p := lt_of_le_of_ne hm heq
      have hltr : ((|m| : ℤ) : ℝ) < 2 ^ p := by exact_mod_cast hlt
      have h3 : (2 : ℝ) ^ e < 2 ^ ((p : ℤ) + k) := by
        refine h1.trans_lt ?_
        rw [habs, zpow_add₀ (by norm_num), zpow_natCast]
        exact mul_lt_mul_of_pos_right hltr hk0
      have h4 := (zpow_lt_zpow_iff_right₀ (by norm_num : (1 : ℝ) < 2)).1 h3
      refine ⟨|m| * 2 ^ (k - (e - p + 1)).toNat, ?_⟩
      rw [habs]
      push_cast
      rw [mul_assoc, ← zpow_natCast, ← zpow_add₀ (by norm_num), Int.toNat_of_nonneg (by omega)]
      congr 2
      ring
  obtain ⟨n, hn⟩ := key
  have hq0 : (0 : ℝ) < (2 : ℝ) ^ (e - p + 1) := by positivity
  unfold binFl
  simp only [← he]
  rw [hn, mul_div_cancel_right₀ _ hq0.ne', roundEven_int, ← hn]
  exact sign_mul_abs x

theorem binFl_form {p : ℕ} (x : ℝ) : ∃ m k : ℤ, |m| ≤ 2 ^ p ∧ binFl p x = m * (2 : ℝ) ^ k := by
  by_cases hx : x = 0
  · exact ⟨0, 0, by simp, by subst hx; simp [binFl_zero]⟩
  obtain ⟨h1, h2⟩ := log_bounds hx
  set e := Int.log 2 |x| with he
  set q : ℝ := (2 : ℝ) ^ (e - p + 1) with hq
  have hq0 : 0 < q := by positivity
  have h3 : |x| / q < 2 ^ p := by
    rw [div_lt_iff₀ hq0, hq, ← zpow_natCast, ← zpow_add₀ (by norm_num)]
    refine h2.trans_le (le_of_eq ?_)
    congr 1; ring
  have h4 : 0 ≤ |x| / q := by positivity
  have h5 := abs_le.1 (roundEven_err (|x| / q))
  have h6 : roundEven (|x| / q) ≤ 2 ^ p := by
    have : (roundEven (|x| / q) : ℝ) < 2 ^ p + 1 := by linarith [h5.2]
    have h7 : (roundEven (|x| / q)) < 2 ^ p + 1 := by exact_mod_cast this
    omega
  have h7 : 0 ≤ roundEven (|x| / q) := by
    have : (-1 : ℝ) < roundEven (|x| / q) := by linarith [h5.1]
    have h8 : (-1 : ℤ) < roundEven (|x| / q) := by exact_mod_cast this
    omega
  rcases lt_or_gt_of_ne hx with hneg | hpos
  · refine ⟨-roundEven (|x| / q), e - p + 1, by rw [abs_neg, abs_of_nonneg h7]; exact h6, ?_⟩
    unfold binFl
    simp only [← he, ← hq, sign_neg hneg, SignType.coe_neg, SignType.coe_one]
    push_cast
    ring
  · refine ⟨roundEven (|x| / q), e - p + 1, by rw [abs_of_nonneg h7]; exact h6, ?_⟩
    unfold binFl
    simp only [← he, ← hq, sign_pos hpos, SignType.coe_one]
    ring

theorem binFl_binFl {p : ℕ} (hp : 1 ≤ p) (x : ℝ) : binFl p (binFl p x) = binFl p x := by
  obtain ⟨m, k, hm, h⟩ := binFl_form (p := p) x
  rw [h, binFl_of hp m k hm]

theorem binFl_half {p : ℕ} (hp : 1 ≤ p) (x : ℝ) (hx : binFl p x = x) : binFl p (x / 2) = x / 2 := by
  obtain ⟨m, k, hm, h⟩ := binFl_form (p := p) x
  rw [hx] at h
  have e : x / 2 = m * (2 : ℝ) ^ (k - 1) := by
    rw [h, zpow_sub₀ (by norm_num), zpow_one]; ring
  rw [e, binFl_of hp m _ hm]

theorem binFl_one {p : ℕ} (hp : 1 ≤ p) : binFl p 1 = 1 := by
  have := binFl_of hp 1 0 (by simpa using one_le_pow₀ (by norm_num : (1 : ℤ) ≤ 2))
  simpa using this

/-- Every rounded number is rational. -/
theorem binFl_rat {p : ℕ} (x : ℝ) : ∃ r : ℚ, binFl p x = r := by
  obtain ⟨m, k, -, h⟩ := binFl_form (p := p) x
  exact ⟨m * (2 : ℚ) ^ k, by rw [h]; push_cast; rfl⟩

/-! ## Sums of products -/

theorem norm_round {fl : ℝ → ℝ} {u : ℝ} (hu : 0 ≤ u) (h : ∀ x, |fl x - x| ≤ u * |x|) (z : ℂ) :
    ‖(⟨fl z.re, fl z.im⟩ : ℂ) - z‖ ≤ u * ‖z‖ := by
  refine abs_le_of_sq_le_sq' ?_ (by positivity) |>.2
  rw [mul_pow, ← Complex.normSq_eq_norm_sq, ← Complex.normSq_eq_norm_sq, Complex.normSq_apply, Complex.normSq_apply]
  simp only [sub_re, sub_im]
  have h1 := pow_le_pow_left₀ (abs_nonneg _) (h z.re) 2
  have h2 := pow_le_pow_left₀ (abs_nonneg _) (h z.im) 2
  rw [mul_pow, sq_abs, sq_abs] at h1 h2
  nlinarith

/-- The exact sum, rounded once. -/
def fusedDot (fl : ℝ → ℝ) (n : ℕ) (a b : ℕ → ℂ) : ℂ :=
  ⟨fl (∑ k ∈ range n, a k * b k).re, fl (∑ k ∈ range n, a k * b k).im⟩

theorem rep_sign_mul' {fl : ℝ → ℝ} (hn : ∀ x, fl (-x) = -fl x) (h0 : fl 0 = 0) {z w : ℂ} (hz : IsSign z) (hw : RepC fl w) :
    RepC fl (z * w) := by
  obtain ⟨h1, h2⟩ := hw
  rcases hz with rfl | rfl | rfl | rfl | rfl <;> constructor <;> simp [h0, h1, h2, hn]

/-- The arithmetic of binary numbers with `p` digits and correctly rounded cosine, sine and sums of
products. -/
def fused (p : ℕ) (hp : 1 ≤ p) : Arith where
  fl := binFl p
  u := (2 : ℝ) ^ (-(p : ℤ))
  δ := (2 : ℝ) ^ (-(p : ℤ))
  cosR x := binFl p (Real.cos x)
  sinR x := binFl p (Real.sin x)
  dot := fusedDot (binFl p)
  u_nonneg := by positivity
  δ_nonneg := by positivity
  fl_err := binFl_err p
  fl_fl := binFl_binFl hp
  fl_neg := binFl_neg p
  fl_one := binFl_one hp
  fl_half := binFl_half hp
  cos_err x := (binFl_err p _).trans (mul_le_of_le_one_right (by positivity) (Real.abs_cos_le_one x))
  cos_fl x := binFl_binFl hp _
  sin_err x := (binFl_err p _).trans (mul_le_of_le_one_right (by positivity) (Real.abs_sin_le_one x))
  sin_fl x := binFl_binFl hp _
  dot_err n a b r _ := by
    have hu : (0 : ℝ) ≤ (2 : ℝ) ^ (-(p : ℤ)) := by positivity
    set u := (2 : ℝ) ^ (-(p : ℤ))
    have h1 : ‖fusedDot (binFl p) n a b - ∑ k ∈ range n, a k * b k‖ ≤ u * ‖∑ k ∈ range n, a k * b k‖ :=
      norm_round hu (binFl_err p) _
    have h2 : ‖∑ k ∈ range n, a k * b k‖ ≤ ∑ k ∈ range n, ‖a k‖ * ‖b k‖ :=
      (norm_sum_le _ _).trans (le_of_eq (Finset.sum_congr rfl fun k _ => norm_mul _ _))
    have h3 : (1 : ℝ) ≤ Real.sqrt 2 := by rw [Real.one_le_sqrt]; norm_num
    have h4 : (1 : ℝ) ≤ (1 + u) ^ r := one_le_pow₀ (by linarith)
    have h6 : u ≤ (1 + u) ^ 2 - 1 := by nlinarith
    have h5 : u ≤ Real.sqrt 2 * ((1 + u) ^ 2 - 1) := h6.trans (le_mul_of_one_le_left (by linarith) h3)
    refine h1.trans (mul_le_mul ?_ h2 (norm_nonneg _) ?_) <;> nlinarith
  dot_rep n a b := ⟨binFl_binFl hp _, binFl_binFl hp _⟩
  dot_exact n a b k hk hz hs := by
    have e : ∑ j ∈ range n, a j * b j = a k * b k := by
      refine Finset.sum_eq_single k (fun j hj hne => ?_) (fun h => absurd (mem_range.2 hk) h)
      rcases hz j (mem_range.1 hj) hne with h | h <;> rw [h] <;> simp
    have hr : RepC (binFl p) (a k * b k) := by
      rcases hs with ⟨h1, h2⟩ | ⟨h1, h2⟩
      · exact rep_sign_mul' (binFl_neg p) (binFl_zero p) h1 h2
      · rw [mul_comm]; exact rep_sign_mul' (binFl_neg p) (binFl_zero p) h2 h1
    unfold fusedDot
    rw [e, hr.1, hr.2]

namespace Arith

variable (A : Arith)

/-- Term by term, with rounding after every operation. -/
def seqDot : ℕ → (ℕ → ℂ) → (ℕ → ℂ) → ℂ
  | 0, _, _ => 0
  | n + 1, a, b => A.add (seqDot n a b) (A.mul (a n) (b n))

theorem seqDot_rep (n : ℕ) (a b : ℕ → ℂ) : RepC A.fl (A.seqDot n a b) := by
  cases n with
  | zero => exact rep_zero
  | succ n => exact add_rep _ _

theorem mul_zero' (z : ℂ) : A.mul z 0 = 0 := by apply Complex.ext <;> simp [mul, A.fl_zero]
theorem zero_mul' (z : ℂ) : A.mul 0 z = 0 := by apply Complex.ext <;> simp [mul, A.fl_zero]
theorem add_zero' {z : ℂ} (h : RepC A.fl z) : A.add z 0 = z := by
  apply Complex.ext <;> simp [add, h.1, h.2]
theorem zero_add' {z : ℂ} (h : RepC A.fl z) : A.add 0 z = z := by
  apply Complex.ext <;> simp [add, h.1, h.2]

theorem seqDot_zero (n : ℕ) (a b : ℕ → ℂ) (h : ∀ j, j < n → a j = 0 ∨ b j = 0) : A.seqDot n a b = 0 := by
  induction n with
  | zero => rfl
  | succ n ih =>
    rw [seqDot, ih fun j hj => h j (by omega)]
    have : A.mul (a n) (b n) = 0 := by
      rcases h n (by omega) with e | e <;> rw [e]
      exacts [A.zero_mul' _, A.mul_zero' _]
    rw [this, A.add_zero' rep_zero]

theorem seqDot_exact (n : ℕ) (a b : ℕ → ℂ) (k : ℕ) (hk : k < n) (h : ∀ j, j < n → j ≠ k → a j = 0 ∨ b j = 0)
    (hs : IsSign (a k) ∧ RepC A.fl (b k) ∨ RepC A.fl (a k) ∧ IsSign (b k)) : A.seqDot n a b = a k * b k := by
  induction n with
  | zero => omega
  | succ n ih =>
    rw [seqDot]
    by_cases hkn : k = n
    · subst hkn
      rw [A.seqDot_zero k a b fun j hj => h j (by omega) (by omega), A.zero_add' (mul_rep _ _)]
      rcases hs with ⟨h1, h2⟩ | ⟨h1, h2⟩
      · exact sign_mul h1 h2
      · exact mul_sign h1 h2
    · rw [ih (by omega) fun j hj hne => h j (by omega) hne]
      have : A.mul (a n) (b n) = 0 := by
        rcases h n (by omega) (by omega) with e | e <;> rw [e]
        exacts [A.zero_mul' _, A.mul_zero' _]
      rw [this, A.add_zero']
      rcases hs with ⟨h1, h2⟩ | ⟨h1, h2⟩
      · exact rep_sign_mul h1 h2
      · exact rep_mul_sign h1 h2

theorem add_err (z w : ℂ) : ‖A.add z w - (z + w)‖ ≤ A.u * ‖z + w‖ :=
  norm_round A.u_nonneg A.fl_err (z + w)

theorem seqDot_err_card (n : ℕ) (a b : ℕ → ℂ) :
    ‖A.seqDot n a b - ∑ k ∈ range n, a k * b k‖ ≤
      sumErr A.u ((range n).filter (fun k => a k ≠ 0)).card * ∑ k ∈ range n, ‖a k‖ * ‖b k‖ := by
  induction n with
  | zero => simp [seqDot]
  | succ n ih =>
    rw [seqDot, Finset.sum_range_succ, Finset.sum_range_succ, Finset.range_add_one, Finset.filter_insert]
    set S := ∑ k ∈ range n, a k * b k with hS
    set T := ∑ k ∈ range n, ‖a k‖ * ‖b k‖ with hT
    set d := A.seqDot n a b with hd
    set r := ((range n).filter (fun k => a k ≠ 0)).card with hr
    by_cases h0 : a n = 0
    · rw [if_neg (by simpa using h0), h0, A.zero_mul', A.add_zero' (A.seqDot_rep n a b)]
      simpa using ih
    · rw [if_pos h0, Finset.card_insert_of_notMem (by simp), ← hr]
      have hST : ‖S‖ ≤ T := (norm_sum_le _ _).trans (le_of_eq (Finset.sum_congr rfl fun k _ => norm_mul _ _))
      have hT0 : 0 ≤ T := Finset.sum_nonneg fun _ _ => by positivity
      have hu := A.u_nonneg
      have hμ := mulErr_nonneg hu
      have hE := sumErr_nonneg hu r
      set P := ‖a n‖ * ‖b n‖ with hP
      have hP0 : 0 ≤ P := by positivity
      set ph := A.mul (a n) (b n) with hph
      have m1 : ‖ph - a n * b n‖ ≤ mulErr A.u * P := mul_err A _ _
      have m2 : ‖ph‖ ≤ (1 + mulErr A.u) * P := by
        have := norm_add_le (a n * b n) (ph - a n * b n)
        rw [add_sub_cancel, norm_mul] at this
        linarith
      have m3 : ‖d‖ ≤ (1 + sumErr A.u r) * T := by
        have := norm_add_le S (d - S)
        rw [add_sub_cancel] at this
        linarith
      have m4 := A.add_err d ph
      have m5 : ‖d + ph‖ ≤ (1 + sumErr A.u r) * T + (1 + mulErr A.u) * P := (norm_add_le _ _).trans (add_le_add m3 m2)
      have m6 : ‖A.add d ph - (S + a n * b n)‖ ≤ ‖A.add d ph - (d + ph)‖ + (‖d - S‖ + ‖ph - a n * b n‖) := by
        have e : A.add d ph - (S + a n * b n) = (A.add d ph - (d + ph)) + ((d - S) + (ph - a n * b n)) := by ring
        rw [e]
        exact (norm_add_le _ _).trans (add_le_add le_rfl (norm_add_le _ _))
      have m7 := mul_le_mul_of_nonneg_left m5 hu
      have s1 : sumErr A.u (r + 1) = (1 + A.u) * (1 + sumErr A.u r) - 1 := by
        unfold sumErr; rw [pow_succ]; ring
      have s2 : (1 + A.u) * (1 + mulErr A.u) - 1 ≤ sumErr A.u (r + 1) := by
        have h4 : (1 : ℝ) ≤ (1 + A.u) ^ r := one_le_pow₀ (by linarith)
        unfold sumErr
        rw [pow_succ]
        have : (1 + A.u) * (1 + mulErr A.u) ≤ (1 + A.u) ^ r * ((1 + A.u) * (1 + mulErr A.u)) :=
          le_mul_of_one_le_left (by positivity) h4
        nlinarith
      have s3 := mul_le_mul_of_nonneg_right s2 hP0
      rw [mul_add]
      have s4 : sumErr A.u (r + 1) * T = ((1 + A.u) * (1 + sumErr A.u r) - 1) * T := by rw [s1]
      nlinarith

theorem sumErr_mono {u : ℝ} (hu : 0 ≤ u) {r s : ℕ} (h : r ≤ s) : sumErr u r ≤ sumErr u s := by
  have h1 := mulErr_nonneg hu
  have h2 : (1 + u) ^ r ≤ (1 + u) ^ s := pow_le_pow_right₀ (by linarith) h
  unfold sumErr
  nlinarith

/-- The same arithmetic with sums computed term by term. -/
def sequential : Arith := { A with
  dot := A.seqDot
  dot_err := fun n a b r h => (A.seqDot_err_card n a b).trans (mul_le_mul_of_nonneg_right (sumErr_mono A.u_nonneg h)
    (Finset.sum_nonneg fun _ _ => by positivity))
  dot_rep := A.seqDot_rep
  dot_exact := A.seqDot_exact }

end Arith

/-- Binary numbers with `p` digits, sums computed term by term: for `p = 24` the single precision of torch. -/
def binary (p : ℕ) (hp : 1 ≤ p) : Arith := (fused p hp).sequential

end

end QTN
