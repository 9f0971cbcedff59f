import Verif.SpecTrig
import Verif.SpecExp
import Mathlib.Algebra.Polynomial.BigOperators
import Mathlib.Analysis.SpecialFunctions.Complex.Log

/-! # Trigonometric polynomials -/

namespace QTN

open Finset Spec Matrix Polynomial

variable {N : ℕ}

namespace Spec.IsTrigPoly

variable {d : ℕ} {f g : ℝ → ℝ}

theorem congr (h : IsTrigPoly d f) (e : ∀ x, g x = f x) : IsTrigPoly d g := by
  obtain ⟨a, b, h⟩ := h
  exact ⟨a, b, fun x => by rw [e, h]⟩

theorem add (hf : IsTrigPoly d f) (hg : IsTrigPoly d g) : IsTrigPoly d (fun x => f x + g x) := by
  obtain ⟨a, b, hf⟩ := hf
  obtain ⟨a', b', hg⟩ := hg
  refine ⟨fun k => a k + a' k, fun k => b k + b' k, fun x => ?_⟩
  show f x + g x = _
  rw [hf, hg, ← sum_add_distrib]
  exact sum_congr rfl fun k _ => by ring

theorem const_mul (hf : IsTrigPoly d f) (c : ℝ) : IsTrigPoly d (fun x => c * f x) := by
  obtain ⟨a, b, hf⟩ := hf
  refine ⟨fun k => c * a k, fun k => c * b k, fun x => ?_⟩
  show c * f x = _
  rw [hf, mul_sum]
  exact sum_congr rfl fun k _ => by ring

theorem zero (d : ℕ) : IsTrigPoly d (fun _ => 0) := ⟨fun _ => 0, fun _ => 0, fun x => by simp⟩

theorem sum {ι : Type} (s : Finset ι) (F : ι → ℝ → ℝ) (h : ∀ i ∈ s, IsTrigPoly d (F i)) :
    IsTrigPoly d (fun x => ∑ i ∈ s, F i x) := by
  classical
  induction s using Finset.induction_on with
  | empty => simpa using zero d
  | insert i s hi ih =>
    refine ((h i (mem_insert_self _ _)).add (ih fun j hj => h j (mem_insert_of_mem hj))).congr fun x => ?_
    rw [sum_insert hi]

theorem mono {e : ℕ} (h : IsTrigPoly d f) (hde : d ≤ e) : IsTrigPoly e f := by
  obtain ⟨a, b, h⟩ := h
  refine ⟨fun k => if k < d + 1 then a k else 0, fun k => if k < d + 1 then b k else 0, fun x => ?_⟩
  rw [h]
  symm
  refine (sum_subset (range_mono (by omega : d + 1 ≤ e + 1)) fun k _ hk => ?_).symm.trans ?_
  · have : ¬ k < d + 1 := by simpa using hk
    simp [this]
  · refine sum_congr rfl fun k hk => ?_
    have : k < d + 1 := by simpa using hk
    simp [this]

theorem cos {m : ℕ} (h : m ≤ d) : IsTrigPoly d (fun x => Real.cos (m * x)) := by
  refine ⟨fun k => if k = m then 1 else 0, fun _ => 0, fun x => ?_⟩
  simp only [ite_mul, one_mul, zero_mul, add_zero]
  rw [sum_ite_eq', if_pos (mem_range.2 (by omega))]

theorem sin {m : ℕ} (h : m ≤ d) : IsTrigPoly d (fun x => Real.sin (m * x)) := by
  refine ⟨fun _ => 0, fun k => if k = m then 1 else 0, fun x => ?_⟩
  simp only [ite_mul, one_mul, zero_mul, zero_add]
  rw [sum_ite_eq', if_pos (mem_range.2 (by omega))]

theorem cos_int {m : ℤ} (h : m.natAbs ≤ d) : IsTrigPoly d (fun x => Real.cos (m * x)) := by
  refine (cos h).congr fun x => ?_
  rcases Int.natAbs_eq m with e | e
  · rw [e]; simp
  · rw [e]; simp

theorem sin_int {m : ℤ} (h : m.natAbs ≤ d) : IsTrigPoly d (fun x => Real.sin (m * x)) := by
  rcases Int.natAbs_eq m with e | e
  · refine (sin h).congr fun x => ?_
    rw [e]; simp
  · refine ((sin h).const_mul (-1)).congr fun x => ?_
    rw [e]; simp

/-- A trigonometric polynomial has period `2π`. -/
theorem periodic (h : IsTrigPoly d f) (x : ℝ) (n : ℤ) : f (x + n * (2 * Real.pi)) = f x := by
  obtain ⟨a, b, h⟩ := h
  rw [h, h]
  refine sum_congr rfl fun k _ => ?_
  have e : (k : ℝ) * (x + n * (2 * Real.pi)) = k * x + ((k * n : ℤ) : ℝ) * (2 * Real.pi) := by push_cast; ring
  rw [e, Real.cos_add_int_mul_two_pi, Real.sin_add_int_mul_two_pi]

end Spec.IsTrigPoly

/-! ## Values at equidistant points -/

theorem root_ne_one {m n : ℕ} (h : m < n) :
    -Complex.exp (((m * Real.pi / n : ℝ) : ℂ) * Complex.I) ≠ 1 := by
  intro e
  have hn : (0 : ℝ) < n := by exact_mod_cast (by omega : 0 < n)
  have hm : (m : ℝ) < n := by exact_mod_cast h
  have hre := congrArg Complex.re (neg_eq_iff_eq_neg.1 e)
  rw [Complex.exp_ofReal_mul_I_re] at hre
  have h1 : Real.cos (m * Real.pi / n) = Real.cos Real.pi := by rw [hre, Real.cos_pi]; simp
  have h2 : m * Real.pi / n < Real.pi := by
    rw [div_lt_iff₀ hn]
    nlinarith [Real.pi_pos]
  have h3 : 0 ≤ m * Real.pi / n := by positivity
  exact h2.ne (Real.injOn_cos ⟨h3, h2.le⟩ ⟨Real.pi_pos.le, le_rfl⟩ h1)

/-- With alternating signs, the values of `exp (i m x)` at `2n` equidistant points add up to zero if `m < n`. -/
theorem alternating_exp {m n : ℕ} (h : m < n) (c : ℝ) :
    ∑ k ∈ range (2 * n), (-1 : ℂ) ^ k * Complex.exp (((m * ((k * Real.pi - c) / n) : ℝ) : ℂ) * Complex.I) = 0 := by
  set r := -Complex.exp (((m * Real.pi / n : ℝ) : ℂ) * Complex.I) with hr
  have hn : (n : ℂ) ≠ 0 := by exact_mod_cast (by omega : n ≠ 0)
  have e1 : ∀ k : ℕ, (-1 : ℂ) ^ k * Complex.exp (((m * ((k * Real.pi - c) / n) : ℝ) : ℂ) * Complex.I) =
      Complex.exp (((-(m * c / n) : ℝ) : ℂ) * Complex.I) * r ^ k := by
    intro k
    rw [hr, neg_pow (Complex.exp _) k, ← Complex.exp_nat_mul, mul_left_comm, ← Complex.exp_add]
    congr 2
    push_cast
    ring
  have e2 : r ^ (2 * n) = 1 := by
    rw [hr, pow_mul, neg_sq, ← pow_mul, ← Complex.exp_nat_mul]
    have : ((2 * n : ℕ) : ℂ) * (((m * Real.pi / n : ℝ) : ℂ) * Complex.I) = (m : ℂ) * (2 * Real.pi * Complex.I) := by
      push_cast
      field_simp
    rw [this, Complex.exp_nat_mul_two_pi_mul_I]
  simp only [e1]
  rw [← mul_sum]
  have e3 := mul_geom_sum r (2 * n)
  rw [e2, sub_self] at e3
  rcases mul_eq_zero.1 e3 with h0 | h0
  · exact absurd (sub_eq_zero.1 h0) (root_ne_one h)
  · rw [h0, mul_zero]

theorem alternating_sum {d n : ℕ} (h : d < n) {f : ℝ → ℝ} (hf : IsTrigPoly d f) (c : ℝ) :
    ∑ k ∈ range (2 * n), (-1 : ℝ) ^ k * f ((k * Real.pi - c) / n) = 0 := by
  obtain ⟨a, b, hf⟩ := hf
  have key : ∀ m ≤ d, (∑ k ∈ range (2 * n), (-1 : ℝ) ^ k * Real.cos (m * ((k * Real.pi - c) / n)) = 0) ∧
      ∑ k ∈ range (2 * n), (-1 : ℝ) ^ k * Real.sin (m * ((k * Real.pi - c) / n)) = 0 := by
    intro m hm
    have e := alternating_exp (m := m) (n := n) (by omega) c
    have e1 : ∀ k : ℕ, (-1 : ℂ) ^ k = (((-1 : ℝ) ^ k : ℝ) : ℂ) := by intro k; push_cast; rfl
    simp only [e1] at e
    constructor
    · have := congrArg Complex.re e
      rw [Complex.re_sum] at this
      simpa only [Complex.re_ofReal_mul, Complex.exp_ofReal_mul_I_re, Complex.zero_re] using this
    · have := congrArg Complex.im e
      rw [Complex.im_sum] at this
      simpa only [Complex.im_ofReal_mul, Complex.exp_ofReal_mul_I_im, Complex.zero_im] using this
  simp only [hf, mul_sum]
  rw [sum_comm]
  refine sum_eq_zero fun m hm => ?_
  have hm' : m ≤ d := by have := mem_range.1 hm; omega
  have : ∀ k : ℕ, (-1 : ℝ) ^ k * (a m * Real.cos (m * ((k * Real.pi - c) / n)) +
      b m * Real.sin (m * ((k * Real.pi - c) / n))) =
      a m * ((-1 : ℝ) ^ k * Real.cos (m * ((k * Real.pi - c) / n))) +
      b m * ((-1 : ℝ) ^ k * Real.sin (m * ((k * Real.pi - c) / n))) := fun k => by ring
  simp only [this]
  rw [sum_add_distrib, ← mul_sum, ← mul_sum, (key m hm').1, (key m hm').2]
  ring

/-- A trigonometric polynomial of degree less than `n` differs from `A cos (n x + c)` by at least `|A|` at some
point of the form `(k π - c) / n`. -/
theorem trig_miss {d n : ℕ} (h : d < n) {f : ℝ → ℝ} (hf : IsTrigPoly d f) (A c : ℝ) :
    ∃ k < 2 * n, |A| ≤ |f ((k * Real.pi - c) / n) - A * Real.cos (n * ((k * Real.pi - c) / n) + c)| := by
  by_contra hc
  push Not at hc
  have hn : (n : ℝ) ≠ 0 := by exact_mod_cast (by omega : n ≠ 0)
  have hcos : ∀ k : ℕ, Real.cos (n * ((k * Real.pi - c) / n) + c) = (-1) ^ k := by
    intro k
    rw [show (n : ℝ) * ((k * Real.pi - c) / n) + c = k * Real.pi by field_simp; ring, Real.cos_nat_mul_pi]
  simp only [hcos] at hc
  have h0 := alternating_sum h hf c
  have e : ∑ k ∈ range (2 * n), (-1 : ℝ) ^ k * (f ((k * Real.pi - c) / n) - A * (-1) ^ k) = -(2 * n * A) := by
    have : ∀ k : ℕ, (-1 : ℝ) ^ k * (f ((k * Real.pi - c) / n) - A * (-1) ^ k) =
        (-1 : ℝ) ^ k * f ((k * Real.pi - c) / n) - A := by
      intro k
      have : ((-1 : ℝ) ^ k) * (-1) ^ k = 1 := by rw [← mul_pow]; norm_num
      linear_combination (-A) * this
    simp only [this]
    rw [sum_sub_distrib, h0]
    simp
  have h1 : |∑ k ∈ range (2 * n), (-1 : ℝ) ^ k * (f ((k * Real.pi - c) / n) - A * (-1) ^ k)| <
      ∑ k ∈ range (2 * n), |A| := by
    refine (abs_sum_le_sum_abs _ _).trans_lt (sum_lt_sum_of_nonempty ⟨0, by simp; omega⟩ fun k hk => ?_)
    rw [abs_mul, abs_pow, abs_neg, abs_one, one_pow, one_mul]
    exact hc k (mem_range.1 hk)
  rw [e, abs_neg, abs_mul, sum_const, card_range, nsmul_eq_mul, abs_of_nonneg (by positivity)] at h1
  push_cast at h1
  exact lt_irrefl _ h1

/-- The same for the sum of the squares over the `2n` points. -/
theorem trig_miss_sq {d n : ℕ} (h : d < n) {f : ℝ → ℝ} (hf : IsTrigPoly d f) (A c : ℝ) :
    2 * n * A ^ 2 ≤ ∑ k ∈ range (2 * n),
      (f ((k * Real.pi - c) / n) - A * Real.cos (n * ((k * Real.pi - c) / n) + c)) ^ 2 := by
  have hn : (0 : ℝ) < n := by exact_mod_cast (by omega : 0 < n)
  have hcos : ∀ k : ℕ, Real.cos (n * ((k * Real.pi - c) / n) + c) = (-1) ^ k := by
    intro k
    rw [show (n : ℝ) * ((k * Real.pi - c) / n) + c = k * Real.pi by field_simp; ring, Real.cos_nat_mul_pi]
  simp only [hcos]
  have h0 := alternating_sum h hf c
  have hsq : ∀ k : ℕ, ((-1 : ℝ) ^ k) * (-1) ^ k = 1 := fun k => by rw [← mul_pow]; norm_num
  have e : ∀ k : ℕ, (f ((k * Real.pi - c) / n) - A * (-1) ^ k) ^ 2 =
      f ((k * Real.pi - c) / n) ^ 2 - 2 * A * ((-1) ^ k * f ((k * Real.pi - c) / n)) + A ^ 2 := by
    intro k
    linear_combination A ^ 2 * hsq k
  simp only [e]
  rw [sum_add_distrib, sum_sub_distrib, ← mul_sum, h0, sum_const, card_range, nsmul_eq_mul]
  have : 0 ≤ ∑ k ∈ range (2 * n), f ((k * Real.pi - c) / n) ^ 2 := sum_nonneg fun k _ => sq_nonneg _
  push_cast
  linarith

theorem not_trigPoly_cos {d n : ℕ} (h : d < n) {A : ℝ} (hA : A ≠ 0) :
    ¬ IsTrigPoly d (fun x => A * Real.cos (n * x)) := by
  intro hf
  obtain ⟨k, -, hk⟩ := trig_miss h hf A 0
  simp at hk
  exact hA hk

theorem Spec.IsTrigPoly.mul_cos {d : ℕ} {f : ℝ → ℝ} (h : IsTrigPoly d f) :
    IsTrigPoly (d + 1) (fun x => Real.cos x * f x) := by
  obtain ⟨a, b, h⟩ := h
  have e : ∀ x, Real.cos x * f x = ∑ k ∈ range (d + 1),
      ((a k / 2 * Real.cos (((k : ℤ) + 1 : ℤ) * x) + a k / 2 * Real.cos (((k : ℤ) - 1 : ℤ) * x)) +
       (b k / 2 * Real.sin (((k : ℤ) + 1 : ℤ) * x) + b k / 2 * Real.sin (((k : ℤ) - 1 : ℤ) * x))) := by
    intro x
    rw [h, mul_sum]
    refine sum_congr rfl fun k _ => ?_
    push_cast
    rw [add_mul, sub_mul, one_mul, Real.cos_add, Real.cos_sub, Real.sin_add, Real.sin_sub]
    ring
  refine (IsTrigPoly.sum (range (d + 1)) _ fun k hk => ?_).congr e
  have := mem_range.1 hk
  have h1 : ((k : ℤ) + 1).natAbs ≤ d + 1 := by omega
  have h2 : ((k : ℤ) - 1).natAbs ≤ d + 1 := by omega
  exact (((cos_int h1).const_mul _).add ((cos_int h2).const_mul _)).add
    (((sin_int h1).const_mul _).add ((sin_int h2).const_mul _))

theorem cos_pow_lead (n : ℕ) : ∃ g, IsTrigPoly n g ∧
    ∀ x, Real.cos x ^ (n + 1) = (1 / 2) ^ n * Real.cos ((n + 1 : ℕ) * x) + g x := by
  induction n with
  | zero => exact ⟨fun _ => 0, .zero 0, fun x => by simp⟩
  | succ n ih =>
    obtain ⟨g, hg, e⟩ := ih
    refine ⟨fun x => (1 / 2) ^ (n + 1) * Real.cos (n * x) + Real.cos x * g x,
      ((IsTrigPoly.cos (by omega)).const_mul _).add hg.mul_cos, fun x => ?_⟩
    rw [pow_succ, e]
    have h1 : Real.cos ((n + 1 + 1 : ℕ) * x) = Real.cos ((n + 1 : ℕ) * x) * Real.cos x - Real.sin ((n + 1 : ℕ) * x) * Real.sin x := by
      rw [← Real.cos_add]; congr 1; push_cast; ring
    have h2 : Real.cos (n * x) = Real.cos ((n + 1 : ℕ) * x) * Real.cos x + Real.sin ((n + 1 : ℕ) * x) * Real.sin x := by
      rw [← Real.cos_sub]; congr 1; push_cast; ring
    beta_reduce
    rw [h1, h2, pow_succ (1 / 2 : ℝ) n]
    ring

theorem not_trigPoly_cos_pow {d n : ℕ} (h : d < n) : ¬ IsTrigPoly d (fun x => Real.cos x ^ n) := by
  intro hf
  obtain ⟨n, rfl⟩ : ∃ m, n = m + 1 := ⟨n - 1, by omega⟩
  obtain ⟨g, hg, e⟩ := cos_pow_lead n
  refine not_trigPoly_cos (n := n + 1) (A := (1 / 2) ^ n) (Nat.lt_succ_self n) (by positivity)
    (((hf.mono (by omega : d ≤ n)).add (hg.const_mul (-1))).congr fun x => ?_)
  rw [e]; ring

/-! ## Products of half-angle functions -/

/-- `z = exp (i x / 2)` -/
noncomputable def halfExp (x : ℝ) : ℂ := Complex.exp (((x / 2 : ℝ) : ℂ) * Complex.I)

/-- `f` is a linear combination of `z^(-d), z^(2-d), …, z^d` for `z = exp (i x / 2)`. -/
def HalfTrig (d : ℕ) (f : ℝ → ℂ) : Prop :=
  ∃ P : ℂ[X], P.natDegree ≤ d ∧ ∀ x, halfExp x ^ d * f x = P.eval (halfExp x ^ 2)

theorem halfExp_ne (x : ℝ) : halfExp x ≠ 0 := Complex.exp_ne_zero _

namespace HalfTrig

variable {d e : ℕ} {f g : ℝ → ℂ}

theorem congr (h : HalfTrig d f) (e : ∀ x, g x = f x) : HalfTrig d g := by
  obtain ⟨P, hP, h⟩ := h
  exact ⟨P, hP, fun x => by rw [e, h]⟩

theorem const (c : ℂ) : HalfTrig 0 (fun _ => c) := ⟨C c, by simp, fun x => by simp⟩

theorem zero (d : ℕ) : HalfTrig d (fun _ => 0) := ⟨0, by simp, fun x => by simp⟩

theorem add (hf : HalfTrig d f) (hg : HalfTrig d g) : HalfTrig d (fun x => f x + g x) := by
  obtain ⟨P, hP, hf⟩ := hf
  obtain ⟨Q, hQ, hg⟩ := hg
  refine ⟨P + Q, (natDegree_add_le _ _).trans (max_le hP hQ), fun x => ?_⟩
  rw [mul_add, hf, hg, eval_add]

theorem mul (hf : HalfTrig d f) (hg : HalfTrig e g) : HalfTrig (d + e) (fun x => f x * g x) := by
  obtain ⟨P, hP, hf⟩ := hf
  obtain ⟨Q, hQ, hg⟩ := hg
  refine ⟨P * Q, natDegree_mul_le.trans (by omega), fun x => ?_⟩
  rw [eval_mul, ← hf, ← hg, pow_add]
  ring

theorem const_mul (hf : HalfTrig d f) (c : ℂ) : HalfTrig d (fun x => c * f x) := by
  have := (const c).mul hf
  rwa [zero_add] at this

theorem sum {ι : Type} (s : Finset ι) (F : ι → ℝ → ℂ) (h : ∀ i ∈ s, HalfTrig d (F i)) :
    HalfTrig d (fun x => ∑ i ∈ s, F i x) := by
  classical
  induction s using Finset.induction_on with
  | empty => simpa using zero d
  | insert i s hi ih =>
    refine ((h i (mem_insert_self _ _)).add (ih fun j hj => h j (mem_insert_of_mem hj))).congr fun x => ?_
    rw [sum_insert hi]

theorem prod {ι : Type} (s : Finset ι) (δ : ι → ℕ) (F : ι → ℝ → ℂ) (h : ∀ i ∈ s, HalfTrig (δ i) (F i)) :
    HalfTrig (∑ i ∈ s, δ i) (fun x => ∏ i ∈ s, F i x) := by
  classical
  induction s using Finset.induction_on with
  | empty => simpa using const 1
  | insert i s hi ih =>
    rw [sum_insert hi]
    refine ((h i (mem_insert_self _ _)).mul (ih fun j hj => h j (mem_insert_of_mem hj))).congr fun x => ?_
    rw [prod_insert hi]

/-- `cos (x / 2) C + sin (x / 2) S` -/
theorem half (C' S : ℂ) : HalfTrig 1 (fun x => (Real.cos (x / 2) : ℂ) * C' + (Real.sin (x / 2) : ℂ) * S) := by
  refine ⟨C (C' / 2) * (Polynomial.X + 1) + C (-(Complex.I * S) / 2) * (Polynomial.X - 1), ?_, fun x => ?_⟩
  · refine (natDegree_add_le _ _).trans (max_le ?_ ?_)
    · exact (natDegree_C_mul_le _ _).trans (by rw [← C_1]; exact (natDegree_X_add_C _).le)
    · exact (natDegree_C_mul_le _ _).trans (by rw [← C_1]; exact (natDegree_X_sub_C _).le)
  · have e : halfExp x = (Real.cos (x / 2) : ℂ) + (Real.sin (x / 2) : ℂ) * Complex.I := by
      unfold halfExp
      rw [Complex.exp_mul_I, Complex.ofReal_cos, Complex.ofReal_sin]
    have h1 : ((Real.cos (x / 2) : ℝ) : ℂ) ^ 2 + ((Real.sin (x / 2) : ℝ) : ℂ) ^ 2 = 1 := by
      exact_mod_cast Real.cos_sq_add_sin_sq (x / 2)
    simp only [eval_add, eval_mul, eval_C, eval_X, eval_sub, eval_one, pow_one]
    rw [e]
    set c : ℂ := ((Real.cos (x / 2) : ℝ) : ℂ)
    set s : ℂ := ((Real.sin (x / 2) : ℝ) : ℂ)
    linear_combination (C' / 2 + Complex.I * S / 2) * h1 + (-C' / 2 * s ^ 2 + S * c * s + S / 2 * s ^ 2 * Complex.I) * Complex.I_sq

theorem raise (h : HalfTrig d f) : HalfTrig (d + 2) f := by
  obtain ⟨P, hP, h⟩ := h
  refine ⟨P * Polynomial.X, natDegree_mul_le.trans (by rw [natDegree_X]; omega), fun x => ?_⟩
  rw [eval_mul, eval_X, ← h, pow_add]
  ring

/-- `A + cos x C + sin x S` -/
theorem full (A C' S : ℂ) : HalfTrig 2 (fun x => A + (Real.cos x : ℂ) * C' + (Real.sin x : ℂ) * S) := by
  refine (((const A).raise.add (((half 1 0).mul (half 1 0)).const_mul C')).add
    ((((half 0 1).mul (half 0 1)).const_mul (-C')).add (((half 1 0).mul (half 0 1)).const_mul (2 * S)))).congr
    fun x => ?_
  have h1 : Real.cos x = Real.cos (x / 2) ^ 2 - Real.sin (x / 2) ^ 2 := by
    rw [← Real.cos_two_mul']; congr 1; ring
  have h2 : Real.sin x = 2 * Real.sin (x / 2) * Real.cos (x / 2) := by
    rw [← Real.sin_two_mul]; congr 1; ring
  rw [h1, h2]
  push_cast
  ring

/-- The real part of a function of even half-degree is a trigonometric polynomial. -/
theorem re {d : ℕ} {f : ℝ → ℂ} (h : HalfTrig (d + d) f) : IsTrigPoly d (fun x => (f x).re) := by
  obtain ⟨P, hP, h⟩ := h
  have e : ∀ x, f x = ∑ k ∈ range (2 * d + 1), P.coeff k * Complex.exp (((((k : ℤ) - d : ℤ) * x : ℝ) : ℂ) * Complex.I) := by
    intro x
    have hz := pow_ne_zero (d + d) (halfExp_ne x)
    apply mul_left_cancel₀ hz
    rw [h, eval_eq_sum_range' (n := 2 * d + 1) (by omega), mul_sum]
    refine sum_congr rfl fun k _ => ?_
    rw [mul_left_comm]
    congr 1
    unfold halfExp
    rw [← pow_mul, ← Complex.exp_nat_mul, ← Complex.exp_nat_mul, ← Complex.exp_add]
    congr 1
    push_cast
    ring
  have e2 : ∀ x, (f x).re = ∑ k ∈ range (2 * d + 1), ((P.coeff k).re * Real.cos (((k : ℤ) - d : ℤ) * x) +
      -(P.coeff k).im * Real.sin (((k : ℤ) - d : ℤ) * x)) := by
    intro x
    rw [e, Complex.re_sum]
    refine sum_congr rfl fun k _ => ?_
    rw [Complex.mul_re, Complex.exp_ofReal_mul_I_re, Complex.exp_ofReal_mul_I_im]
    ring
  refine (IsTrigPoly.sum (range (2 * d + 1)) _ fun k hk => ?_).congr e2
  have hk' : ((k : ℤ) - d).natAbs ≤ d := by have := mem_range.1 hk; omega
  exact ((IsTrigPoly.cos_int hk').const_mul _).add ((IsTrigPoly.sin_int hk').const_mul _)

end HalfTrig

/-! ## States -/

/-- The amplitudes and their conjugates have half-degree `d`. -/
def HalfState (d : ℕ) (v : ℝ → QState N) : Prop :=
  ∀ a, HalfTrig d (fun x => v x a) ∧ HalfTrig d (fun x => star (v x a))

theorem HalfState.mulVec {d : ℕ} {v : ℝ → QState N} (h : HalfState d v) (U : QOp N) :
    HalfState d (fun x => U *ᵥ v x) := by
  intro a
  constructor
  · exact HalfTrig.sum univ (fun b x => U a b * v x b) fun b _ => (h b).1.const_mul _
  · refine (HalfTrig.sum univ (fun b x => star (U a b) * star (v x b)) fun b _ => (h b).2.const_mul _).congr
      fun x => ?_
    show star (∑ b, U a b * v x b) = _
    rw [star_sum]
    exact sum_congr rfl fun b _ => by rw [star_mul']

theorem HalfState.braket {d : ℕ} {v : ℝ → QState N} (h : HalfState d v) (O : QOp N) :
    IsTrigPoly d (fun x => (Spec.braket O (v x)).re) := by
  refine HalfTrig.re (HalfTrig.sum univ _ fun a _ => HalfTrig.sum univ _ fun b _ => ?_)
  exact (((h a).2.const_mul (O a b)).mul (h b).1).congr fun x => by ring

end QTN
