import Verif.Lemmas.RoundExact
import Verif.Lemmas.RoundNorm

/-! # Rounding errors of gates and circuits -/

namespace QTN

open Spec Matrix Complex Finset

variable {N : ℕ}

theorem mulErr_nonneg {u : ℝ} (hu : 0 ≤ u) : 0 ≤ mulErr u :=
  mul_nonneg (Real.sqrt_nonneg _) (by nlinarith)

theorem sumErr_nonneg {u : ℝ} (hu : 0 ≤ u) (r : ℕ) : 0 ≤ sumErr u r := by
  have h1 := mulErr_nonneg hu
  have h2 : (1 : ℝ) ≤ (1 + u) ^ r := one_le_pow₀ (by linarith)
  unfold sumErr
  nlinarith

namespace Arith

variable {A : Arith}

theorem dot_err' (n : ℕ) (a b : ℕ → ℂ) (r : ℕ) (h : ((range n).filter (fun k => a k ≠ 0)).card ≤ r) :
    ‖A.dot n a b - ∑ k ∈ range n, a k * b k‖ ≤ sumErr A.u r * ∑ k ∈ range n, ‖a k‖ * ‖b k‖ :=
  A.dot_err n a b r h

/-! ## Products of 2×2 matrices -/

theorem matmul_rep2 {s t : Tensor ℂ} {g h : Mat2} (hs : Represents2 s g) (ht : Represents2 t h) :
    ∃ r m, A.matmul s t = .ok r ∧ Represents2 r m ∧ RepM A m ∧
      frob (m - g * h) ≤ sumErr A.u 2 * (frob g * frob h) := by
  set m : Mat2 := fun x y => A.dot 2 (fun k => s.get [(x : ℕ), k]) (fun k => t.get [k, (y : ℕ)]) with hm
  refine ⟨Tensor.ofFn [2, 2] (fun idx => A.dot 2 (fun x => s.get [idx.getD 0 0, x])
    (fun x => t.get [x, idx.getD 1 0])), m, ?_, ⟨rfl, fun x y => ?_⟩, fun x y => A.dot_rep _ _ _, ?_⟩
  · unfold matmul
    rw [hs.1, ht.1]
    simp
  · rw [Tensor.get_ofFn (inB2 x y)]
    rfl
  · have e : ∀ x y, ‖(m - g * h) x y‖ ≤ ‖((sumErr A.u 2 : ℝ) : ℂ) * (absOp g * absOp h) x y‖ := by
      intro x y
      have h1 := dot_err' (A := A) 2 (fun k => s.get [(x : ℕ), k]) (fun k => t.get [k, (y : ℕ)]) 2
        ((Finset.card_filter_le _ _).trans (by simp))
      have s0 := hs.2 x 0
      have s1 := hs.2 x 1
      have t0 := ht.2 0 y
      have t1 := ht.2 1 y
      simp only [Fin.val_zero, Fin.val_one] at s0 s1 t0 t1
      simp only [Finset.sum_range_succ, Finset.sum_range_zero, zero_add, s0, s1, t0, t1] at h1
      have e2 : ‖((sumErr A.u 2 : ℝ) : ℂ) * (absOp g * absOp h) x y‖ =
          sumErr A.u 2 * (‖g x 0‖ * ‖h 0 y‖ + ‖g x 1‖ * ‖h 1 y‖) := by
        rw [Matrix.mul_apply, Fin.sum_univ_two]
        simp only [absOp, ← Complex.ofReal_mul, ← Complex.ofReal_add]
        rw [Complex.norm_real, Real.norm_of_nonneg]
        exact mul_nonneg (sumErr_nonneg A.u_nonneg 2) (by positivity)
      rw [e2, Matrix.sub_apply, Matrix.mul_apply, Fin.sum_univ_two]
      exact h1
    have h2 := frob_mono (M' := ((sumErr A.u 2 : ℝ) : ℂ) • (absOp g * absOp h)) e
    rw [frob_smul, Complex.norm_real, Real.norm_of_nonneg (sumErr_nonneg A.u_nonneg 2)] at h2
    refine h2.trans (mul_le_mul_of_nonneg_left ?_ (sumErr_nonneg A.u_nonneg 2))
    have := frob_mul (absOp g) (absOp h)
    rwa [frob_absOp, frob_absOp] at this

/-- The product of two computed matrices close to unitary ones. -/
theorem matmul_near {s t : Tensor ℂ} {g h G H : Mat2} (hs : Represents2 s g) (ht : Represents2 t h)
    (hG : IsU2 G) (hH : IsU2 H) {a b : ℝ} (ha : 1 + frob (g - G) ≤ a) (hb : 1 + frob (h - H) ≤ b) :
    ∃ r m, A.matmul s t = .ok r ∧ Represents2 r m ∧ RepM A m ∧
      1 + frob (m - G * H) ≤ a * b * (1 + 2 * sumErr A.u 2) := by
  obtain ⟨r, m, hr, hm, hrep, he⟩ := matmul_rep2 (A := A) hs ht
  refine ⟨r, m, hr, hm, hrep, ?_⟩
  have f1 := frob_near (M := g) hG
  have f2 := frob_near (M := h) hH
  have e : m - G * H = (m - g * h) + ((g - G) * H + ((g - G) * (h - H) + G * (h - H))) := by
    simp only [sub_mul, mul_sub]; abel
  have h1 : frob (m - G * H) ≤ frob (m - g * h) + (frob (g - G) + (frob (g - G) * frob (h - H) + frob (h - H))) := by
    rw [e]
    refine (frob_add _ _).trans (add_le_add le_rfl ((frob_add _ _).trans (add_le_add ?_ ((frob_add _ _).trans
      (add_le_add (frob_mul _ _) ?_)))))
    · rw [frob_u2_right hH]
    · rw [frob_u2_left hG]
  have n1 := frob_nonneg (g - G)
  have n2 := frob_nonneg (h - H)
  have n3 := frob_nonneg g
  have n4 := frob_nonneg h
  have hγ := sumErr_nonneg A.u_nonneg 2
  have hs2 : Real.sqrt 2 * Real.sqrt 2 = 2 := Real.mul_self_sqrt (by norm_num)
  have hs1 : 1 ≤ Real.sqrt 2 := by rw [Real.one_le_sqrt]; norm_num
  have g1 : frob g ≤ Real.sqrt 2 * a := by nlinarith
  have g2 : frob h ≤ Real.sqrt 2 * b := by nlinarith
  have g3 : frob g * frob h ≤ 2 * (a * b) := by
    calc frob g * frob h ≤ (Real.sqrt 2 * a) * (Real.sqrt 2 * b) := mul_le_mul g1 g2 n4 (by nlinarith)
      _ = (Real.sqrt 2 * Real.sqrt 2) * (a * b) := by ring
      _ = 2 * (a * b) := by rw [hs2]
  have g4 : 1 + (frob (g - G) + (frob (g - G) * frob (h - H) + frob (h - H))) ≤ a * b := by
    calc _ = (1 + frob (g - G)) * (1 + frob (h - H)) := by ring
      _ ≤ a * b := mul_le_mul ha hb (by linarith) (by linarith)
  have g5 := mul_le_mul_of_nonneg_left g3 hγ
  nlinarith

/-! ## The 2×2 matrices of the gates -/

theorem abs_fl_half (A : Arith) (θ : ℝ) : |A.fl (A.fl θ / 2) - θ / 2| ≤ A.u * |θ| / 2 := by
  rw [A.fl_half _ (A.fl_fl θ), ← sub_div, abs_div, abs_two]
  have := A.fl_err θ
  linarith

theorem cos_lip (x y : ℝ) : |Real.cos x - Real.cos y| ≤ |x - y| := by
  have := Real.cos_sub_cos x y
  rw [this, abs_mul, abs_mul, abs_neg, abs_two]
  have h1 := Real.abs_sin_le_one ((x + y) / 2)
  have h2 : |Real.sin ((x - y) / 2)| ≤ |(x - y) / 2| := Real.abs_sin_le_abs
  rw [abs_div, abs_two] at h2
  have := abs_nonneg (Real.sin ((x + y) / 2))
  have := abs_nonneg (Real.sin ((x - y) / 2))
  nlinarith

theorem sin_lip (x y : ℝ) : |Real.sin x - Real.sin y| ≤ |x - y| := by
  have h := cos_lip (Real.pi / 2 - x) (Real.pi / 2 - y)
  rw [Real.cos_pi_div_two_sub, Real.cos_pi_div_two_sub] at h
  refine h.trans (le_of_eq ?_)
  rw [abs_sub_comm]
  congr 1; ring

/-- The error of the computed cosine and sine of half an angle. -/
theorem half_err (A : Arith) (θ : ℝ) :
    |A.cosR (A.fl (A.fl θ / 2)) - Real.cos (θ / 2)| ≤ A.δ + A.u * |θ| / 2 ∧
    |A.sinR (A.fl (A.fl θ / 2)) - Real.sin (θ / 2)| ≤ A.δ + A.u * |θ| / 2 := by
  have h0 := abs_fl_half A θ
  constructor
  · have h1 := A.cos_err (A.fl (A.fl θ / 2))
    have h2 := cos_lip (A.fl (A.fl θ / 2)) (θ / 2)
    have := abs_sub_le (A.cosR (A.fl (A.fl θ / 2))) (Real.cos (A.fl (A.fl θ / 2))) (Real.cos (θ / 2))
    linarith
  · have h1 := A.sin_err (A.fl (A.fl θ / 2))
    have h2 := sin_lip (A.fl (A.fl θ / 2)) (θ / 2)
    have := abs_sub_le (A.sinR (A.fl (A.fl θ / 2))) (Real.sin (A.fl (A.fl θ / 2))) (Real.sin (θ / 2))
    linarith

theorem half_err_rep (A : Arith) {θ : ℝ} (h : A.fl θ = θ) :
    |A.cosR (A.fl (A.fl θ / 2)) - Real.cos (θ / 2)| ≤ A.δ ∧
    |A.sinR (A.fl (A.fl θ / 2)) - Real.sin (θ / 2)| ≤ A.δ := by
  rw [h, A.fl_half θ h]
  exact ⟨A.cos_err _, A.sin_err _⟩

theorem frob_rotHat {P : Mat2} (hP : IsU2 P) {c s θ e : ℝ} (hc : |c - Real.cos (θ / 2)| ≤ e)
    (hs : |s - Real.sin (θ / 2)| ≤ e) : frob (rotHat P c s - rot P θ) ≤ 3 * e := by
  have he : 0 ≤ e := (abs_nonneg _).trans hc
  have e1 : rotHat P c s - rot P θ = ((c - Real.cos (θ / 2) : ℝ) : ℂ) • (1 : Mat2) -
      (I * ((s - Real.sin (θ / 2) : ℝ) : ℂ)) • P := by
    unfold rotHat rot real
    rw [Complex.ofReal_sub, Complex.ofReal_sub]
    module
  rw [e1]
  refine (frob_sub _ _).trans ?_
  rw [frob_smul, frob_smul, frob_one, frob_u2 hP, norm_mul, Complex.norm_I, one_mul, Complex.norm_real,
    Complex.norm_real, Real.norm_eq_abs, Real.norm_eq_abs]
  have hs2 : Real.sqrt 2 ≤ 3 / 2 := by
    rw [Real.sqrt_le_left (by norm_num)]; norm_num
  have := Real.sqrt_nonneg 2
  nlinarith [abs_nonneg (c - Real.cos (θ / 2)), abs_nonneg (s - Real.sin (θ / 2))]

/-- A computed 2×2 matrix: representable, and within `e` of the unitary matrix `G`. -/
def Near (A : Arith) (p : Py (Tensor ℂ)) (G : Mat2) (e : ℝ) : Prop :=
  ∃ t m, p = .ok t ∧ Represents2 t m ∧ RepM A m ∧ IsU2 G ∧ 1 + frob (m - G) ≤ e

theorem near_rot' {P : Tensor ℂ} {m : Mat2} (h : Represents2 P m) (hp : PauliLike m) (hm : mᴴ = m) (h2 : m * m = 1)
    {θ e : ℝ} (he : A.δ + A.u * |θ| / 2 ≤ e) : Near A (A.rotMat P θ) (rot m θ) (1 + 3 * e) := by
  obtain ⟨t, ht, hr⟩ := rotMat_rep (A := A) h hp θ
  obtain ⟨hc, hs⟩ := half_err A θ
  have hu : IsU2 m := IsU2.of_left (by rw [hm, h2])
  exact ⟨t, _, ht, hr, rotHat_rep hp _, rot_u2 hm h2 θ, by
    have := frob_rotHat hu (hc.trans he) (hs.trans he)
    linarith⟩

theorem near_rot_rep {P : Tensor ℂ} {m : Mat2} (h : Represents2 P m) (hp : PauliLike m) (hm : mᴴ = m)
    (h2 : m * m = 1) {θ : ℝ} (hθ : A.fl θ = θ) : Near A (A.rotMat P θ) (rot m θ) (1 + 3 * A.δ) := by
  obtain ⟨t, ht, hr⟩ := rotMat_rep (A := A) h hp θ
  obtain ⟨hc, hs⟩ := half_err_rep A hθ
  have hu : IsU2 m := IsU2.of_left (by rw [hm, h2])
  exact ⟨t, _, ht, hr, rotHat_rep hp _, rot_u2 hm h2 θ, by
    have := frob_rotHat hu hc hs
    linarith⟩

theorem near_quarter {x : ℝ} (hx : |x| = 0.5 * Real.pi) :
    Near A (A.rotMat pauliXMat x) (rot Spec.X x) (1 + 3 * (A.δ + A.u)) := by
  refine near_rot' pauliXMat_rep pauli_X X_conj X_sq ?_
  rw [hx]
  have := Real.pi_le_four
  have := A.u_nonneg
  nlinarith [mul_nonneg A.u_nonneg (by linarith : (0 : ℝ) ≤ 4 - Real.pi)]

theorem Near.matmul {p q : Py (Tensor ℂ)} {G H : Mat2} {a b : ℝ} (hp : Near A p G a) (hq : Near A q H b) :
    Near A (do A.matmul (← p) (← q)) (G * H) (a * b * (1 + 2 * sumErr A.u 2)) := by
  obtain ⟨s, g, rfl, hs, -, hG, ha⟩ := hp
  obtain ⟨t, h, rfl, ht, -, hH, hb⟩ := hq
  obtain ⟨r, m, hr, hm, hrep, he⟩ := matmul_near (A := A) hs ht hG hH ha hb
  exact ⟨r, m, hr, hm, hrep, hG.mul hH, he⟩

theorem near_u3 {θ φ l : ℝ} (hθ : A.fl θ = θ) (hφ : A.fl φ = φ) (hl : A.fl l = l) :
    Near A (A.u3Mat [A.fl θ, A.fl φ, A.fl l]) (Spec.U3 θ φ l)
      ((1 + 3 * A.δ) ^ 3 * (1 + 3 * (A.δ + A.u)) ^ 2 * (1 + 2 * sumErr A.u 2) ^ 4) := by
  have hpi := Real.pi_pos
  have q1 := near_quarter (A := A) (x := -0.5 * Real.pi) (by
    rw [abs_mul, abs_of_pos hpi]; norm_num)
  have q2 := near_quarter (A := A) (x := 0.5 * Real.pi) (by
    rw [abs_mul, abs_of_pos hpi]; norm_num)
  have r1 := near_rot_rep (A := A) pauliZMat_rep pauli_Z Z_conj Z_sq hφ
  have r2 := near_rot_rep (A := A) pauliZMat_rep pauli_Z Z_conj Z_sq hθ
  have r3 := near_rot_rep (A := A) pauliZMat_rep pauli_Z Z_conj Z_sq hl
  have h := (((r1.matmul q1).matmul r2).matmul q2).matmul r3
  obtain ⟨t, m, ht, hr, hrep, hG, he⟩ := h
  have e1 : rot Spec.Z φ * rot Spec.X (-0.5 * Real.pi) * rot Spec.Z θ * rot Spec.X (0.5 * Real.pi) * rot Spec.Z l =
      Spec.U3 θ φ l := by
    rw [← U3_eq, ← rot_X_Z_X]; simp only [mul_assoc]
  rw [e1] at hG he
  refine ⟨t, m, ?_, hr, hrep, hG, he.trans (le_of_eq (by ring))⟩
  have h0 : pyGet [A.fl θ, A.fl φ, A.fl l] 0 = .ok (A.fl θ) := rfl
  have h1 : pyGet [A.fl θ, A.fl φ, A.fl l] 1 = .ok (A.fl φ) := rfl
  have h2 : pyGet [A.fl θ, A.fl φ, A.fl l] 2 = .ok (A.fl l) := rfl
  rw [← ht]
  unfold u3Mat
  rw [h0, h1, h2, hθ, hφ, hl]
  simp only [Py.ok_bind, bind_assoc]

theorem near_h : Near A (.ok A.hadamardMat) Spec.H (1 + 2 * A.u) := by
  have hr := smulT_rep2 (A := A) (c := real (A.fl (Real.sqrt 0.5))) (represents2_ofRows 1 1 1 (-1)) (rep_real (A.fl_fl _))
    (signM_four .one .one .one .negOne)
  refine ⟨_, _, rfl, hr, fun x y => ?_, H_u2, ?_⟩
  · exact rep_mul_sign (rep_real (A.fl_fl _)) (signM_four .one .one .one .negOne x y)
  · have h0 : Real.sqrt 0.5 = 1 / Real.sqrt 2 := by
      rw [show (0.5 : ℝ) = 1 / 2 by norm_num, Real.sqrt_div (by norm_num), Real.sqrt_one]
    have e : real (A.fl (Real.sqrt 0.5)) • (!![1, 1; 1, -1] : Mat2) - Spec.H =
        ((A.fl (Real.sqrt 0.5) - Real.sqrt 0.5 : ℝ) : ℂ) • (!![1, 1; 1, -1] : Mat2) := by
      rw [h0]
      ext x y
      fin_cases x <;> fin_cases y <;> simp [Spec.H, real] <;> ring
    rw [e, frob_smul, Complex.norm_real, Real.norm_eq_abs]
    have e2 : frob (!![1, 1; 1, -1] : Mat2) = 2 := by
      unfold frob
      rw [Real.sqrt_eq_iff_mul_self_eq (Finset.sum_nonneg fun _ _ => Finset.sum_nonneg fun _ _ => by positivity)
        (by norm_num)]
      simp [Fin.sum_univ_two]; norm_num
    have h1 := A.fl_err (Real.sqrt 0.5)
    rw [abs_of_nonneg (Real.sqrt_nonneg _)] at h1
    have h2 : Real.sqrt 0.5 ≤ 1 := by rw [Real.sqrt_le_left (by norm_num)]; norm_num
    have := A.u_nonneg
    rw [e2]
    nlinarith

theorem near_phase {θ : ℝ} : Near A (.ok (A.phaseMat θ)) (Spec.phase θ) (1 + 3 * A.δ) := by
  have hs := A.sin_fl θ
  have hc := A.cos_fl θ
  have e : A.add (real (A.cosR θ)) (A.mul I (real (A.sinR θ))) = ⟨A.cosR θ, A.sinR θ⟩ := by
    rw [mul_I hs]
    apply Complex.ext <;> simp [add, real, hc, hs]
  refine ⟨_, !![1, 0; 0, ⟨A.cosR θ, A.sinR θ⟩], rfl, ?_, ?_, phase_u2 θ, ?_⟩
  · unfold phaseMat
    rw [e]; exact represents2_ofRows _ _ _ _
  · intro x y
    fin_cases x <;> fin_cases y
    exacts [rep_one, rep_zero, rep_zero, ⟨hc, hs⟩]
  · have e2 : frob (!![1, 0; 0, ⟨A.cosR θ, A.sinR θ⟩] - Spec.phase θ) = ‖(⟨A.cosR θ, A.sinR θ⟩ : ℂ) - exp (θ * I)‖ := by
      unfold frob
      rw [Real.sqrt_eq_iff_mul_self_eq (Finset.sum_nonneg fun _ _ => Finset.sum_nonneg fun _ _ => by positivity)
        (norm_nonneg _)]
      simp [Fin.sum_univ_two, Spec.phase]; ring
    have e3 : (⟨A.cosR θ, A.sinR θ⟩ : ℂ) - exp (θ * I) = ⟨A.cosR θ - Real.cos θ, A.sinR θ - Real.sin θ⟩ := by
      apply Complex.ext <;> simp [Complex.exp_ofReal_mul_I_re, Complex.exp_ofReal_mul_I_im]
    rw [e2, e3]
    have h1 := Complex.norm_le_abs_re_add_abs_im ⟨A.cosR θ - Real.cos θ, A.sinR θ - Real.sin θ⟩
    have h2 := A.cos_err θ
    have h3 := A.sin_err θ
    have := A.δ_nonneg
    simp only at h1
    linarith

theorem fl_abs_le (A : Arith) (x : ℝ) : |A.fl x| ≤ (1 + A.u) * |x| := by
  have h1 := A.fl_err x
  have h2 := abs_sub_abs_le_abs_sub (A.fl x) x
  linarith

/-- Rounded sum of two rounded numbers. -/
theorem two_round (A : Arith) (x y : ℝ) : |A.fl (A.fl x + A.fl y) - (x + y)| ≤ ((1 + A.u) ^ 2 - 1) * (|x| + |y|) := by
  have h1 := A.fl_err (A.fl x + A.fl y)
  have h2 := A.fl_err x
  have h3 := A.fl_err y
  have h4 := fl_abs_le A x
  have h5 := fl_abs_le A y
  have h6 := abs_add_le (A.fl x) (A.fl y)
  have h7 : |A.fl (A.fl x + A.fl y) - (x + y)| ≤ |A.fl (A.fl x + A.fl y) - (A.fl x + A.fl y)| + (|A.fl x - x| + |A.fl y - y|) := by
    have e : A.fl (A.fl x + A.fl y) - (x + y) =
        (A.fl (A.fl x + A.fl y) - (A.fl x + A.fl y)) + ((A.fl x - x) + (A.fl y - y)) := by ring
    rw [e]
    exact (abs_add_le _ _).trans (add_le_add le_rfl (abs_add_le _ _))
  have hu := A.u_nonneg
  have h8 : A.u * |A.fl x + A.fl y| ≤ A.u * ((1 + A.u) * |x| + (1 + A.u) * |y|) :=
    mul_le_mul_of_nonneg_left (by linarith) hu
  nlinarith

/-- The error of a complex product. -/
theorem mul_err (A : Arith) (z w : ℂ) : ‖A.mul z w - z * w‖ ≤ mulErr A.u * (‖z‖ * ‖w‖) := by
  have hk : (0 : ℝ) ≤ (1 + A.u) ^ 2 - 1 := by nlinarith [A.u_nonneg]
  have hcs : ∀ a b c d : ℝ, a ^ 2 + b ^ 2 = ‖z‖ ^ 2 → c ^ 2 + d ^ 2 = ‖w‖ ^ 2 → |a * c| + |b * d| ≤ ‖z‖ * ‖w‖ := by
    intro a b c d h1 h2
    refine le_of_sq_le_sq ?_ (by positivity)
    rw [mul_pow, ← h1, ← h2, abs_mul, abs_mul, ← sq_abs a, ← sq_abs b, ← sq_abs c, ← sq_abs d]
    nlinarith [sq_nonneg (|a| * |d| - |b| * |c|)]
  have hz : z.re ^ 2 + z.im ^ 2 = ‖z‖ ^ 2 := by rw [← Complex.normSq_eq_norm_sq, Complex.normSq_apply]; ring
  have hw : w.re ^ 2 + w.im ^ 2 = ‖w‖ ^ 2 := by rw [← Complex.normSq_eq_norm_sq, Complex.normSq_apply]; ring
  have hre : |(A.mul z w - z * w).re| ≤ ((1 + A.u) ^ 2 - 1) * (‖z‖ * ‖w‖) := by
    have h := two_round A (z.re * w.re) (-(z.im * w.im))
    rw [A.fl_neg, ← sub_eq_add_neg, ← sub_eq_add_neg, abs_neg] at h
    rw [sub_re, mul_re]
    exact h.trans (mul_le_mul_of_nonneg_left (hcs _ _ _ _ hz hw) hk)
  have him : |(A.mul z w - z * w).im| ≤ ((1 + A.u) ^ 2 - 1) * (‖z‖ * ‖w‖) := by
    have h := two_round A (z.re * w.im) (z.im * w.re)
    rw [sub_im, mul_im]
    exact h.trans (mul_le_mul_of_nonneg_left (hcs _ _ _ _ hz (by rw [← hw]; ring)) hk)
  refine (Complex.norm_le_sqrt_two_mul_max _).trans ?_
  unfold mulErr
  rw [mul_assoc]
  exact mul_le_mul_of_nonneg_left (max_le hre him) (Real.sqrt_nonneg _)

theorem near_u1 {θ : ℝ} (hθ : A.fl θ = θ) :
    Near A (A.u1Mat θ) (Spec.phase θ) (1 + 2 * ((1 + mulErr A.u) * (1 + 2 * A.δ) ^ 2 - 1)) := by
  have hh : (0.5 : ℝ) * A.fl θ = θ / 2 := by rw [hθ]; norm_num; ring
  have hx : A.fl (0.5 * A.fl θ) = θ / 2 := by rw [hh, A.fl_half θ hθ]
  have hs := A.sin_fl (θ / 2)
  have hc := A.cos_fl (θ / 2)
  have hse := A.sin_err (θ / 2)
  have hce := A.cos_err (θ / 2)
  have hδ := A.δ_nonneg
  have hμ := mulErr_nonneg A.u_nonneg
  set c := A.cosR (θ / 2) with hcdef
  set s := A.sinR (θ / 2) with hsdef
  have e : A.add (real c) (A.mul I (real s)) = ⟨c, s⟩ := by
    rw [mul_I hs]
    apply Complex.ext <;> simp [add, real, hc, hs]
  obtain ⟨t, ht, hr⟩ := subT_rep2 (smulT_rep2 represents2_eye (rep_real hc) signM_one)
    (smulT_rep2 (represents2_ofRows 1 0 0 (-1)) (rep_sign_mul .I (rep_real hs)) signM_Z)
    (rep_cos_sin hc hs pauli_Z.1 pauli_Z.2)
  set E : ℂ := ⟨c, s⟩ with hE
  set m : Mat2 := fun x y => A.mul E ((real c • (1 : Mat2) - (I * real s) • Spec.Z) x y) with hm
  have e00 : (real c • (1 : Mat2) - (I * real s) • Spec.Z) 0 0 = ⟨c, -s⟩ := by
    apply Complex.ext <;> simp [Spec.Z, real]
  have e11 : (real c • (1 : Mat2) - (I * real s) • Spec.Z) 1 1 = ⟨c, s⟩ := by
    apply Complex.ext <;> simp [Spec.Z, real]
  have e01 : (real c • (1 : Mat2) - (I * real s) • Spec.Z) 0 1 = 0 := by
    simp [Spec.Z]
  have e10 : (real c • (1 : Mat2) - (I * real s) • Spec.Z) 1 0 = 0 := by
    simp [Spec.Z]
  have mul0 : A.mul E 0 = 0 := by apply Complex.ext <;> simp [mul, A.fl_zero]
  refine ⟨A.smulT E t, m, ?_, ⟨hr.1, fun x y => ?_⟩, fun x y => mul_rep _ _, phase_u2 θ, ?_⟩
  · unfold u1Mat
    simp only [hx]
    rw [← hcdef, ← hsdef, e, mul_I hs, ht]
    rfl
  · unfold smulT
    rw [Tensor.get_ofFn (by rw [hr.1]; exact inB2 x y), hr.2]
    rfl
  · -- errors of the two diagonal entries
    have near : ∀ x y : ℝ, |x - Real.cos (θ / 2)| ≤ A.δ → |y - Real.sin (θ / 2)| ≤ A.δ →
        ‖(⟨x, y⟩ : ℂ) - exp ((θ / 2 : ℝ) * I)‖ ≤ 2 * A.δ ∧ ‖(⟨x, -y⟩ : ℂ) - exp (-((θ / 2 : ℝ) * I))‖ ≤ 2 * A.δ := by
      intro x y hx hy
      constructor
      · have e3 : (⟨x, y⟩ : ℂ) - exp ((θ / 2 : ℝ) * I) = ⟨x - Real.cos (θ / 2), y - Real.sin (θ / 2)⟩ := by
          apply Complex.ext
          · rw [sub_re, Complex.exp_ofReal_mul_I_re]
          · rw [sub_im, Complex.exp_ofReal_mul_I_im]
        rw [e3]
        have h1 := Complex.norm_le_abs_re_add_abs_im ⟨x - Real.cos (θ / 2), y - Real.sin (θ / 2)⟩
        simp only at h1
        linarith
      · have e3 : (⟨x, -y⟩ : ℂ) - exp (-((θ / 2 : ℝ) * I)) = ⟨x - Real.cos (θ / 2), -(y - Real.sin (θ / 2))⟩ := by
          have e4 : -(((θ / 2 : ℝ) : ℂ) * I) = ((-(θ / 2) : ℝ) : ℂ) * I := by push_cast; ring
          rw [e4]
          apply Complex.ext
          · rw [sub_re, Complex.exp_ofReal_mul_I_re, Real.cos_neg]
          · rw [sub_im, Complex.exp_ofReal_mul_I_im, Real.sin_neg]; ring
        rw [e3]
        have h1 := Complex.norm_le_abs_re_add_abs_im ⟨x - Real.cos (θ / 2), -(y - Real.sin (θ / 2))⟩
        simp only [abs_neg] at h1
        linarith
    obtain ⟨n1, n2⟩ := near c s hce hse
    have u1 : ‖exp (((θ / 2 : ℝ) : ℂ) * I)‖ = 1 := Complex.norm_exp_ofReal_mul_I _
    have u2 : ‖exp (-(((θ / 2 : ℝ) : ℂ) * I))‖ = 1 := by
      rw [Complex.exp_neg, norm_inv, u1, inv_one]
    have prod : ∀ z w Z W : ℂ, ‖z - Z‖ ≤ 2 * A.δ → ‖w - W‖ ≤ 2 * A.δ → ‖Z‖ = 1 → ‖W‖ = 1 →
        ‖A.mul z w - Z * W‖ ≤ (1 + mulErr A.u) * (1 + 2 * A.δ) ^ 2 - 1 := by
      intro z w Z W h1 h2 h3 h4
      have a1 : ‖z‖ ≤ 1 + 2 * A.δ := by
        have := norm_add_le Z (z - Z); rw [add_sub_cancel, h3] at this; linarith
      have a2 : ‖w‖ ≤ 1 + 2 * A.δ := by
        have := norm_add_le W (w - W); rw [add_sub_cancel, h4] at this; linarith
      have a3 := mul_err A z w
      have a4 : ‖z‖ * ‖w‖ ≤ (1 + 2 * A.δ) ^ 2 := by
        rw [pow_two]; exact mul_le_mul a1 a2 (norm_nonneg _) (by linarith)
      have a5 : ‖z * w - Z * W‖ ≤ (1 + 2 * A.δ) ^ 2 - 1 := by
        have e : z * w - Z * W = (z - Z) * w + Z * (w - W) := by ring
        rw [e]
        refine (norm_add_le _ _).trans ?_
        rw [norm_mul, norm_mul, h3, one_mul]
        have := mul_le_mul h1 a2 (norm_nonneg _) (by linarith : (0 : ℝ) ≤ 2 * A.δ)
        nlinarith
      have a6 := norm_add_le (A.mul z w - z * w) (z * w - Z * W)
      rw [sub_add_sub_cancel] at a6
      have a7 := mul_le_mul_of_nonneg_left a4 hμ
      nlinarith
    have d0 := prod E ⟨c, -s⟩ _ _ n1 n2 u1 u2
    have d1 := prod E ⟨c, s⟩ _ _ n1 n1 u1 u1
    have p0 : exp (((θ / 2 : ℝ) : ℂ) * I) * exp (-(((θ / 2 : ℝ) : ℂ) * I)) = 1 := by
      rw [← Complex.exp_add]; simp
    have p1 : exp (((θ / 2 : ℝ) : ℂ) * I) * exp (((θ / 2 : ℝ) : ℂ) * I) = exp (θ * I) := by
      rw [← Complex.exp_add]; congr 1; push_cast; ring
    rw [p0] at d0
    rw [p1] at d1
    set K := (1 + mulErr A.u) * (1 + 2 * A.δ) ^ 2 - 1 with hK
    have hK0 : 0 ≤ K := (norm_nonneg _).trans d0
    have : frob (m - Spec.phase θ) ≤ 2 * K := by
      refine Real.sqrt_le_iff.2 ⟨by linarith, ?_⟩
      have m00 : m 0 0 = A.mul E ⟨c, -s⟩ := by rw [← e00]
      have m01 : m 0 1 = 0 := by rw [← mul0, ← e01]
      have m10 : m 1 0 = 0 := by rw [← mul0, ← e10]
      have m11 : m 1 1 = A.mul E ⟨c, s⟩ := by rw [← e11]
      simp only [Fin.sum_univ_two, Matrix.sub_apply, m00, m01, m10, m11]
      have q00 : Spec.phase θ 0 0 = 1 := rfl
      have q01 : Spec.phase θ 0 1 = 0 := rfl
      have q10 : Spec.phase θ 1 0 = 0 := rfl
      have q11 : Spec.phase θ 1 1 = exp (θ * I) := rfl
      rw [q00, q01, q10, q11, sub_zero, norm_zero]
      have s0 := pow_le_pow_left₀ (norm_nonneg _) d0 2
      have s1 := pow_le_pow_left₀ (norm_nonneg _) d1 2
      nlinarith
    linarith

end Arith

end QTN
