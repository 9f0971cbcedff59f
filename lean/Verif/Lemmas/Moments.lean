import Verif.Lemmas.Random

/-! # Second moments over random weights

A layer of rotations with random angles turns a product of Pauli matrices into other products with known probabilities. -/

namespace QTN

open Spec Matrix Finset

variable {N : ℕ}

/-! ## Means over the angles -/

/-- The weights `w` as angles of `m` layers; outside of the layers the angle is zero. -/
noncomputable def grid (m N : ℕ) (w : List ℝ) (r j i : ℕ) : ℝ := if r < m ∧ j < N ∧ i < 3 then angle N w r j i else 0

/-- The angles with `t` added to one of them. -/
def bumpAt (r j i : ℕ) (t : ℝ) (g : ℕ → ℕ → ℕ → ℝ) (r' j' i' : ℕ) : ℝ :=
  g r' j' i' + if r' = r ∧ j' = j ∧ i' = i then t else 0

theorem index_inj {r j i r' j' i' : ℕ} (hj : j < N) (hi : i < 3) (hj' : j' < N) (hi' : i' < 3) :
    3 * N * r' + 3 * j' + i' = 3 * N * r + 3 * j + i ↔ r' = r ∧ j' = j ∧ i' = i := by
  constructor
  · intro h
    have e1 : (3 * N * r + (3 * j + i)) / (3 * N) = r := by
      rw [Nat.mul_add_div (by omega), Nat.div_eq_of_lt (by omega), add_zero]
    have e2 : (3 * N * r' + (3 * j' + i')) / (3 * N) = r' := by
      rw [Nat.mul_add_div (by omega), Nat.div_eq_of_lt (by omega), add_zero]
    rw [add_assoc, add_assoc] at h
    rw [h, e1] at e2
    subst e2
    omega
  · rintro ⟨rfl, rfl, rfl⟩
    rfl

theorem index_lt {m r j i : ℕ} (hr : r < m) (hj : j < N) (hi : i < 3) : 3 * N * r + 3 * j + i < 3 * N * m := by
  have : 3 * N * (r + 1) ≤ 3 * N * m := Nat.mul_le_mul_left _ hr
  rw [Nat.mul_add] at this
  omega

theorem grid_shift {m r j i : ℕ} (hr : r < m) (hj : j < N) (hi : i < 3) (t : ℝ) {w : List ℝ} (hw : w.length = 3 * N * m) :
    grid m N (shiftBy (only (3 * N * r + 3 * j + i) t) w) = bumpAt r j i t (grid m N w) := by
  funext r' j' i'
  simp only [grid, bumpAt]
  by_cases h : r' < m ∧ j' < N ∧ i' < 3
  · rw [if_pos h, if_pos h]
    have hlt := index_lt h.1 h.2.1 h.2.2
    unfold angle
    rw [List.getD_eq_getElem _ _ (by rw [shiftBy_length, hw]; exact hlt), List.getD_eq_getElem _ _ (by rw [hw]; exact hlt)]
    have : (shiftBy (only (3 * N * r + 3 * j + i) t) w)[3 * N * r' + 3 * j' + i']'(by rw [shiftBy_length, hw]; exact hlt) =
        w[3 * N * r' + 3 * j' + i']'(by rw [hw]; exact hlt) + only (3 * N * r + 3 * j + i) t (3 * N * r' + 3 * j' + i') := by
      simp [shiftBy]
    rw [this]
    unfold only
    simp only [index_inj hj hi h.2.1 h.2.2]
  · rw [if_neg h, if_neg h, if_neg (by rintro ⟨rfl, rfl, rfl⟩; exact h ⟨hr, hj, hi⟩), add_zero]

/-- The mean over all angles of `m` layers. -/
noncomputable def meanG (m N : ℕ) (F : (ℕ → ℕ → ℕ → ℝ) → ℝ) : ℝ := mean (3 * N * m) (fun w => F (grid m N w))

/-- A mean value does not change when one of the weights is shifted, if the value is periodic in this weight. -/
theorem mean_shift_one {n : ℕ} : ∀ (k : ℕ) (t : ℝ) (F : List ℝ → ℝ),
    (∀ w, w.length = n → F (shiftBy (only k (2 * Real.pi)) w) = F w) →
    mean n (fun w => F (shiftBy (only k t) w)) = mean n F := by
  induction n with
  | zero => exact fun k t F _ => rfl
  | succ n ih =>
    intro k t F h
    cases k with
    | zero =>
      unfold mean
      congr 1
      have e : ∀ s : ℝ, (fun l => only 0 s (l + 1)) = fun _ => 0 := fun s => by funext l; simp [only]
      have e0 : ∀ s : ℝ, only 0 s 0 = s := fun s => if_pos rfl
      simp only [shiftBy_cons, e, e0, shiftBy_zero]
      rw [intervalIntegral.integral_comp_add_right (fun θ => mean n (fun w => F (θ :: w))) t]
      have hp : Function.Periodic (fun θ => mean n (fun w => F (θ :: w))) (2 * Real.pi) := by
        intro θ
        refine mean_congr fun w hw => ?_
        have := h (θ :: w) (by simp [hw])
        rwa [shiftBy_cons, e, e0, shiftBy_zero] at this
      have := hp.intervalIntegral_add_eq t 0
      rw [zero_add] at this ⊢
      rw [← this, add_comm]
    | succ k =>
      unfold mean
      congr 1
      refine intervalIntegral.integral_congr fun θ _ => ?_
      have e : ∀ s : ℝ, (fun l => only (k + 1) s (l + 1)) = only k s := fun s => by funext l; simp [only]
      have e0 : ∀ s : ℝ, only (k + 1) s 0 = 0 := fun s => if_neg (by omega)
      simp only [shiftBy_cons, e, e0, add_zero]
      refine ih k t (fun w => F (θ :: w)) fun w hw => ?_
      have := h (θ :: w) (by simp [hw])
      rwa [shiftBy_cons, e, e0, add_zero] at this

theorem meanG_bumpAt {m r j i : ℕ} (hr : r < m) (hj : j < N) (hi : i < 3) (t : ℝ) (F : (ℕ → ℕ → ℕ → ℝ) → ℝ)
    (h : ∀ g, F (bumpAt r j i (2 * Real.pi) g) = F g) : meanG m N (fun g => F (bumpAt r j i t g)) = meanG m N F := by
  unfold meanG
  rw [← mean_shift_one (3 * N * r + 3 * j + i) t (fun w => F (grid m N w)) fun w hw => by rw [grid_shift hr hj hi _ hw, h]]
  exact mean_congr fun w hw => by rw [grid_shift hr hj hi _ hw]

theorem grid_cts (m n : ℕ) : Continuous (fun v : Fin n → ℝ => grid m N (List.ofFn v)) := by
  refine continuous_pi fun r => continuous_pi fun j => continuous_pi fun i => ?_
  unfold grid
  split
  · exact angle_cts r j i
  · exact continuous_const

theorem cts_grid {m : ℕ} {F : (ℕ → ℕ → ℕ → ℝ) → ℝ} (h : Continuous F) : Cts (3 * N * m) (fun w => F (grid m N w)) :=
  h.comp (grid_cts m _)

theorem meanG_add {m : ℕ} {F G : (ℕ → ℕ → ℕ → ℝ) → ℝ} (hF : Continuous F) (hG : Continuous G) :
    meanG m N (fun g => F g + G g) = meanG m N F + meanG m N G := mean_add (cts_grid hF) (cts_grid hG)

theorem mean_mul {n : ℕ} (c : ℝ) : ∀ F : List ℝ → ℝ, mean n (fun w => c * F w) = c * mean n F := by
  induction n with
  | zero => exact fun F => rfl
  | succ n ih =>
    intro F
    unfold mean
    simp only [ih, intervalIntegral.integral_const_mul]
    ring

theorem meanG_nonneg {m : ℕ} {F : (ℕ → ℕ → ℕ → ℝ) → ℝ} (hF : Continuous F) (h : ∀ g, 0 ≤ F g) : 0 ≤ meanG m N F := by
  have := mean_mono (n := 3 * N * m) (F := fun _ => 0) continuous_const (cts_grid hF) fun w _ => h _
  rwa [mean_const] at this

/-! ## One rotation -/

/-- The square of an expectation value. -/
noncomputable def sqEx (P : QOp N) (v : QState N) : ℝ := (braket P v).re ^ 2

theorem sqEx_nonneg (P : QOp N) (v : QState N) : 0 ≤ sqEx P v := sq_nonneg _

theorem sqEx_cts {X : Type} [TopologicalSpace X] (P : QOp N) {V : X → QState N} (h : Continuous V) :
    Continuous (fun x => sqEx P (V x)) := by
  unfold sqEx braket
  refine Continuous.pow (Complex.continuous_re.comp ?_) 2
  refine continuous_finsetSum _ fun a _ => continuous_finsetSum _ fun b _ => ?_
  have ha : Continuous fun x => V x a := (continuous_apply a).comp h
  have hb : Continuous fun x => V x b := (continuous_apply b).comp h
  fun_prop

/-- How a matrix that anticommutes with the axis passes a rotation. -/
theorem anti_turn {A B : Mat2} (hA : A * A = 1) (h : B * A = -(A * B)) (θ : ℝ) :
    B * rot A θ = rot A θ * ((Real.cos θ : ℂ) • B + (Real.sin θ : ℂ) • (Complex.I • (A * B))) := by
  have e1 : B * rot A θ = rot A (-θ) * B := by
    unfold rot
    rw [neg_div, Real.cos_neg, Real.sin_neg, mul_sub, sub_mul, mul_smul_comm, mul_smul_comm, smul_mul_assoc, smul_mul_assoc, h,
      mul_one, one_mul]
    push_cast
    module
  have e2 : (Real.cos θ : ℂ) • B + (Real.sin θ : ℂ) • (Complex.I • (A * B)) = rot A (-2 * θ) * B := by
    unfold rot
    rw [show -2 * θ / 2 = -θ by ring, Real.cos_neg, Real.sin_neg, sub_mul, smul_mul_assoc, smul_mul_assoc, one_mul]
    push_cast
    module
  rw [e1, e2, ← mul_assoc, rot_mul hA]
  congr 2
  ring

theorem onEach_split (p : Fin N → Mat2) (q : Fin N) : onEach p = onQubit q (p q) * onEach (Function.update p q 1) := by
  rw [← onEach_update_one, onEach_mul]
  congr 1
  funext j
  by_cases h : j = q
  · subst h; simp
  · simp [h]

theorem onEach_put (p : Fin N → Mat2) (q : Fin N) (B : Mat2) :
    onQubit q B * onEach (Function.update p q 1) = onEach (Function.update p q B) := by
  rw [onEach_split (Function.update p q B) q, Function.update_self, Function.update_idem]

theorem onEach_pass (p : Fin N → Mat2) (q : Fin N) (M : Mat2) :
    onEach (Function.update p q 1) * onQubit q M = onQubit q M * onEach (Function.update p q 1) := by
  rw [← onEach_update_one, onEach_mul, onEach_mul]
  congr 1
  funext j
  by_cases h : j = q
  · subst h; simp
  · simp [h]

/-- The expectation value after a rotation about an axis that anticommutes with the factor of the qubit. -/
theorem braket_anti {A : Mat2} (hA : IsAxis A) (p : Fin N → Mat2) (q : Fin N) (h : p q * A = -(A * p q)) (θ : ℝ) (v : QState N) :
    (braket (onEach p) (onQubit q (rot A θ) *ᵥ v)).re = Real.cos θ * (braket (onEach p) v).re +
      Real.sin θ * (braket (onEach (Function.update p q (Complex.I • (A * p q)))) v).re := by
  have hA2 : A * A = 1 := by rcases hA with rfl | rfl | rfl; exacts [X_sq, Y_sq, Z_sq]
  have e : onEach p * onQubit q (rot A θ) = onQubit q (rot A θ) * ((Real.cos θ : ℂ) • onEach p +
      (Real.sin θ : ℂ) • onEach (Function.update p q (Complex.I • (A * p q)))) := by
    conv_lhs => rw [onEach_split p q]
    conv_rhs => rw [onEach_split p q]
    rw [mul_assoc, onEach_pass, ← mul_assoc, onQubit_mul, anti_turn hA2 h, ← onQubit_mul, onQubit_add, onQubit_smul',
      onQubit_smul', mul_assoc, add_mul, smul_mul_assoc, smul_mul_assoc, onEach_put p q (Complex.I • _)]
  rw [braket_inter e (onQubit_unitary (hA.u2 θ) q), braket_comb, Complex.add_re, Complex.re_ofReal_mul, Complex.re_ofReal_mul]

/-- Nothing changes when the operation commutes with the factor of the qubit. -/
theorem sqEx_commute {U : Mat2} (hU : IsU2 U) (p : Fin N → Mat2) (q : Fin N) (h : p q * U = U * p q) (v : QState N) :
    sqEx (onEach p) (onQubit q U *ᵥ v) = sqEx (onEach p) v := by
  have e : onEach p * onQubit q U = onQubit q U * onEach p := by
    rw [onEach_split p q, mul_assoc, onEach_pass, ← mul_assoc, onQubit_mul, h, ← mul_assoc, onQubit_mul]
  unfold sqEx
  rw [braket_inter e (onQubit_unitary hU q)]

theorem turned_cts {X : Type} [TopologicalSpace X] {V : X → QState N} (hV : Continuous V) (A : Mat2) (q : Fin N) {θ : X → ℝ}
    (hθ : Continuous θ) : Continuous (fun x => onQubit q (rot A (θ x)) *ᵥ V x) := by
  refine continuous_pi fun a => ?_
  simp only [onQubit_mulVec]
  refine continuous_finsetSum _ fun b _ => (rot_cts A hθ _ _).mul ?_
  exact (continuous_apply _).comp hV

/-- The mean of the square of an expectation value over the angle of a rotation. -/
theorem mean_anti {A : Mat2} (hA : IsAxis A) (p : Fin N → Mat2) (q : Fin N) (h : p q * A = -(A * p q)) {m r j i : ℕ}
    (hr : r < m) (hj : j < N) (hi : i < 3) {V : (ℕ → ℕ → ℕ → ℝ) → QState N} (hV : Continuous V)
    (hb : ∀ t g, V (bumpAt r j i t g) = V g) :
    meanG m N (fun g => sqEx (onEach p) (onQubit q (rot A (g r j i)) *ᵥ V g)) =
      (meanG m N (fun g => sqEx (onEach p) (V g)) +
        meanG m N (fun g => sqEx (onEach (Function.update p q (Complex.I • (A * p q)))) (V g))) / 2 := by
  have e : ∀ t g, sqEx (onEach p) (onQubit q (rot A (bumpAt r j i t g r j i)) *ᵥ V (bumpAt r j i t g)) =
      (Real.cos (g r j i + t) * (braket (onEach p) (V g)).re +
      Real.sin (g r j i + t) * (braket (onEach (Function.update p q (Complex.I • (A * p q)))) (V g)).re) ^ 2 := by
    intro t g
    unfold sqEx
    rw [hb, braket_anti hA p q h]
    simp [bumpAt]
  have hF : Continuous fun g : ℕ → ℕ → ℕ → ℝ => sqEx (onEach p) (onQubit q (rot A (g r j i)) *ᵥ V g) :=
    sqEx_cts _ (turned_cts hV A q (by fun_prop))
  have hb' : Continuous (bumpAt r j i (Real.pi / 2)) := by
    refine continuous_pi fun r' => continuous_pi fun j' => continuous_pi fun i' => ?_
    unfold bumpAt
    fun_prop
  have h1 := meanG_bumpAt (N := N) hr hj hi (Real.pi / 2) (fun g => sqEx (onEach p) (onQubit q (rot A (g r j i)) *ᵥ V g)) fun g => by
    have e0 := e 0 g
    have e1 := e (2 * Real.pi) g
    rw [add_zero] at e0
    rw [Real.cos_add_two_pi, Real.sin_add_two_pi] at e1
    rw [e1, ← e0]
    have : bumpAt r j i 0 g = g := by funext a b c; simp [bumpAt]
    rw [this]
  have h2 := meanG_add (m := m) (N := N) hF (hF.comp hb')
  rw [← meanG_add (sqEx_cts _ hV) (sqEx_cts _ hV)]
  have h3 : meanG m N (fun g => sqEx (onEach p) (V g) + sqEx (onEach (Function.update p q (Complex.I • (A * p q)))) (V g)) =
      meanG m N (fun g => sqEx (onEach p) (onQubit q (rot A (g r j i)) *ᵥ V g) +
        ((fun g => sqEx (onEach p) (onQubit q (rot A (g r j i)) *ᵥ V g)) ∘ bumpAt r j i (Real.pi / 2)) g) := by
    congr 1
    funext g
    have e0 := e 0 g
    have : bumpAt r j i 0 g = g := by funext a b c; simp [bumpAt]
    rw [this, add_zero] at e0
    rw [Function.comp_apply, e, e0, Real.cos_add_pi_div_two, Real.sin_add_pi_div_two]
    unfold sqEx
    generalize (braket (onEach p) (V g)).re = x
    generalize (braket _ (V g)).re = y
    linear_combination (-(x ^ 2 + y ^ 2)) * Real.cos_sq_add_sin_sq (g r j i)
  rw [h3, h2]
  have h4 : meanG m N ((fun g => sqEx (onEach p) (onQubit q (rot A (g r j i)) *ᵥ V g)) ∘ bumpAt r j i (Real.pi / 2)) =
      meanG m N (fun g => sqEx (onEach p) (onQubit q (rot A (g r j i)) *ᵥ V g)) := h1
  rw [h4]
  ring

/-! ## The rotations of a layer -/

/-- The three rotations of qubit `q`. -/
noncomputable def site (g : ℕ → ℕ → ℝ) (q : Fin N) : QOp N := onQubit q (rot Y (g q 2) * rot Z (g q 1) * rot Y (g q 0))

theorem site_apply (g : ℕ → ℕ → ℝ) (q : Fin N) (v : QState N) :
    site g q *ᵥ v = onQubit q (rot Y (g q 2)) *ᵥ onQubit q (rot Z (g q 1)) *ᵥ onQubit q (rot Y (g q 0)) *ᵥ v := by
  unfold site
  rw [mulVec_mulVec, mulVec_mulVec, onQubit_mul, onQubit_mul, mul_assoc]

theorem site_cts {V : (ℕ → ℕ → ℕ → ℝ) → QState N} (hV : Continuous V) (r : ℕ) (q : Fin N) :
    Continuous (fun g => site (g r) q *ᵥ V g) := by
  simp only [site_apply]
  exact turned_cts (turned_cts (turned_cts hV Y q (by fun_prop)) Z q (by fun_prop)) Y q (by fun_prop)

theorem I_YX : Complex.I • (Y * X) = Z := by
  ext i j; fin_cases i <;> fin_cases j <;> simp [Spec.X, Spec.Y, Spec.Z]

theorem I_YZ : Complex.I • (Y * Z) = (-1 : ℂ) • X := by
  ext i j; fin_cases i <;> fin_cases j <;> simp [Spec.X, Spec.Y, Spec.Z]

theorem sqEx_minus (p : Fin N → Mat2) (q : Fin N) (B : Mat2) (v : QState N) :
    sqEx (onEach (Function.update p q ((-1 : ℂ) • B))) v = sqEx (onEach (Function.update p q B)) v := by
  have e : onEach (Function.update p q ((-1 : ℂ) • B)) = (-1 : ℂ) • onEach (Function.update p q B) + (0 : ℂ) • 0 := by
    rw [← onEach_put p q ((-1 : ℂ) • B), ← onEach_put p q B, onQubit_smul', smul_mul_assoc, smul_zero, add_zero]
  unfold sqEx
  rw [e, braket_comb]
  simp

/-- With probability 3/8 at least the factor X of a qubit passes its rotations. -/
theorem site_keep (p : Fin N → Mat2) (q : Fin N) (hp : p q = X) {m r : ℕ} (hr : r < m) {V : (ℕ → ℕ → ℕ → ℝ) → QState N}
    (hV : Continuous V) (hb : ∀ i t g, V (bumpAt r q i t g) = V g) :
    3 / 8 * meanG m N (fun g => sqEx (onEach p) (V g)) ≤ meanG m N (fun g => sqEx (onEach p) (site (g r) q *ᵥ V g)) := by
  have hV1 : Continuous fun g : ℕ → ℕ → ℕ → ℝ => onQubit q (rot Y (g r q 0)) *ᵥ V g := turned_cts hV Y q (by fun_prop)
  have hV2 : Continuous fun g : ℕ → ℕ → ℕ → ℝ => onQubit q (rot Z (g r q 1)) *ᵥ onQubit q (rot Y (g r q 0)) *ᵥ V g :=
    turned_cts hV1 Z q (by fun_prop)
  have hY : IsAxis Y := Or.inr (Or.inl rfl)
  have hZ : IsAxis Z := Or.inr (Or.inr rfl)
  have aX : X * Y = -(Y * X) := by rw [Y_X, neg_neg]
  have aZ : Z * Y = -(Y * Z) := by rw [Y_Z, neg_neg]
  have pz : Function.update p q Z q = Z := Function.update_self ..
  have back : Function.update p q X = p := by rw [← hp, Function.update_eq_self]
  simp only [site_apply]
  have h1 := mean_anti hY p q (by rw [hp, aX]) hr q.2 (by omega : 2 < 3) hV2 fun t g => by
    rw [hb]; simp [bumpAt]
  have h2 := mean_anti hZ p q (by rw [hp, X_Z]) hr q.2 (by omega : 1 < 3) hV1 fun t g => by
    rw [hb]; simp [bumpAt]
  have h3 := mean_anti hY p q (by rw [hp, aX]) hr q.2 (by omega : 0 < 3) hV (hb 0)
  have h4 := mean_anti hY (Function.update p q Z) q (by rw [pz, aZ]) hr q.2 (by omega : 0 < 3) hV (hb 0)
  rw [hp, I_YX] at h1 h3
  rw [pz, I_YZ, Function.update_idem] at h4
  simp only [sqEx_minus, back] at h4
  have h5 : ∀ g : ℕ → ℕ → ℕ → ℝ, sqEx (onEach (Function.update p q Z)) (onQubit q (rot Z (g r q 1)) *ᵥ onQubit q (rot Y (g r q 0)) *ᵥ V g) =
      sqEx (onEach (Function.update p q Z)) (onQubit q (rot Y (g r q 0)) *ᵥ V g) := fun g =>
    sqEx_commute (hZ.u2 _) _ q (by rw [pz, rot_comm]) _
  simp only [h5] at h1
  have n1 : 0 ≤ meanG m N (fun g => sqEx (onEach (Function.update p q Z)) (V g)) :=
    meanG_nonneg (sqEx_cts _ hV) fun g => sqEx_nonneg _ _
  have n2 : 0 ≤ meanG m N (fun g => sqEx (onEach (Function.update p q (Complex.I • (Z * p q)))) (onQubit q (rot Y (g r q 0)) *ᵥ V g)) :=
    meanG_nonneg (sqEx_cts _ hV1) fun g => sqEx_nonneg _ _
  rw [h1, h2, h4, h3]
  linarith

theorem site_none (p : Fin N → Mat2) (q : Fin N) (hp : p q = 1) (g : ℕ → ℕ → ℝ) (v : QState N) :
    sqEx (onEach p) (site g q *ᵥ v) = sqEx (onEach p) v := by
  have hY : IsAxis Y := Or.inr (Or.inl rfl)
  have hZ : IsAxis Z := Or.inr (Or.inr rfl)
  exact sqEx_commute (((hY.u2 _).mul (hZ.u2 _)).mul (hY.u2 _)) p q (by rw [hp, one_mul, mul_one]) v

/-- The rotations of some of the qubits. -/
noncomputable def sites (g : ℕ → ℕ → ℝ) (l : List (Fin N)) : QOp N := (l.map (site g)).prod

theorem sites_cts (r : ℕ) (l : List (Fin N)) : ∀ {V : (ℕ → ℕ → ℕ → ℝ) → QState N}, Continuous V →
    Continuous (fun g => sites (g r) l *ᵥ V g) := by
  induction l with
  | nil => intro V hV; simpa [sites] using hV
  | cons q l ih =>
    intro V hV
    have := site_cts (ih hV) r q
    simpa [sites] using this

theorem sites_onEach (g : ℕ → ℕ → ℝ) {l : List (Fin N)} (hl : l.Nodup) :
    sites g l = onEach (fun j => if j ∈ l then rot Y (g j 2) * rot Z (g j 1) * rot Y (g j 0) else 1) := by
  induction l with
  | nil => simp [sites]; exact onEach_one.symm
  | cons q l ih =>
    rw [List.nodup_cons] at hl
    have : sites g (q :: l) = site g q * sites g l := by simp [sites]
    rw [this, ih hl.2, site, ← onEach_update_one, onEach_mul]
    congr 1
    funext j
    by_cases h : j = q
    · subst h; simp [hl.1]
    · simp [h]

theorem turns_sites (g : ℕ → ℕ → ℝ) : turns N g = sites g (List.finRange N) := by
  rw [sites_onEach g (List.nodup_finRange N)]
  simp [turns]

theorem sites_congr {g g' : ℕ → ℕ → ℝ} {l : List (Fin N)} (h : ∀ q ∈ l, ∀ i, g q i = g' q i) : sites g l = sites g' l := by
  unfold sites
  congr 1
  refine List.map_congr_left fun q hq => ?_
  unfold site
  rw [h q hq, h q hq, h q hq]

/-- The factors X of some qubits pass their rotations. -/
theorem sites_keep (p : Fin N → Mat2) (hp : ∀ j, p j = X ∨ p j = 1) {m r : ℕ} (hr : r < m) (c : Fin N → ℕ)
    (hc : ∀ j, p j = X → c j = 1) {l : List (Fin N)} (hl : l.Nodup)
    {V : (ℕ → ℕ → ℕ → ℝ) → QState N} (hV : Continuous V) (hb : ∀ (q : Fin N) i t g, V (bumpAt r q i t g) = V g) :
    (3 / 8) ^ (l.map c).sum * meanG m N (fun g => sqEx (onEach p) (V g)) ≤
      meanG m N (fun g => sqEx (onEach p) (sites (g r) l *ᵥ V g)) := by
  induction l with
  | nil => simp [sites]
  | cons q l ih =>
    rw [List.nodup_cons] at hl
    have ih := ih hl.2
    have e : ∀ g : ℕ → ℕ → ℕ → ℝ, sites (g r) (q :: l) *ᵥ V g = site (g r) q *ᵥ sites (g r) l *ᵥ V g := fun g => by
      rw [mulVec_mulVec]
      simp [sites]
    simp only [e]
    have n : 0 ≤ meanG m N (fun g => sqEx (onEach p) (V g)) := meanG_nonneg (sqEx_cts _ hV) fun g => sqEx_nonneg _ _
    rcases hp q with h | h
    · have := site_keep p q h hr (sites_cts r l hV) fun i t g => by
        rw [hb]
        congr 1
        refine sites_congr fun q' hq' i' => ?_
        unfold bumpAt
        rw [if_neg, add_zero]
        rintro ⟨-, h, -⟩
        exact hl.1 (Fin.ext h ▸ hq')
      rw [List.map_cons, List.sum_cons, hc q h, pow_add, pow_one, mul_assoc]
      linarith
    · simp only [site_none p q h]
      refine le_trans (mul_le_mul_of_nonneg_right ?_ n) ih
      exact pow_le_pow_of_le_one (by norm_num) (by norm_num) (by simp)

/-! ## Rings -/

/-- The bit string with a one at `k`, if there is such a bit. -/
def bitAt (N k : ℕ) : Bits N := fun j => if (j : ℕ) = k then 1 else 0

theorem ring_pull_upTo {d : ℕ} (hd : 0 < d) (k : ℕ) (hk : k ≤ N) :
    ∃ σ : Bits N →+ Bits N, timeOrdered ((ringPairs N d k).map (cn N)) = pd σ (fun _ => 1) ∧
      (∀ q, k ≤ q → σ (bitAt N q) = bitAt N q) ∧
      ∀ q < k, q + d < N → σ (bitAt N q + bitAt N (q + d)) = bitAt N q := by
  induction k with
  | zero =>
    refine ⟨AddMonoidHom.id _, ?_, fun _ _ => rfl, fun q h => by omega⟩
    rw [ringPairs, List.range_zero, List.map_nil, List.map_nil, timeOrdered_nil, pd_one]
    rfl
  | succ k ih =>
    obtain ⟨σ, e, s1, s2⟩ := ih (by omega)
    have ht : (k + d) % N < N := Nat.mod_lt _ (by omega)
    let c : Fin N := ⟨k, by omega⟩
    let t : Fin N := ⟨(k + d) % N, ht⟩
    let τ : Bits N →+ Bits N := ⟨⟨fun b => Function.update b t (b t + b c), by
      funext j
      by_cases h : j = t
      · subst h; simp
      · simp [h]⟩, fun a b => by
      funext j
      by_cases h : j = t
      · subst h
        simp only [Function.update_self, Pi.add_apply]
        abel
      · simp [h]⟩
    have hτ : ∀ q, q ≠ k → τ (bitAt N q) = bitAt N q := by
      intro q hq
      show Function.update _ t (_ + _) = _
      have : bitAt N q c = 0 := if_neg fun h => hq h.symm
      rw [this, add_zero, Function.update_eq_self]
    refine ⟨τ.comp σ, ?_, fun q hq => ?_, fun q hq hqd => ?_⟩
    · rw [ringPairs_succ, List.map_append, timeOrdered_append, e, List.map_singleton, timeOrdered_singleton, cn,
        dif_pos ⟨by simp; omega, by simpa using ht⟩, cnot_pd, pd_mul]
      exact pd_ext (fun b => rfl) fun b => by simp
    · rw [AddMonoidHom.comp_apply, s1 q (by omega), hτ q (by omega)]
    · rw [AddMonoidHom.comp_apply]
      by_cases h : q = k
      · subst h
        rw [map_add, s1 q le_rfl, s1 (q + d) (by omega)]
        show Function.update _ t (_ + _) = _
        have ht' : (t : ℕ) = q + d := Nat.mod_eq_of_lt hqd
        funext j
        by_cases hj : j = t
        · subst hj
          rw [Function.update_self]
          simp [bitAt, ht', c]
          rw [if_neg (by omega)]
          rfl
        · rw [Function.update_of_ne hj]
          have : (j : ℕ) ≠ q + d := fun h => hj (Fin.ext (h.trans ht'.symm))
          simp [bitAt, this]
      · rw [s2 q (by omega) hqd, hτ q h]

/-- A ring makes X on one qubit from X on two. -/
theorem ring_pull {d : ℕ} (hd : d = 1 ∨ d = 2) (h3 : 3 ≤ N) :
    ∃ σ : Bits N →+ Bits N, ringOp d (List.finRange N) = pd σ (fun _ => 1) ∧
      ∀ q, q + d < N → σ (bitAt N q + bitAt N (q + d)) = bitAt N q := by
  obtain ⟨σ, e, -, s⟩ := ring_pull_upTo (N := N) (d := d) (by omega) N le_rfl
  refine ⟨σ, ?_, fun q hq => s q (by omega) hq⟩
  rw [ringOp_of_ne (by simp; omega), ringGates_finRange (by omega), e]

/-- The ring makes X on the ones of `x` from X on the ones of `x'`. -/
def Pulls (N d : ℕ) (x x' : Bits N) : Prop := Moves (ringOp d (List.finRange N)) x 0 x' 0

theorem two_add (a b c : Bits N) : (a + b) + (b + c) = a + c := by
  funext j
  show (a j + b j) + (b j + c j) = a j + c j
  rcases fin2 (b j) with h | h <;> rw [h]
  · simp
  · rw [show a j + 1 + (1 + c j) = a j + c j + (1 + 1) by abel, show (1 + 1 : Fin 2) = 0 from rfl, add_zero]

theorem pulls_of {d : ℕ} (hd : d = 1 ∨ d = 2) (h3 : 3 ≤ N) :
    ∃ σ : Bits N →+ Bits N, (∀ x, Pulls N d (σ x) x) ∧ (∀ q, q + d < N → σ (bitAt N q + bitAt N (q + d)) = bitAt N q) ∧
      ∀ q, q + 2 * d < N → σ (bitAt N q + bitAt N (q + 2 * d)) = bitAt N q + bitAt N (q + d) := by
  obtain ⟨σ, e, s⟩ := ring_pull hd h3
  refine ⟨σ, fun x => ?_, s, fun q hq => ?_⟩
  · unfold Pulls
    have hU := ring_unitary d h3 hd
    rw [e] at hU ⊢
    exact pd_moves hU (fun b => map_add σ b x) fun b => by simp [dot]
  · rw [← two_add _ (bitAt N (q + d)), map_add, s q (by omega), show q + 2 * d = q + d + d by omega, s (q + d) (by omega)]

theorem str_zero (x : Bits N) : str x 0 = onEach (fun j => if x j = 1 then X else 1) := by
  unfold str pauli
  simp

theorem sqEx_sign {P : QOp N} {ε : ℂ} (h : ε = 1 ∨ ε = -1) (v : QState N) : sqEx (ε • P) v = sqEx P v := by
  have e : ε • P = ε • P + (0 : ℂ) • 0 := by simp
  unfold sqEx
  rw [e, braket_comb]
  rcases h with rfl | rfl <;> simp

theorem sqEx_ring {d : ℕ} (hd : d = 1 ∨ d = 2) (h3 : 3 ≤ N) {x x' : Bits N} (h : Pulls N d x x') (v : QState N) :
    sqEx (str x 0) (ringOp d (List.finRange N) *ᵥ v) = sqEx (str x' 0) v := by
  obtain ⟨ε, hε, e⟩ := h
  rw [← mul_smul_comm] at e
  rw [← sqEx_sign hε (P := str x' 0)]
  unfold sqEx
  rw [braket_inter e (ring_unitary d h3 hd)]

/-! ## All layers -/

/-- The number of ones. -/
def ones (x : Bits N) : ℕ := ((List.finRange N).map fun j => if x j = 1 then 1 else 0).sum

theorem ones_add (x y : Bits N) : ones (x + y) ≤ ones x + ones y := by
  unfold ones
  rw [← List.sum_map_add]
  refine List.sum_le_sum fun j _ => ?_
  rw [Pi.add_apply]
  rcases fin2 (x j) with h | h <;> rcases fin2 (y j) with h' | h' <;> rw [h, h'] <;> simp

theorem ones_bitAt (k : ℕ) : ones (bitAt N k) ≤ 1 := by
  unfold ones bitAt
  rw [← Fin.sum_univ_def]
  have : ∀ j : Fin N, (if (if (j : ℕ) = k then (1 : Fin 2) else 0) = 1 then 1 else 0) = if (j : ℕ) = k then 1 else 0 := by
    intro j
    split <;> simp_all
  simp only [this]
  rw [← card_filter]
  exact card_le_one.2 fun a ha b hb => Fin.ext (by simp at ha hb; omega)

/-- The factors X pass a layer. -/
theorem turns_keep {m r : ℕ} (hr : r < m) (x : Bits N) {V : (ℕ → ℕ → ℕ → ℝ) → QState N} (hV : Continuous V)
    (hb : ∀ j i t g, V (bumpAt r j i t g) = V g) :
    (3 / 8) ^ ones x * meanG m N (fun g => sqEx (str x 0) (V g)) ≤ meanG m N (fun g => sqEx (str x 0) (turns N (g r) *ᵥ V g)) := by
  simp only [turns_sites, str_zero]
  refine sites_keep _ (fun j => ?_) hr _ (fun j hj => ?_) (List.nodup_finRange N) hV fun q i t g => hb q i t g
  · by_cases h : x j = 1
    · exact Or.inl (if_pos h)
    · exact Or.inr (if_neg h)
  · by_cases h : x j = 1
    · exact if_pos h
    · rw [if_neg h] at hj
      have := congrFun (congrFun hj 0) 0
      simp [Spec.X] at this

/-- A way of X on the ones of `x` back to X on the ones of `x'`; `k` factors pass layers. -/
inductive Route (N : ℕ) (x : Bits N) : List ℕ → Bits N → ℕ → Prop
  | nil {k : ℕ} (h : ones x ≤ k) : Route N x [] x k
  | cons {ds : List ℕ} {d : ℕ} {x' x'' : Bits N} {k l : ℕ} (h : Route N x ds x' k) (hd : d = 1 ∨ d = 2)
      (hp : Pulls N d x' x'') (hl : ones x'' ≤ l) : Route N x (d :: ds) x'' (k + l)

theorem turns_apply_cts (r : ℕ) {V : (ℕ → ℕ → ℕ → ℝ) → QState N} (hV : Continuous V) :
    Continuous (fun g => turns N (g r) *ᵥ V g) := by
  simp only [turns_sites]
  exact sites_cts r _ hV

theorem const_apply_cts (M : QOp N) {V : (ℕ → ℕ → ℕ → ℝ) → QState N} (hV : Continuous V) :
    Continuous (fun g => M *ᵥ V g) := by
  refine continuous_pi fun a => ?_
  simp only [Matrix.mulVec, dotProduct]
  exact continuous_finsetSum _ fun b _ => continuous_const.mul ((continuous_apply b).comp hV)

theorem route_keep {m : ℕ} (h3 : 3 ≤ N) {x : Bits N} : ∀ {ds : List ℕ} {x' : Bits N} {k : ℕ}, Route N x ds x' k →
    ∀ {r : ℕ}, r + ds.length < m → ∀ {V : (ℕ → ℕ → ℕ → ℝ) → QState N}, Continuous V →
    (∀ s j i t g, r ≤ s → V (bumpAt s j i t g) = V g) →
    (3 / 8) ^ k * meanG m N (fun g => sqEx (str x' 0) (V g)) ≤ meanG m N (fun g => sqEx (str x 0) (layered N g r ds *ᵥ V g)) := by
  have pos : ∀ {x : Bits N} {V : (ℕ → ℕ → ℕ → ℝ) → QState N}, Continuous V → 0 ≤ meanG m N (fun g => sqEx (str x 0) (V g)) :=
    fun hV => meanG_nonneg (sqEx_cts _ hV) fun g => sqEx_nonneg _ _
  have weak : ∀ {a b : ℕ}, a ≤ b → ((3 : ℝ) / 8) ^ b ≤ (3 / 8) ^ a := fun h =>
    pow_le_pow_of_le_one (by norm_num) (by norm_num) h
  intro ds x' k hR
  induction hR with
  | nil h =>
    intro r hr V hV hb
    exact (mul_le_mul_of_nonneg_right (weak h) (pos hV)).trans
      (turns_keep (by simpa using hr) x hV fun j i t g => hb r j i t g le_rfl)
  | @cons ds d x' x'' k l h hd hp hl ih =>
    intro r hr V hV hb
    rw [List.length_cons] at hr
    have hT := turns_apply_cts r hV
    have h1 := ih (r := r + 1) (by omega) (const_apply_cts (ringOp d (List.finRange N)) hT) fun s j i t g hs => by
      rw [hb s j i t g (by omega)]
      have : bumpAt s j i t g r = g r := by
        funext a b
        simp only [bumpAt]
        rw [if_neg (by omega), add_zero]
      rw [this]
    simp only [sqEx_ring hd h3 hp] at h1
    have h2 := turns_keep (m := m) (by omega) x'' hV fun j i t g => hb r j i t g le_rfl
    have e : ∀ g, layered N g r (d :: ds) *ᵥ V g = layered N g (r + 1) ds *ᵥ ringOp d (List.finRange N) *ᵥ turns N (g r) *ᵥ V g := by
      intro g
      rw [layered, mulVec_mulVec, mulVec_mulVec, mul_assoc]
    simp only [e]
    refine le_trans ?_ h1
    rw [pow_add, mul_assoc]
    exact mul_le_mul_of_nonneg_left ((mul_le_mul_of_nonneg_right (weak hl) (pos hV)).trans h2) (by positivity)

/-! ## The state that X does not change -/

theorem plus_state (x : Bits N) : sqEx (str x 0) (onEach (fun _ : Fin N => rot Y (Real.pi / 2)) *ᵥ ket0 N) = 1 := by
  have e : str x 0 * onEach (fun _ : Fin N => rot Y (Real.pi / 2)) =
      onEach (fun _ : Fin N => rot Y (Real.pi / 2)) * onEach (fun j => if x j = 1 then Z else 1) := by
    rw [str_zero, onEach_mul, onEach_mul]
    congr 1
    funext j
    by_cases h : x j = 1
    · rw [if_pos h, if_pos h, X_rotY_pos]
    · rw [if_neg h, if_neg h, one_mul, mul_one]
  unfold sqEx
  rw [braket_inter e (onEach_unitary fun _ => IsAxis.u2 (Or.inr (Or.inl rfl)) _)]
  have : braket (onEach fun j => if x j = 1 then Z else 1) (ket0 N) = 1 := by
    unfold braket ket0
    rw [Finset.sum_eq_single 0 (fun a _ ha => by simp [ha]) (by simp)]
    have h1 : ∀ j, (if x j = 1 then Z else 1 : Mat2) 0 0 = 1 := fun j => by split <;> simp [Spec.Z]
    simp [onEach, h1]
  rw [this]
  norm_num

end QTN
