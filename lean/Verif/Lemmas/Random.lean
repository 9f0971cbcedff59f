import Mathlib.MeasureTheory.Integral.IntervalIntegral.Periodic
import Mathlib.MeasureTheory.Integral.DominatedConvergence
import Verif.Lemmas.StringsNet

/-! # Mean values over random weights -/

namespace QTN

open Spec Matrix Finset

variable {N : ℕ}

/-- The mean value of `F` over `n` independent weights, each uniform between `0` and `2π`. -/
noncomputable def mean : ℕ → (List ℝ → ℝ) → ℝ
  | 0, F => F []
  | n + 1, F => (2 * Real.pi)⁻¹ * ∫ θ in (0 : ℝ)..2 * Real.pi, mean n (fun w => F (θ :: w))

/-- The weights with `δ k` added to weight `k`. -/
def shiftBy (δ : ℕ → ℝ) (w : List ℝ) : List ℝ := w.mapIdx (fun k a => a + δ k)

theorem shiftBy_length (δ : ℕ → ℝ) (w : List ℝ) : (shiftBy δ w).length = w.length := by simp [shiftBy]

theorem shiftBy_cons (δ : ℕ → ℝ) (a : ℝ) (w : List ℝ) :
    shiftBy δ (a :: w) = (a + δ 0) :: shiftBy (fun k => δ (k + 1)) w := by
  simp [shiftBy, List.mapIdx_cons]

/-- One weight only. -/
def only (k : ℕ) (t : ℝ) (l : ℕ) : ℝ := if l = k then t else 0

theorem shiftBy_zero (w : List ℝ) : shiftBy (fun _ => 0) w = w := by
  induction w with
  | nil => rfl
  | cons a w ih => rw [shiftBy_cons, ih, add_zero]

theorem mean_congr {n : ℕ} : ∀ {F G : List ℝ → ℝ}, (∀ w, w.length = n → F w = G w) → mean n F = mean n G := by
  induction n with
  | zero => exact fun h => h [] rfl
  | succ n ih =>
    intro F G h
    unfold mean
    congr 1
    refine intervalIntegral.integral_congr fun θ _ => ?_
    exact ih fun w hw => h _ (by simp [hw])

theorem mean_neg {n : ℕ} : ∀ F : List ℝ → ℝ, mean n (fun w => -F w) = -mean n F := by
  induction n with
  | zero => exact fun F => rfl
  | succ n ih =>
    intro F
    unfold mean
    simp only [ih, intervalIntegral.integral_neg, mul_neg]

theorem mean_const {n : ℕ} (c : ℝ) : mean n (fun _ => c) = c := by
  induction n with
  | zero => rfl
  | succ n ih =>
    unfold mean
    simp only [ih, intervalIntegral.integral_const, sub_zero, smul_eq_mul]
    rw [← mul_assoc, inv_mul_cancel₀ (by positivity), one_mul]

/-- A mean value over whole periods does not change when the weights are shifted. -/
theorem mean_shift {n : ℕ} : ∀ (δ : ℕ → ℝ) (F : List ℝ → ℝ),
    (∀ k < n, ∀ w, w.length = n → F (shiftBy (only k (2 * Real.pi)) w) = F w) →
    mean n (fun w => F (shiftBy δ w)) = mean n F := by
  induction n with
  | zero => exact fun δ F _ => rfl
  | succ n ih =>
    intro δ F h
    unfold mean
    congr 1
    have e : ∀ θ, mean n (fun w => F (shiftBy δ (θ :: w))) = mean n (fun w => F ((θ + δ 0) :: w)) := by
      intro θ
      simp only [shiftBy_cons]
      refine ih (fun k => δ (k + 1)) (fun w => F ((θ + δ 0) :: w)) fun k hk w hw => ?_
      have := h (k + 1) (by omega) ((θ + δ 0) :: w) (by simp [hw])
      rw [shiftBy_cons] at this
      have e0 : only (k + 1) (2 * Real.pi) 0 = 0 := if_neg (by omega)
      have e1 : (fun l => only (k + 1) (2 * Real.pi) (l + 1)) = only k (2 * Real.pi) := by
        funext l
        simp [only]
      rwa [e0, e1, add_zero] at this
    simp only [e]
    rw [intervalIntegral.integral_comp_add_right (fun θ => mean n (fun w => F (θ :: w))) (δ 0)]
    have hp : Function.Periodic (fun θ => mean n (fun w => F (θ :: w))) (2 * Real.pi) := by
      intro θ
      refine mean_congr fun w hw => ?_
      have := h 0 (by omega) (θ :: w) (by simp [hw])
      rw [shiftBy_cons] at this
      simpa [only, shiftBy_zero] using this
    have := hp.intervalIntegral_add_eq (δ 0) 0
    rw [zero_add] at this ⊢
    rw [← this, add_comm]

/-- A value that changes its sign when the weights are shifted has mean zero. -/
theorem mean_odd {n : ℕ} (δ : ℕ → ℝ) (F : List ℝ → ℝ)
    (h : ∀ k < n, ∀ w, w.length = n → F (shiftBy (only k (2 * Real.pi)) w) = F w)
    (hs : ∀ w, w.length = n → F (shiftBy δ w) = -F w) : mean n F = 0 := by
  have h1 := mean_shift δ F h
  rw [mean_congr hs, mean_neg] at h1
  linarith

/-! ## Sums and bounds -/

theorem mean_continuous {n : ℕ} : ∀ {X : Type} [TopologicalSpace X] (G : X → List ℝ → ℝ),
    Continuous (fun p : X × (Fin n → ℝ) => G p.1 (List.ofFn p.2)) → Continuous (fun x => mean n (G x)) := by
  induction n with
  | zero =>
    intro X _ G h
    have e : (fun x => mean 0 (G x)) = (fun p : X × (Fin 0 → ℝ) => G p.1 (List.ofFn p.2)) ∘ fun x => (x, Fin.elim0) := by
      funext x
      simp [mean]
    rw [e]
    exact h.comp (by fun_prop)
  | succ n ih =>
    intro X _ G h
    unfold mean
    refine continuous_const.mul (intervalIntegral.continuous_parametric_intervalIntegral_of_continuous' ?_ _ _)
    refine ih (fun (q : X × ℝ) w => G q.1 (q.2 :: w)) ?_
    have e : (fun p : (X × ℝ) × (Fin n → ℝ) => G p.1.1 (p.1.2 :: List.ofFn p.2)) =
        (fun p : X × (Fin (n + 1) → ℝ) => G p.1 (List.ofFn p.2)) ∘ fun p => (p.1.1, Fin.cons p.1.2 p.2) := by
      funext p
      simp [List.ofFn_succ]
    rw [e]
    refine h.comp (Continuous.prodMk (by fun_prop) ?_)
    refine continuous_pi fun k => ?_
    refine Fin.cases ?_ (fun k => ?_) k
    · simp only [Fin.cons_zero]; fun_prop
    · simp only [Fin.cons_succ]; fun_prop

/-- The value depends continuously on `n` weights. -/
def Cts (n : ℕ) (F : List ℝ → ℝ) : Prop := Continuous (fun v : Fin n → ℝ => F (List.ofFn v))

theorem Cts.head {n : ℕ} {F : List ℝ → ℝ} (h : Cts (n + 1) F) (θ : ℝ) : Cts n (fun w => F (θ :: w)) := by
  have e : (fun v : Fin n → ℝ => F (θ :: List.ofFn v)) =
      (fun v : Fin (n + 1) → ℝ => F (List.ofFn v)) ∘ fun v => Fin.cons θ v := by
    funext p
    simp [List.ofFn_succ]
  unfold Cts
  rw [e]
  refine h.comp (continuous_pi fun k => ?_)
  refine Fin.cases ?_ (fun k => ?_) k
  · simp only [Fin.cons_zero]; fun_prop
  · simp only [Fin.cons_succ]; fun_prop

theorem Cts.mean_head {n : ℕ} {F : List ℝ → ℝ} (h : Cts (n + 1) F) : Continuous (fun θ => mean n (fun w => F (θ :: w))) := by
  refine mean_continuous (fun θ w => F (θ :: w)) ?_
  have e : (fun p : ℝ × (Fin n → ℝ) => F (p.1 :: List.ofFn p.2)) =
      (fun v : Fin (n + 1) → ℝ => F (List.ofFn v)) ∘ fun p => Fin.cons p.1 p.2 := by
    funext p
    simp [List.ofFn_succ]
  rw [e]
  refine h.comp (continuous_pi fun k => ?_)
  refine Fin.cases ?_ (fun k => ?_) k
  · simp only [Fin.cons_zero]; fun_prop
  · simp only [Fin.cons_succ]; fun_prop

theorem Cts.shift {n : ℕ} {F : List ℝ → ℝ} (h : Cts n F) (δ : ℕ → ℝ) : Cts n (fun w => F (shiftBy δ w)) := by
  have e : (fun v : Fin n → ℝ => F (shiftBy δ (List.ofFn v))) =
      (fun v : Fin n → ℝ => F (List.ofFn v)) ∘ fun v k => v k + δ k := by
    funext v
    refine congrArg F (List.ext_getElem (by simp [shiftBy]) fun k h1 h2 => ?_)
    simp [shiftBy]
  unfold Cts
  rw [e]
  exact h.comp (by fun_prop)

theorem mean_add {n : ℕ} : ∀ {F G : List ℝ → ℝ}, Cts n F → Cts n G → mean n (fun w => F w + G w) = mean n F + mean n G := by
  induction n with
  | zero => exact fun _ _ => rfl
  | succ n ih =>
    intro F G hF hG
    unfold mean
    simp only [ih (hF.head _) (hG.head _)]
    rw [intervalIntegral.integral_add (hF.mean_head.intervalIntegrable _ _) (hG.mean_head.intervalIntegrable _ _), mul_add]

theorem mean_mono {n : ℕ} : ∀ {F G : List ℝ → ℝ}, Cts n F → Cts n G → (∀ w, w.length = n → F w ≤ G w) → mean n F ≤ mean n G := by
  induction n with
  | zero => exact fun _ _ h => h [] rfl
  | succ n ih =>
    intro F G hF hG h
    unfold mean
    refine mul_le_mul_of_nonneg_left ?_ (by positivity)
    refine intervalIntegral.integral_mono_on (by positivity) (hF.mean_head.intervalIntegrable _ _)
      (hG.mean_head.intervalIntegrable _ _) fun θ _ => ?_
    exact ih (hF.head θ) (hG.head θ) fun w hw => h _ (by simp [hw])

theorem mean_pos {n : ℕ} : ∀ {F : List ℝ → ℝ}, Cts n F → (∀ w, w.length = n → 0 ≤ F w) → 0 < F (List.replicate n 0) →
    0 < mean n F := by
  induction n with
  | zero => exact fun _ _ h => h
  | succ n ih =>
    intro F hF h h0
    unfold mean
    refine mul_pos (by positivity) ?_
    refine intervalIntegral.integral_pos (by positivity) hF.mean_head.continuousOn (fun θ _ => ?_)
      ⟨0, ⟨le_rfl, by positivity⟩, ih (hF.head 0) (fun w hw => h _ (by simp [hw])) h0⟩
    have := mean_mono (n := n) (F := fun _ => 0) continuous_const (hF.head θ) fun w hw => h _ (by simp [hw])
    rwa [mean_const] at this

/-! ## The angles of a list of weights -/

/-- The angle `i` of qubit `j` in layer `r`. -/
noncomputable def angle (N : ℕ) (w : List ℝ) (r j i : ℕ) : ℝ := w.getD (3 * N * r + 3 * j + i) 0

theorem index_split (k : ℕ) : 3 * N * (k / (3 * N)) + 3 * (k % (3 * N) / 3) + k % 3 = k := by
  have h1 := Nat.div_add_mod k (3 * N)
  have h2 := Nat.div_add_mod (k % (3 * N)) 3
  have h3 : k % (3 * N) % 3 = k % 3 := Nat.mod_mul_right_mod k 3 N
  omega

theorem weightsFor_getElem (m : ℕ) (g : ℕ → ℕ → ℕ → ℝ) {k : ℕ} (h : k < (weightsFor m N g).length) :
    (weightsFor m N g)[k] = g (k / (3 * N)) (k % (3 * N) / 3) (k % 3) := by simp [weightsFor]

theorem weightsFor_angle {m : ℕ} {w : List ℝ} (hw : w.length = 3 * N * m) : weightsFor m N (angle N w) = w := by
  refine List.ext_getElem (by rw [weightsFor_length, hw]) fun k h1 h2 => ?_
  rw [weightsFor_getElem]
  unfold angle
  rw [index_split, List.getD_eq_getElem _ _ h2]

theorem shiftBy_weightsFor (m : ℕ) (g : ℕ → ℕ → ℕ → ℝ) (δ : ℕ → ℝ) :
    shiftBy δ (weightsFor m N g) = weightsFor m N (fun r j i => g r j i + δ (3 * N * r + 3 * j + i)) := by
  refine List.ext_getElem (by rw [shiftBy_length, weightsFor_length, weightsFor_length]) fun k h1 h2 => ?_
  have e : (shiftBy δ (weightsFor m N g))[k] = (weightsFor m N g)[k]'(by rwa [shiftBy_length] at h1) + δ k := by
    simp [shiftBy]
  rw [e, weightsFor_getElem, weightsFor_getElem, index_split]

/-! ## What a shift of the angles does -/

theorem rot_full (P : Mat2) (a : ℝ) : rot P (a + 2 * Real.pi) = (-1 : ℂ) • rot P a := by
  unfold rot
  rw [show (a + 2 * Real.pi) / 2 = a / 2 + Real.pi by ring, Real.cos_add_pi, Real.sin_add_pi]
  push_cast
  module

/-- The two angles differ by a full turn at most. -/
def Turned (a b : ℝ) : Prop := b = a ∨ b = a + 2 * Real.pi

theorem rot_turned (P : Mat2) {a b : ℝ} (h : Turned a b) : ∃ ε : ℂ, (ε = 1 ∨ ε = -1) ∧ rot P b = ε • rot P a := by
  rcases h with rfl | rfl
  · exact ⟨1, Or.inl rfl, (one_smul _ _).symm⟩
  · exact ⟨-1, Or.inr rfl, rot_full P a⟩

theorem signs_mul {ε ε' : ℂ} (h : ε = 1 ∨ ε = -1) (h' : ε' = 1 ∨ ε' = -1) : ε * ε' = 1 ∨ ε * ε' = -1 := by
  rcases h with rfl | rfl <;> rcases h' with rfl | rfl <;> simp

theorem signs_prod {ι : Type} (s : Finset ι) (c : ι → ℂ) (h : ∀ j, c j = 1 ∨ c j = -1) :
    ∏ j ∈ s, c j = 1 ∨ ∏ j ∈ s, c j = -1 := by
  classical
  induction s using Finset.induction_on with
  | empty => simp
  | insert j s hj ih => rw [prod_insert hj]; exact signs_mul (h j) ih

theorem turns_turned {g g' : ℕ → ℕ → ℝ} (h : ∀ j < N, ∀ i < 3, Turned (g j i) (g' j i)) :
    ∃ ε : ℂ, (ε = 1 ∨ ε = -1) ∧ turns N g' = ε • turns N g := by
  have hj : ∀ j : Fin N, ∃ ε : ℂ, (ε = 1 ∨ ε = -1) ∧ rot Y (g' j 2) * rot Z (g' j 1) * rot Y (g' j 0) =
      ε • (rot Y (g j 2) * rot Z (g j 1) * rot Y (g j 0)) := by
    intro j
    obtain ⟨a, ha, ea⟩ := rot_turned Y (h j j.2 0 (by omega))
    obtain ⟨b, hb, eb⟩ := rot_turned Z (h j j.2 1 (by omega))
    obtain ⟨c, hc, ec⟩ := rot_turned Y (h j j.2 2 (by omega))
    refine ⟨c * b * a, signs_mul (signs_mul hc hb) ha, ?_⟩
    rw [ea, eb, ec]
    simp only [Matrix.smul_mul, Matrix.mul_smul, smul_smul]
    congr 1
    ring
  choose c hc e using hj
  refine ⟨∏ j, c j, signs_prod _ c hc, ?_⟩
  unfold turns
  rw [← onEach_smul_prod]
  congr 1
  funext j
  exact e j

theorem layered_turned {g g' : ℕ → ℕ → ℕ → ℝ} (ds : List ℕ) : ∀ r,
    (∀ s, s ≤ r + ds.length → ∀ j < N, ∀ i < 3, Turned (g s j i) (g' s j i)) →
    ∃ ε : ℂ, (ε = 1 ∨ ε = -1) ∧ layered N g' r ds = ε • layered N g r ds := by
  induction ds with
  | nil => exact fun r h => turns_turned (h r (by simp))
  | cons d ds ih =>
    intro r h
    obtain ⟨a, ha, ea⟩ := ih (r + 1) fun s hs => h s (by simp only [List.length_cons]; omega)
    obtain ⟨b, hb, eb⟩ := turns_turned (h r (by omega))
    refine ⟨a * b, signs_mul ha hb, ?_⟩
    unfold layered
    rw [ea, eb]
    simp only [Matrix.smul_mul, Matrix.mul_smul, smul_smul]
    congr 1
    ring

/-- All layers and rings up to the last layer, which is left out. -/
noncomputable def body (N : ℕ) (g : ℕ → ℕ → ℕ → ℝ) : ℕ → List ℕ → QOp N
  | _, [] => 1
  | r, d :: ds => body N g (r + 1) ds * (ringOp d (List.finRange N) * turns N (g r))

theorem layered_body (g : ℕ → ℕ → ℕ → ℝ) (ds : List ℕ) : ∀ r,
    layered N g r ds = turns N (g (r + ds.length)) * body N g r ds := by
  induction ds with
  | nil => exact fun r => by simp [layered, body]
  | cons d ds ih =>
    intro r
    simp only [layered, body, ih, List.length_cons, mul_assoc]
    rw [show r + 1 + ds.length = r + (ds.length + 1) by omega]

theorem turns_congr {g g' : ℕ → ℕ → ℝ} (h : ∀ j < N, ∀ i < 3, g j i = g' j i) : turns N g = turns N g' := by
  unfold turns
  congr 1
  funext j
  rw [h j j.2 0 (by omega), h j j.2 1 (by omega), h j j.2 2 (by omega)]

theorem body_congr {g g' : ℕ → ℕ → ℕ → ℝ} (ds : List ℕ) : ∀ r,
    (∀ s < r + ds.length, ∀ j < N, ∀ i < 3, g s j i = g' s j i) → body N g r ds = body N g' r ds := by
  induction ds with
  | nil => exact fun r _ => rfl
  | cons d ds ih =>
    intro r h
    unfold body
    rw [ih (r + 1) fun s hs => h s (by simp only [List.length_cons]; omega),
      turns_congr (h r (by simp only [List.length_cons]; omega))]

theorem layered_congr {g g' : ℕ → ℕ → ℕ → ℝ} (ds : List ℕ) (r : ℕ)
    (h : ∀ s ≤ r + ds.length, ∀ j < N, ∀ i < 3, g s j i = g' s j i) : layered N g r ds = layered N g' r ds := by
  rw [layered_body, layered_body, turns_congr (h _ le_rfl), body_congr ds r fun s hs => h s (by omega)]

theorem rest_of_angles {g g' : ℕ → ℕ → ℕ → ℝ} (ds : List ℕ) : ∀ r,
    (∀ s > r, s ≤ r + ds.length → ∀ j < N, ∀ i < 3, g s j i = g' s j i) → rest N g r ds = rest N g' r ds := by
  induction ds with
  | nil => exact fun r _ => rfl
  | cons d ds ih =>
    intro r h
    unfold rest
    rw [ih (r + 1) fun s hs hs' => h s (by omega) (by simp only [List.length_cons]; omega),
      turns_congr (h (r + 1) (by omega) (by simp only [List.length_cons]; omega))]

/-- Shifting the last angle of one qubit turns this qubit at the end. -/
theorem last_turn {g g' : ℕ → ℕ → ℕ → ℝ} (ds : List ℕ) (q : Fin N) (t : ℝ)
    (h : ∀ s ≤ ds.length, ∀ j < N, ∀ i < 3,
      g' s j i = g s j i + if s = ds.length ∧ j = q ∧ i = 2 then t else 0) :
    layered N g' 0 ds = onQubit q (rot Y t) * layered N g 0 ds := by
  rw [layered_body, layered_body, ← mul_assoc, zero_add]
  congr 1
  · rw [← onEach_update_one]
    unfold turns
    rw [onEach_mul]
    congr 1
    funext j
    have h0 := h ds.length le_rfl j j.2 0 (by omega)
    have h1 := h ds.length le_rfl j j.2 1 (by omega)
    have h2 := h ds.length le_rfl j j.2 2 (by omega)
    simp at h0 h1
    rw [h0, h1, h2]
    by_cases hj : j = q
    · subst hj
      rw [Function.update_self, if_pos ⟨rfl, rfl, rfl⟩, add_comm, ← rot_mul Y_sq]
      simp only [mul_assoc]
    · rw [Function.update_of_ne hj, one_mul, if_neg (by rintro ⟨-, h, -⟩; exact hj (Fin.ext h)), add_zero]
  · refine body_congr ds 0 fun s hs j hj i hi => ?_
    rw [h s (by omega) j hj i hi, if_neg (by omega), add_zero]

/-- Shifting the first angles of the qubits is the same as turning them before. -/
theorem first_turn {g g' : ℕ → ℕ → ℕ → ℝ} (ds : List ℕ) (t : ℕ → ℝ)
    (h : ∀ s ≤ ds.length, ∀ j < N, ∀ i < 3, g' s j i = g s j i + if s = 0 ∧ i = 0 then t j else 0) :
    layered N g' 0 ds = layered N g 0 ds * onEach (fun j : Fin N => rot Y (t j)) := by
  rw [layered_rest, layered_rest, mul_assoc, rest_of_angles (g' := g) ds 0 fun s hs hs' j hj i hi => by
    rw [h s (by omega) j hj i hi, if_neg (by omega), add_zero]]
  congr 1
  unfold turns
  rw [onEach_mul]
  congr 1
  funext j
  have h0 := h 0 (by omega) j j.2 0 (by omega)
  have h1 := h 0 (by omega) j j.2 1 (by omega)
  have h2 := h 0 (by omega) j j.2 2 (by omega)
  simp at h0 h1 h2
  rw [h0, h1, h2, ← rot_mul Y_sq]
  simp only [mul_assoc]

/-! ## Continuity -/

theorem angle_cts {n : ℕ} (r j i : ℕ) : Continuous (fun v : Fin n → ℝ => angle N (List.ofFn v) r j i) := by
  unfold angle
  by_cases h : 3 * N * r + 3 * j + i < n
  · have e : (fun v : Fin n → ℝ => (List.ofFn v).getD (3 * N * r + 3 * j + i) 0) = fun v => v ⟨_, h⟩ := by
      funext v
      rw [List.getD_eq_getElem _ _ (by simpa using h)]
      simp
    rw [e]
    fun_prop
  · have e : (fun v : Fin n → ℝ => (List.ofFn v).getD (3 * N * r + 3 * j + i) 0) = fun _ => 0 := by
      funext v
      rw [List.getD_eq_default _ _ (by simpa using h)]
    rw [e]
    fun_prop

theorem rot_cts {X : Type} [TopologicalSpace X] (P : Mat2) {f : X → ℝ} (h : Continuous f) (a b : Fin 2) :
    Continuous (fun x => rot P (f x) a b) := by
  unfold rot
  simp only [Matrix.sub_apply, Matrix.smul_apply, smul_eq_mul]
  fun_prop

theorem turns_cts {X : Type} [TopologicalSpace X] {g : X → ℕ → ℕ → ℝ} (h : ∀ j i, Continuous (fun x => g x j i)) (a b : Bits N) :
    Continuous (fun x => turns N (g x) a b) := by
  unfold turns onEach
  refine continuous_finsetProd _ fun j _ => ?_
  simp only [Matrix.mul_apply]
  refine continuous_finsetSum _ fun k _ => (continuous_finsetSum _ fun l _ => ?_).mul (rot_cts Y (h _ _) _ _)
  exact (rot_cts Y (h _ _) _ _).mul (rot_cts Z (h _ _) _ _)

theorem layered_cts {X : Type} [TopologicalSpace X] {g : X → ℕ → ℕ → ℕ → ℝ} (h : ∀ r j i, Continuous (fun x => g x r j i))
    (ds : List ℕ) : ∀ (r : ℕ) (a b : Bits N), Continuous (fun x => layered N (g x) r ds a b) := by
  induction ds with
  | nil => exact fun r a b => turns_cts (h r) a b
  | cons d ds ih =>
    intro r a b
    unfold layered
    simp only [Matrix.mul_apply]
    exact continuous_finsetSum _ fun k _ => (ih _ _ _).mul (continuous_finsetSum _ fun l _ =>
      continuous_const.mul (turns_cts (h r) _ _))

theorem braket_cts {X : Type} [TopologicalSpace X] {U : X → QOp N} (h : ∀ a b, Continuous (fun x => U x a b)) (O : QOp N)
    (v : QState N) : Continuous (fun x => (braket O (U x *ᵥ v)).re) := by
  unfold braket
  refine Complex.continuous_re.comp (continuous_finsetSum _ fun a _ => continuous_finsetSum _ fun b _ => ?_)
  have hv : ∀ a, Continuous (fun x => (U x *ᵥ v) a) := fun a => by
    simp only [Matrix.mulVec, dotProduct]
    exact continuous_finsetSum _ fun c _ => (h a c).mul continuous_const
  exact ((hv a).star.mul continuous_const).mul (hv b)

/-! ## Weights that are all zero -/

theorem ketZero_cnot {c t : Fin N} : controlled [c] t X *ᵥ ket0 N = ket0 N := by
  ext a
  simp only [Matrix.mulVec, dotProduct, ket0, mul_ite, mul_one, mul_zero, Finset.sum_ite_eq', Finset.mem_univ, if_true]
  simp [controlled, Matrix.one_apply]

theorem ketZero_ordered : ∀ l : List (QOp N), (∀ M ∈ l, M *ᵥ ket0 N = ket0 N) → timeOrdered l *ᵥ ket0 N = ket0 N := by
  intro l
  induction l with
  | nil => intro _; rw [timeOrdered_nil, Matrix.one_mulVec]
  | cons M l ih =>
    intro h
    rw [timeOrdered_cons, ← Matrix.mulVec_mulVec, h M List.mem_cons_self]
    exact ih fun M' hM => h M' (List.mem_cons_of_mem _ hM)

theorem ketZero_ring (d : ℕ) (ws : List (Fin N)) : ringOp d ws *ᵥ ket0 N = ket0 N := by
  unfold ringOp
  split
  · exact ketZero_cnot
  · refine ketZero_ordered _ fun M hM => ?_
    unfold ringGates at hM
    obtain ⟨i, rfl⟩ := (List.mem_ofFn' _ _).1 hM
    exact ketZero_cnot

theorem turns_zero : turns N (fun _ _ => 0) = 1 := by
  unfold turns
  simp only [rot_zero, mul_one, onEach_one]

theorem layered_zero (ds : List ℕ) : ∀ r, layered N (fun _ _ _ => 0) r ds *ᵥ ket0 N = ket0 N := by
  induction ds with
  | nil => intro r; unfold layered; rw [turns_zero, Matrix.one_mulVec]
  | cons d ds ih =>
    intro r
    unfold layered
    rw [turns_zero, mul_one, ← Matrix.mulVec_mulVec, ketZero_ring, ih]

end QTN
