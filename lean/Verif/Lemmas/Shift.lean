import Verif.SpecGrad
import Verif.Lemmas.Items
import Verif.Lemmas.Expect
import Mathlib.Analysis.SpecialFunctions.Trigonometric.Deriv

/-! # The parameter-shift rule -/

namespace QTN

open Finset Spec Matrix

variable {N : ℕ}

/-! ## Operators that are trigonometric in a parameter -/

/-- `F x = cos(x/2) F(0) + sin(x/2) F(π)`. -/
def Trig {V : Type} [AddCommGroup V] [Module ℂ V] (F : ℝ → V) : Prop :=
  ∃ C S : V, ∀ x, F x = (Real.cos (x / 2) : ℂ) • C + (Real.sin (x / 2) : ℂ) • S

variable {V W : Type} [AddCommGroup V] [Module ℂ V] [AddCommGroup W] [Module ℂ W]

theorem Trig.map {F : ℝ → V} (h : Trig F) (f : V →ₗ[ℂ] W) : Trig (fun x => f (F x)) := by
  obtain ⟨C, S, h⟩ := h
  exact ⟨f C, f S, fun x => by beta_reduce; rw [h, map_add, map_smul, map_smul]⟩

theorem Trig.congr {F G : ℝ → V} (h : Trig F) (e : ∀ x, G x = F x) : Trig G := by
  obtain ⟨C, S, h⟩ := h
  exact ⟨C, S, fun x => by rw [e, h]⟩

theorem Trig.mul_left {n : Type} [Fintype n] {F : ℝ → Matrix n n ℂ} (h : Trig F) (A : Matrix n n ℂ) :
    Trig (fun x => A * F x) := by
  obtain ⟨C, S, h⟩ := h
  exact ⟨A * C, A * S, fun x => by beta_reduce; rw [h, Matrix.mul_add, Matrix.mul_smul, Matrix.mul_smul]⟩

theorem Trig.mul_right {n : Type} [Fintype n] {F : ℝ → Matrix n n ℂ} (h : Trig F) (A : Matrix n n ℂ) :
    Trig (fun x => F x * A) := by
  obtain ⟨C, S, h⟩ := h
  exact ⟨C * A, S * A, fun x => by beta_reduce; rw [h, Matrix.add_mul, Matrix.smul_mul, Matrix.smul_mul]⟩

theorem trig_rot (P : Mat2) : Trig (rot P) :=
  ⟨1, -(Complex.I • P), fun x => by
    unfold rot
    rw [smul_neg, smul_smul, mul_comm Complex.I, sub_eq_add_neg]⟩

theorem trig_rot2 (P : Mat2) (p q : Fin N) : Trig (fun x => rot2 P x p q) :=
  ⟨1, -(Complex.I • (onQubit p P * onQubit q P)), fun x => by
    unfold rot2
    beta_reduce
    rw [smul_neg, smul_smul, mul_comm Complex.I, sub_eq_add_neg]⟩

theorem onQubit_add (i : Fin N) (a b : Mat2) : onQubit i (a + b) = onQubit i a + onQubit i b := by
  funext x y
  show onQubit i (a + b) x y = onQubit i a x y + onQubit i b x y
  unfold onQubit
  split_ifs
  · rfl
  · simp

theorem onQubit_smul' (i : Fin N) (c : ℂ) (a : Mat2) : onQubit i (c • a) = c • onQubit i a := by
  funext x y
  show onQubit i (c • a) x y = c • onQubit i a x y
  unfold onQubit
  split_ifs
  · rfl
  · simp

theorem Trig.onQubit {F : ℝ → Mat2} (h : Trig F) (i : Fin N) : Trig (fun x => Spec.onQubit i (F x)) := by
  obtain ⟨C, S, h⟩ := h
  exact ⟨Spec.onQubit i C, Spec.onQubit i S, fun x => by
    beta_reduce
    rw [h, onQubit_add, onQubit_smul', onQubit_smul']⟩

theorem exp_half (x : ℝ) : Complex.exp (((x / 2 : ℝ) : ℂ) * Complex.I) =
    (Real.cos (x / 2) : ℂ) + (Real.sin (x / 2) : ℂ) * Complex.I := by
  rw [Complex.exp_mul_I, Complex.ofReal_cos, Complex.ofReal_sin]

theorem exp_half_neg (x : ℝ) : Complex.exp (-((x / 2 : ℝ) : ℂ) * Complex.I) =
    (Real.cos (x / 2) : ℂ) - (Real.sin (x / 2) : ℂ) * Complex.I := by
  rw [Complex.exp_mul_I, Complex.cos_neg, Complex.sin_neg, Complex.ofReal_cos, Complex.ofReal_sin]
  ring

/-- The U3 matrix with the phases written with half angles. -/
theorem U3_half (θ φ l : ℝ) : U3 θ φ l =
    !![Complex.exp (-((φ / 2 : ℝ) : ℂ) * Complex.I) * Complex.exp (-((l / 2 : ℝ) : ℂ) * Complex.I) * (Real.cos (θ / 2) : ℂ),
       -(Complex.exp (-((φ / 2 : ℝ) : ℂ) * Complex.I) * Complex.exp (((l / 2 : ℝ) : ℂ) * Complex.I) * (Real.sin (θ / 2) : ℂ));
       Complex.exp (((φ / 2 : ℝ) : ℂ) * Complex.I) * Complex.exp (-((l / 2 : ℝ) : ℂ) * Complex.I) * (Real.sin (θ / 2) : ℂ),
       Complex.exp (((φ / 2 : ℝ) : ℂ) * Complex.I) * Complex.exp (((l / 2 : ℝ) : ℂ) * Complex.I) * (Real.cos (θ / 2) : ℂ)] := by
  unfold U3
  have key : ∀ z : ℂ, Complex.exp (-((φ + l) / 2 : ℝ) * Complex.I) * (Complex.exp z) =
      Complex.exp (-((φ + l) / 2 : ℝ) * Complex.I + z) := fun z => (Complex.exp_add _ _).symm
  ext i j
  fin_cases i <;> fin_cases j <;> simp only [Matrix.smul_apply, smul_eq_mul, Fin.zero_eta, Fin.mk_one, Fin.isValue,
    Matrix.of_apply, Matrix.cons_val', Matrix.cons_val_zero, Matrix.cons_val_one, Matrix.cons_val_fin_one]
  · rw [← Complex.exp_add]
    congr 2
    push_cast; ring
  · rw [← Complex.exp_add, neg_mul (Complex.exp _), mul_neg, ← mul_assoc, ← Complex.exp_add]
    congr 3
    push_cast; ring
  · rw [← Complex.exp_add, ← mul_assoc, ← Complex.exp_add]
    congr 2
    push_cast; ring
  · rw [← Complex.exp_add, ← mul_assoc, ← Complex.exp_add]
    congr 2
    push_cast; ring

theorem trig_U3_theta (φ l : ℝ) : Trig (fun x => U3 x φ l) := by
  refine ⟨U3 0 φ l, U3 Real.pi φ l, fun x => ?_⟩
  simp only [U3_half]
  ext i j
  fin_cases i <;> fin_cases j <;> simp <;> ring

theorem trig_U3_phi (θ l : ℝ) : Trig (fun x => U3 θ x l) := by
  refine ⟨U3 θ 0 l, U3 θ Real.pi l, fun x => ?_⟩
  simp only [U3_half, exp_half, exp_half_neg]
  ext i j
  fin_cases i <;> fin_cases j <;> simp <;> ring

theorem trig_U3_lambda (θ φ : ℝ) : Trig (fun x => U3 θ φ x) := by
  refine ⟨U3 θ φ 0, U3 θ φ Real.pi, fun x => ?_⟩
  simp only [U3_half, exp_half, exp_half_neg]
  ext i j
  fin_cases i <;> fin_cases j <;> simp <;> ring

/-! ## Layers -/

theorem seqRot_set_ge (axes : List Mat2) (p : List ℝ) (i : ℕ) (x : ℝ) (h : axes.length ≤ i) :
    seqRot axes (p.set i x) = seqRot axes p := by
  induction axes generalizing p i with
  | nil => simp [seqRot]
  | cons a axes ih =>
    cases p with
    | nil => simp
    | cons y p =>
      cases i with
      | zero => simp at h
      | succ i =>
        simp only [List.set_cons_succ, seqRot]
        rw [ih p i (by simpa using h)]

theorem trig_seqRot (axes : List Mat2) (p : List ℝ) (i : ℕ) (h : i < axes.length) (hp : i < p.length) :
    Trig (fun x => seqRot axes (p.set i x)) := by
  induction axes generalizing p i with
  | nil => simp at h
  | cons a axes ih =>
    cases p with
    | nil => simp at hp
    | cons y p =>
      cases i with
      | zero =>
        simp only [List.set_cons_zero, seqRot]
        exact (trig_rot a).mul_left _
      | succ i =>
        simp only [List.set_cons_succ, seqRot]
        exact (ih p i (by simpa using h) (by simpa using hp)).mul_right _

theorem onEach_update (g : Fin N → Mat2) (j : Fin N) (m : Mat2) (a b : Bits N) :
    onEach (Function.update g j m) a b = m (a j) (b j) * ∏ i ∈ univ.erase j, g i (a i) (b i) := by
  unfold onEach
  rw [← Finset.mul_prod_erase univ _ (Finset.mem_univ j), Function.update_self]
  congr 1
  refine Finset.prod_congr rfl fun i hi => ?_
  rw [Function.update_of_ne (Finset.ne_of_mem_erase hi)]

theorem Trig.onEach {F : ℝ → Mat2} (h : Trig F) (g : Fin N → Mat2) (j : Fin N) :
    Trig (fun x => Spec.onEach (Function.update g j (F x))) := by
  obtain ⟨C, S, h⟩ := h
  refine ⟨Spec.onEach (Function.update g j C), Spec.onEach (Function.update g j S), fun x => ?_⟩
  funext a b
  beta_reduce
  rw [Matrix.add_apply, Matrix.smul_apply, Matrix.smul_apply, onEach_update, onEach_update, onEach_update, h]
  simp only [Matrix.add_apply, Matrix.smul_apply, smul_eq_mul]
  ring

theorem drop_set_lt (p : List ℝ) (i n : ℕ) (x : ℝ) (h : i < n) : (p.set i x).drop n = p.drop n := by
  rw [List.drop_set, if_pos h]

theorem drop_set_ge (p : List ℝ) (i n : ℕ) (x : ℝ) (h : n ≤ i) :
    (p.set i x).drop n = (p.drop n).set (i - n) x := by
  rw [List.drop_set, if_neg (by omega)]

theorem trig_layerOp (axes : List Mat2) (ws : List (Fin N)) (hw : ws.Nodup) (p : List ℝ) (i : ℕ)
    (hi : i < axes.length * ws.length) (hp : i < p.length) : Trig (fun x => layerOp axes ws (p.set i x)) := by
  have hk : 0 < axes.length := Nat.pos_of_mul_pos_right (by omega : 0 < axes.length * ws.length)
  have hq : i / axes.length < ws.length := Nat.div_lt_of_lt_mul hi
  set q := i / axes.length with hqd
  set j0 := ws[q] with hj0
  have hidx : ws.idxOf j0 = q := hw.idxOf_getElem q hq
  have hdiv := Nat.div_add_mod i axes.length
  have hmod := Nat.mod_lt i hk
  rw [← hqd] at hdiv
  have htr := trig_seqRot axes (p.drop (axes.length * q)) (i - axes.length * q) (by omega)
    (by rw [List.length_drop]; omega)
  refine (htr.onEach (fun j => if j ∈ ws then seqRot axes (p.drop (axes.length * ws.idxOf j)) else 1) j0).congr
    fun x => ?_
  unfold layerOp
  congr 1
  funext j
  by_cases hj : j = j0
  · subst hj
    rw [Function.update_self, if_pos (List.getElem_mem _), hidx, drop_set_ge _ _ _ _ (by omega)]
  · rw [Function.update_of_ne hj]
    by_cases hm : j ∈ ws
    · rw [if_pos hm, if_pos hm]
      have hne : ws.idxOf j ≠ q := by
        intro e
        apply hj
        rw [hj0]
        have := List.getElem_idxOf (List.idxOf_lt_length_of_mem hm)
        simp only [e] at this
        exact this.symm
      rcases Nat.lt_or_gt_of_ne hne with hlt | hgt
      · have : axes.length * (ws.idxOf j + 1) ≤ axes.length * q := Nat.mul_le_mul_left _ hlt
        rw [Nat.mul_add, Nat.mul_one] at this
        rw [drop_set_ge _ _ _ _ (by omega), seqRot_set_ge _ _ _ _ (by omega)]
      · have : axes.length * (q + 1) ≤ axes.length * ws.idxOf j := Nat.mul_le_mul_left _ hgt
        rw [Nat.mul_add, Nat.mul_one] at this
        rw [drop_set_lt _ _ _ _ (by omega)]
    · rw [if_neg hm, if_neg hm]

theorem layerOp_set_ge (axes : List Mat2) (ws : List (Fin N)) (p : List ℝ) (i : ℕ) (x : ℝ)
    (h : axes.length * ws.length ≤ i) : layerOp axes ws (p.set i x) = layerOp axes ws p := by
  rw [← layerOp_take, ← layerOp_take axes ws p, List.take_set_of_le h]

theorem Trig.timeOrdered {f : ℕ → ℝ → QOp N} (r : ℕ) (h : Trig (f r)) (hc : ∀ k x, k ≠ r → f k x = f k 0) (m : ℕ)
    (hr : r < m) : Trig (fun x => Spec.timeOrdered ((List.range m).map (fun k => f k x))) := by
  induction m with
  | zero => omega
  | succ m ih =>
    have e : ∀ x, Spec.timeOrdered ((List.range (m + 1)).map (fun k => f k x)) =
        f m x * Spec.timeOrdered ((List.range m).map (fun k => f k x)) := by
      intro x
      rw [List.range_succ, List.map_append, timeOrdered_append, List.map_singleton, timeOrdered_singleton]
    by_cases hm : r = m
    · subst hm
      refine (h.mul_right (Spec.timeOrdered ((List.range r).map (fun k => f k 0)))).congr fun x => ?_
      rw [e]
      congr 2
      apply List.map_congr_left
      intro k hk
      exact hc k x (by have := List.mem_range.1 hk; omega)
    · refine ((ih (by omega)).mul_left (f m 0)).congr fun x => ?_
      rw [e, hc m x (Ne.symm hm)]

theorem trig_basicOp (ws : List (Fin N)) (hw : ws.Nodup) (h2 : 2 ≤ ws.length) (p : List ℝ) (reps i : ℕ)
    (hi : i < 3 * ws.length * reps) (hp : i < p.length) : Trig (fun x => basicOp ws (p.set i x) reps) := by
  have hk : 0 < 3 * ws.length := by omega
  set r := i / (3 * ws.length) with hr
  have hdiv := Nat.div_add_mod i (3 * ws.length)
  have hmod := Nat.mod_lt i hk
  rw [← hr] at hdiv
  have hr' : r < reps := Nat.div_lt_of_lt_mul hi
  unfold basicOp
  refine Trig.timeOrdered (f := fun k x => ringOp 1 ws * layerOp [Y, Z, Y] ws ((p.set i x).drop (k * (3 * ws.length)))) r
    ?_ ?_ reps hr'
  · have e : r * (3 * ws.length) ≤ i := by rw [Nat.mul_comm]; omega
    simp only [drop_set_ge _ _ _ _ e]
    refine (trig_layerOp [Y, Z, Y] ws hw _ _ ?_ ?_).mul_left _
    · show i - r * (3 * ws.length) < 3 * ws.length
      rw [Nat.mul_comm r]; omega
    · rw [List.length_drop]; omega
  · intro k x hkr
    congr 1
    rcases Nat.lt_or_gt_of_ne hkr with hlt | hgt
    · have : (3 * ws.length) * (k + 1) ≤ (3 * ws.length) * r := Nat.mul_le_mul_left _ hlt
      rw [Nat.mul_add, Nat.mul_one] at this
      rw [Nat.mul_comm k, drop_set_ge _ _ _ _ (by omega), drop_set_ge _ _ _ _ (by omega),
        layerOp_set_ge _ _ _ _ _ (by show 3 * ws.length ≤ _; omega),
        layerOp_set_ge _ _ _ _ _ (by show 3 * ws.length ≤ _; omega)]
    · have : (3 * ws.length) * (r + 1) ≤ (3 * ws.length) * k := Nat.mul_le_mul_left _ hgt
      rw [Nat.mul_add, Nat.mul_one] at this
      rw [Nat.mul_comm k, drop_set_lt _ _ _ _ (by omega), drop_set_lt _ _ _ _ (by omega)]

/-! ## The shift rule -/

/-- Trigonometric up to a phase. -/
def Shiftable (F : ℝ → QOp N) : Prop :=
  ∃ (G : ℝ → QOp N) (g : ℝ → ℂ), Trig G ∧ (∀ x, star (g x) * g x = 1) ∧ ∀ x, F x = g x • G x

theorem Trig.shiftable {F : ℝ → QOp N} (h : Trig F) : Shiftable F :=
  ⟨F, fun _ => 1, h, fun _ => by simp, fun _ => by simp⟩

theorem Shiftable.mul_left {F : ℝ → QOp N} (h : Shiftable F) (A : QOp N) : Shiftable (fun x => A * F x) := by
  obtain ⟨G, g, hG, hg, e⟩ := h
  exact ⟨_, g, hG.mul_left A, hg, fun x => by beta_reduce; rw [e, Matrix.mul_smul]⟩

theorem Shiftable.mul_right {F : ℝ → QOp N} (h : Shiftable F) (A : QOp N) : Shiftable (fun x => F x * A) := by
  obtain ⟨G, g, hG, hg, e⟩ := h
  exact ⟨_, g, hG.mul_right A, hg, fun x => by beta_reduce; rw [e, Matrix.smul_mul]⟩

theorem Shiftable.congr {F G : ℝ → QOp N} (h : Shiftable F) (e : ∀ x, G x = F x) : Shiftable G := by
  obtain ⟨G', g, hG, hg, e'⟩ := h
  exact ⟨G', g, hG, hg, fun x => by rw [e, e']⟩

theorem exp_unit (y : ℝ) : star (Complex.exp ((y : ℂ) * Complex.I)) * Complex.exp ((y : ℂ) * Complex.I) = 1 := by
  rw [Complex.star_def, ← Complex.exp_conj, ← Complex.exp_add]
  simp

theorem phase_rot (x : ℝ) : phase x = Complex.exp (((x / 2 : ℝ) : ℂ) * Complex.I) • rot Z x := by
  have h : Complex.exp ((x : ℂ) * Complex.I) = Complex.exp (((x / 2 : ℝ) : ℂ) * Complex.I) *
      Complex.exp (((x / 2 : ℝ) : ℂ) * Complex.I) := by
    rw [← Complex.exp_add]; congr 1; push_cast; ring
  have h1 : (1 : ℂ) = Complex.exp (((x / 2 : ℝ) : ℂ) * Complex.I) *
      Complex.exp (-((x / 2 : ℝ) : ℂ) * Complex.I) := by
    rw [← Complex.exp_add]; simp
  unfold phase rot Z
  rw [h]
  ext i j
  fin_cases i <;> fin_cases j <;> simp only [Matrix.smul_apply, Matrix.sub_apply, smul_eq_mul, Fin.zero_eta, Fin.mk_one,
    Fin.isValue, Matrix.of_apply, Matrix.cons_val', Matrix.cons_val_zero, Matrix.cons_val_one,
    Matrix.cons_val_fin_one, Matrix.one_apply_eq, mul_zero, sub_zero, mul_one]
  · rw [h1, exp_half_neg]; ring
  · simp
  · simp
  · rw [exp_half]; ring

theorem shiftable_phase (i : Fin N) : Shiftable (fun x => onQubit i (phase x)) :=
  ⟨_, fun x => Complex.exp (((x / 2 : ℝ) : ℂ) * Complex.I), (trig_rot Z).onQubit i, fun x => exp_unit _, fun x => by
    beta_reduce; rw [phase_rot, onQubit_smul']⟩

theorem shiftable_cphase (c t : Fin N) : Shiftable (fun x => controlled [c] t (phase x)) := by
  have hx : ∀ x : ℝ, Complex.exp ((x : ℂ) * Complex.I) = Complex.exp (((x / 2 : ℝ) : ℂ) * Complex.I) *
      Complex.exp (((x / 2 : ℝ) : ℂ) * Complex.I) := by
    intro x; rw [← Complex.exp_add]; congr 1; push_cast; ring
  have h1 : ∀ x : ℝ, (1 : ℂ) = Complex.exp (((x / 2 : ℝ) : ℂ) * Complex.I) *
      Complex.exp (-((x / 2 : ℝ) : ℂ) * Complex.I) := by
    intro x; rw [← Complex.exp_add]; simp
  refine ⟨fun x => Matrix.of fun a b => if a = b then (if b c = 1 ∧ b t = 1 then Complex.exp (((x / 2 : ℝ) : ℂ) * Complex.I)
      else Complex.exp (-((x / 2 : ℝ) : ℂ) * Complex.I)) else 0,
    fun x => Complex.exp (((x / 2 : ℝ) : ℂ) * Complex.I), ?_, fun x => exp_unit _, fun x => ?_⟩
  · refine ⟨1, Matrix.of fun a b => if a = b then (if b c = 1 ∧ b t = 1 then Complex.I else -Complex.I) else 0, fun x => ?_⟩
    ext a b
    beta_reduce
    rw [Matrix.add_apply, Matrix.smul_apply, Matrix.smul_apply, exp_half, exp_half_neg, Matrix.of_apply, Matrix.of_apply]
    by_cases hab : a = b
    · subst hab
      rw [Matrix.one_apply_eq, if_pos rfl, if_pos rfl]
      split_ifs
      · simp
      · simp; ring
    · rw [Matrix.one_apply_ne hab, if_neg hab, if_neg hab]
      simp
  · ext a b
    beta_reduce
    rw [Matrix.smul_apply, smul_eq_mul, Matrix.of_apply]
    unfold controlled onQubit
    by_cases hab : a = b
    · subst hab
      rw [if_pos rfl, Matrix.one_apply_eq, if_pos (fun _ _ => rfl)]
      by_cases hc : a c = 1
      · rw [if_pos (by simpa using hc)]
        by_cases ht : a t = 1
        · rw [if_pos ⟨hc, ht⟩, ht, ← hx]; simp [phase]
        · have ht0 : a t = 0 := by omega
          rw [if_neg (fun h => ht h.2), ht0, ← h1]; simp [phase]
      · rw [if_neg (by simpa using hc), if_neg (fun h => hc h.1), ← h1]
    · rw [if_neg hab, mul_zero, Matrix.one_apply_ne hab]
      split_ifs with h2 h3
      · have : a t ≠ b t := fun h => hab (funext fun j => by
          by_cases hj : j = t
          · rw [hj, h]
          · exact h3 j hj)
        have h01 : (a t = 0 ∧ b t = 1) ∨ (a t = 1 ∧ b t = 0) := by omega
        rcases h01 with ⟨h0, h0'⟩ | ⟨h0, h0'⟩ <;> simp [h0, h0', phase]
      · rfl
      · rfl

theorem braket_phase (O : QOp N) (w : QState N) (g : ℂ) (hg : star g * g = 1) : braket O (g • w) = braket O w := by
  unfold braket
  refine Finset.sum_congr rfl fun a _ => Finset.sum_congr rfl fun b _ => ?_
  rw [Pi.smul_apply, Pi.smul_apply, smul_eq_mul, smul_eq_mul, star_mul']
  linear_combination (star (w a) * O a b * w b) * hg

/-- The cross term of a quadratic form. -/
noncomputable def crossRe (O : QOp N) (C S : QState N) : ℝ :=
  (∑ a, ∑ b, (star (C a) * O a b * S b + star (S a) * O a b * C b)).re

theorem braket_trig_eq (O : QOp N) (C S : QState N) (x : ℝ) :
    (braket O ((Real.cos (x / 2) : ℂ) • C + (Real.sin (x / 2) : ℂ) • S)).re =
      ((braket O C).re + (braket O S).re) / 2 + ((braket O C).re - (braket O S).re) / 2 * Real.cos x +
        crossRe O C S / 2 * Real.sin x := by
  set p := (braket O C).re
  set q := (braket O S).re
  set r := crossRe O C S with hr
  have h : braket O ((Real.cos (x / 2) : ℂ) • C + (Real.sin (x / 2) : ℂ) • S) =
      ((Real.cos (x / 2) ^ 2 : ℝ) : ℂ) * braket O C + ((Real.sin (x / 2) ^ 2 : ℝ) : ℂ) * braket O S +
        ((Real.cos (x / 2) * Real.sin (x / 2) : ℝ) : ℂ) *
          ∑ a, ∑ b, (star (C a) * O a b * S b + star (S a) * O a b * C b) := by
    unfold braket
    simp only [Finset.mul_sum, ← Finset.sum_add_distrib]
    refine Finset.sum_congr rfl fun a _ => Finset.sum_congr rfl fun b _ => ?_
    simp only [Pi.add_apply, Pi.smul_apply, smul_eq_mul, star_add, star_mul', Complex.star_def, Complex.conj_ofReal]
    push_cast
    ring
  unfold crossRe at hr
  rw [h, Complex.add_re, Complex.add_re, Complex.re_ofReal_mul, Complex.re_ofReal_mul, Complex.re_ofReal_mul, ← hr]
  have hc : Real.cos x = Real.cos (x / 2) ^ 2 - Real.sin (x / 2) ^ 2 := by
    rw [← Real.cos_two_mul']; congr 1; ring
  have hs : Real.sin x = 2 * Real.sin (x / 2) * Real.cos (x / 2) := by
    rw [← Real.sin_two_mul]; congr 1; ring
  have h1 := Real.cos_sq_add_sin_sq (x / 2)
  rw [hc, hs]
  linear_combination ((p + q) / 2) * h1

theorem braket_trig (O : QOp N) (C S : QState N) : ∃ α β γ : ℝ, ∀ x : ℝ,
    (braket O ((Real.cos (x / 2) : ℂ) • C + (Real.sin (x / 2) : ℂ) • S)).re =
      α + β * Real.cos x + γ * Real.sin x := ⟨_, _, _, braket_trig_eq O C S⟩

/-- The parameter-shift rule. -/
theorem shift_rule {F : ℝ → QOp N} (h : Shiftable F) (O : QOp N) (v : QState N) (x : ℝ) :
    HasDerivAt (fun y => (braket O (F y *ᵥ v)).re)
      (0.5 * ((braket O (F (x + 0.5 * Real.pi) *ᵥ v)).re - (braket O (F (x - 0.5 * Real.pi) *ᵥ v)).re)) x := by
  obtain ⟨G, g, ⟨C, S, hG⟩, hg, e⟩ := h
  obtain ⟨α, β, γ, hk⟩ := braket_trig O (C *ᵥ v) (S *ᵥ v)
  have hf : ∀ y, (braket O (F y *ᵥ v)).re = α + β * Real.cos y + γ * Real.sin y := by
    intro y
    rw [e, Matrix.smul_mulVec, braket_phase _ _ _ (hg y), hG, Matrix.add_mulVec, Matrix.smul_mulVec,
      Matrix.smul_mulVec, hk]
  simp only [hf]
  have hd : HasDerivAt (fun y => α + β * Real.cos y + γ * Real.sin y) (β * (-Real.sin x) + γ * Real.cos x) x :=
    (((Real.hasDerivAt_cos x).const_mul β).const_add α).add ((Real.hasDerivAt_sin x).const_mul γ)
  convert hd using 1
  have e1 : (0.5 : ℝ) * Real.pi = Real.pi / 2 := by norm_num; ring
  rw [e1, Real.cos_add_pi_div_two, Real.sin_add_pi_div_two, Real.cos_sub_pi_div_two, Real.sin_sub_pi_div_two]
  norm_num
  ring

/-! ## Items -/

/-- Every gate and layer except the controlled U3. -/
def Spec.Item.shiftOk : Item N → Prop
  | .gate (.cu3 _ _ _ _ _) => False
  | _ => True

theorem item_shiftable (it : Item N) (h : it.WF) (hs : Spec.Item.shiftOk it) (i : ℕ) (hi : i < it.params.length) :
    Shiftable (fun x => (it.withParams (it.params.set i x)).op) := by
  cases it with
  | gate ins =>
    cases ins with
    | rx θ j => obtain rfl : i = 0 := by simpa [Item.params, Instr.params] using hi
                exact ((trig_rot X).onQubit j).shiftable
    | ry θ j => obtain rfl : i = 0 := by simpa [Item.params, Instr.params] using hi
                exact ((trig_rot Y).onQubit j).shiftable
    | rz θ j => obtain rfl : i = 0 := by simpa [Item.params, Instr.params] using hi
                exact ((trig_rot Z).onQubit j).shiftable
    | u1 θ j => obtain rfl : i = 0 := by simpa [Item.params, Instr.params] using hi
                exact shiftable_phase j
    | rxx θ p q => obtain rfl : i = 0 := by simpa [Item.params, Instr.params] using hi
                   exact (trig_rot2 X p q).shiftable
    | ryy θ p q => obtain rfl : i = 0 := by simpa [Item.params, Instr.params] using hi
                   exact (trig_rot2 Y p q).shiftable
    | rzz θ p q => obtain rfl : i = 0 := by simpa [Item.params, Instr.params] using hi
                   exact (trig_rot2 Z p q).shiftable
    | cphase θ c t => obtain rfl : i = 0 := by simpa [Item.params, Instr.params] using hi
                      exact shiftable_cphase c t
    | u3 θ φ l j =>
      have : i = 0 ∨ i = 1 ∨ i = 2 := by
        simp [Item.params, Instr.params] at hi; omega
      rcases this with rfl | rfl | rfl
      · exact ((trig_U3_theta φ l).onQubit j).shiftable
      · exact ((trig_U3_phi θ l).onQubit j).shiftable
      · exact ((trig_U3_lambda θ φ).onQubit j).shiftable
    | cu3 => exact hs.elim
    | _ => simp [Item.params, Instr.params] at hi
  | layer k ws p =>
    obtain ⟨-, hw, hp⟩ := h
    exact (trig_layerOp k.axes ws hw p i (by rw [← hp]; exact hi) hi).shiftable
  | basic ws p reps =>
    obtain ⟨hw, h2, -, hp⟩ := h
    exact (trig_basicOp ws hw h2 p reps i (by rw [← hp]; exact hi) hi).shiftable
  | _ => simp [Item.params] at hi

theorem allParams_append (l l' : List (Item N)) : allParams (l ++ l') = allParams l ++ allParams l' := by
  simp [allParams]

theorem setParam_append (pre post : List (Item N)) (it : Item N) (i : ℕ) (hi : i < it.params.length) (x : ℝ) :
    setParam (pre ++ it :: post) ((allParams pre).length + i) x =
      pre ++ it.withParams (it.params.set i x) :: post := by
  induction pre with
  | nil => simp [setParam, allParams, hi]
  | cons a pre ih =>
    have e : allParams (a :: pre) = a.params ++ allParams pre := by simp [allParams]
    rw [List.cons_append, setParam, e, List.length_append, if_neg (by omega)]
    rw [show a.params.length + (allParams pre).length + i - a.params.length = (allParams pre).length + i by omega, ih]
    rfl

theorem ownerOf_append (pre post : List (Item N)) (it : Item N) (i : ℕ) (hi : i < it.params.length) :
    ownerOf (pre ++ it :: post) ((allParams pre).length + i) = some it := by
  induction pre with
  | nil => simp [ownerOf, allParams, hi]
  | cons a pre ih =>
    have e : allParams (a :: pre) = a.params ++ allParams pre := by simp [allParams]
    rw [List.cons_append, ownerOf, e, List.length_append, if_neg (by omega)]
    rw [show a.params.length + (allParams pre).length + i - a.params.length = (allParams pre).length + i by omega, ih]

theorem allParams_getD (pre post : List (Item N)) (it : Item N) (i : ℕ) (hi : i < it.params.length) :
    (allParams (pre ++ it :: post)).getD ((allParams pre).length + i) 0 = it.params.getD i 0 := by
  have e : allParams (pre ++ it :: post) = allParams pre ++ (it.params ++ allParams post) := by simp [allParams]
  rw [e, List.getD_eq_getElem?_getD, List.getElem?_append_right (by omega), List.getD_eq_getElem?_getD,
    List.getElem?_append_left (by omega)]
  congr 2
  omega

theorem split_param (l : List (Item N)) (j : ℕ) (h : j < (allParams l).length) :
    ∃ pre it post i, l = pre ++ it :: post ∧ i < it.params.length ∧ j = (allParams pre).length + i := by
  induction l generalizing j with
  | nil => simp [allParams] at h
  | cons a l ih =>
    by_cases hj : j < a.params.length
    · exact ⟨[], a, l, j, rfl, hj, by simp [allParams]⟩
    · have e : allParams (a :: l) = a.params ++ allParams l := by simp [allParams]
      rw [e, List.length_append] at h
      obtain ⟨pre, it, post, i, e1, h1, h2⟩ := ih (j - a.params.length) (by omega)
      refine ⟨a :: pre, it, post, i, by rw [e1]; rfl, h1, ?_⟩
      have e : allParams (a :: pre) = a.params ++ allParams pre := by simp [allParams]
      rw [e, List.length_append]
      omega

theorem circuitOp_split (pre post : List (Item N)) (it : Item N) :
    circuitOp (pre ++ it :: post) = circuitOp post * it.op * circuitOp pre := by
  unfold circuitOp
  rw [List.map_append, List.map_cons, timeOrdered_append, timeOrdered_cons]

/-- The value `cal_params_grad` computes for the `j`-th parameter. -/
noncomputable def shiftValue (O : QOp N) (v : QState N) (l : List (Item N)) (j : ℕ) : ℝ :=
  0.5 * (energy O v (setParam l j ((allParams l).getD j 0 + 0.5 * Real.pi)) -
    energy O v (setParam l j ((allParams l).getD j 0 - 0.5 * Real.pi)))

theorem shift_partial (O : QOp N) (v : QState N) (l : List (Item N)) (h : ∀ it ∈ l, it.WF) (j : ℕ)
    (hj : j < (allParams l).length) (hs : ∀ it, ownerOf l j = some it → Spec.Item.shiftOk it) :
    IsPartial O v l j (shiftValue O v l j) := by
  obtain ⟨pre, it, post, i, rfl, hi, rfl⟩ := split_param l j hj
  unfold IsPartial shiftValue energy
  simp only [setParam_append _ _ _ _ hi, circuitOp_split]
  exact shift_rule (((item_shiftable it (h it (by simp)) (hs it (ownerOf_append _ _ _ _ hi)) i hi).mul_left
    (circuitOp post)).mul_right (circuitOp pre)) O v _

end QTN
