import Verif.SpecRewrite
import Verif.Lemmas.Local
import Verif.Lemmas.Grad2
import Verif.Lemmas.CdoSim

/-! # Soundness of the circuit identities -/

namespace QTN

open Spec Matrix Complex

variable {N : ℕ}

/-- The operator of a list of gates. -/
noncomputable def gatesOp (l : List (Instr N)) : QOp N := circuitOp (l.map Item.gate)

theorem gatesOp_nil : gatesOp ([] : List (Instr N)) = 1 := rfl

theorem gatesOp_cons (i : Instr N) (l : List (Instr N)) : gatesOp (i :: l) = gatesOp l * i.op := by
  unfold gatesOp
  rw [List.map_cons, circuitOp_cons]
  rfl

theorem gatesOp_append (l l' : List (Instr N)) : gatesOp (l ++ l') = gatesOp l' * gatesOp l := by
  induction l with
  | nil => simp [gatesOp_nil]
  | cons i l ih => rw [List.cons_append, gatesOp_cons, gatesOp_cons, ih, mul_assoc]

theorem fin2 : ∀ x : Fin 2, x = 0 ∨ x = 1 := by decide

/-! ## 2×2 matrices -/

theorem H_Z_H : Spec.H * Spec.Z * Spec.H = Spec.X := by
  have h2 : ((Real.sqrt 2 : ℝ) : ℂ)⁻¹ * ((Real.sqrt 2 : ℝ) : ℂ)⁻¹ = 1 / 2 := by
    rw [← mul_inv, ← Complex.ofReal_mul, Real.mul_self_sqrt (by norm_num)]; norm_num
  ext i j
  fin_cases i <;> fin_cases j <;>
    simp [Spec.H, Spec.Z, Spec.X, Matrix.mul_apply, Fin.sum_univ_two, h2] <;> norm_num

theorem H_X_H : Spec.H * Spec.X * Spec.H = Spec.Z := by
  rw [← H_Z_H]
  calc Spec.H * (Spec.H * Spec.Z * Spec.H) * Spec.H = (Spec.H * Spec.H) * Spec.Z * (Spec.H * Spec.H) := by
        noncomm_ring
    _ = Spec.Z := by rw [H_sq, one_mul, mul_one]

theorem phase_pi : Spec.phase Real.pi = Spec.Z := by
  ext i j; fin_cases i <;> fin_cases j <;> simp [Spec.phase, Spec.Z]

theorem exp_half_pi : exp (((Real.pi / 2 : ℝ) : ℂ) * I) = I := by
  push_cast; exact Complex.exp_pi_div_two_mul_I

theorem exp_neg_half_pi : exp (((-(Real.pi / 2) : ℝ) : ℂ) * I) = -I := by
  push_cast
  rw [neg_mul, Complex.exp_neg, Complex.exp_pi_div_two_mul_I, Complex.inv_I]

theorem S_X_S : Spec.phase (Real.pi / 2) * Spec.X * Spec.phase (-(Real.pi / 2)) = Spec.Y := by
  unfold Spec.phase
  rw [exp_half_pi, exp_neg_half_pi]
  ext i j
  fin_cases i <;> fin_cases j <;> simp [Spec.X, Spec.Y, Matrix.mul_apply, Fin.sum_univ_two]

theorem S_S : Spec.phase (Real.pi / 2) * Spec.phase (-(Real.pi / 2)) = 1 := by
  rw [phase_mul, add_neg_cancel, phase_zero]

theorem X_phase_X (θ : ℝ) : Spec.X * Spec.phase (-(θ / 2)) * Spec.X * Spec.phase (θ / 2) = rot Spec.Z θ := by
  rw [rot_Z_eq]
  ext i j
  fin_cases i <;> fin_cases j <;> simp [Spec.X, Spec.phase, Matrix.mul_apply, Fin.sum_univ_two]

theorem conj_rot {A B P Q : Mat2} (h1 : A * B = 1) (h2 : A * P * B = Q) (θ : ℝ) :
    A * rot P θ * B = rot Q θ := by
  unfold rot
  rw [mul_sub, sub_mul, Matrix.mul_smul, Matrix.mul_smul, Matrix.smul_mul, Matrix.smul_mul, mul_one, h1, h2]

theorem rot_anti {P Q : Mat2} (h : P * Q = -(Q * P)) (θ : ℝ) : rot P θ * Q = Q * rot P (-θ) := by
  unfold rot
  rw [mul_sub, sub_mul, Matrix.mul_smul, Matrix.mul_smul, Matrix.smul_mul, Matrix.smul_mul, mul_one, one_mul, h,
    neg_div, Real.cos_neg, Real.sin_neg]
  push_cast
  module

theorem Z_X : Spec.Z * Spec.X = -(Spec.X * Spec.Z) := by
  ext i j; fin_cases i <;> fin_cases j <;> simp [Spec.X, Spec.Z, Matrix.mul_apply, Fin.sum_univ_two]

theorem Y_X : Spec.Y * Spec.X = -(Spec.X * Spec.Y) := by
  ext i j; fin_cases i <;> fin_cases j <;> simp [Spec.X, Spec.Y, Matrix.mul_apply, Fin.sum_univ_two]

theorem X_Z : Spec.X * Spec.Z = -(Spec.Z * Spec.X) := by
  ext i j; fin_cases i <;> fin_cases j <;> simp [Spec.X, Spec.Z, Matrix.mul_apply, Fin.sum_univ_two]

theorem Y_Z : Spec.Y * Spec.Z = -(Spec.Z * Spec.Y) := by
  ext i j; fin_cases i <;> fin_cases j <;> simp [Spec.Z, Spec.Y, Matrix.mul_apply, Fin.sum_univ_two]

theorem Y_H : Spec.Y * Spec.H = -(Spec.H * Spec.Y) := by
  ext i j; fin_cases i <;> fin_cases j <;> simp [Spec.H, Spec.Y, Matrix.mul_apply, Fin.sum_univ_two, mul_comm]

theorem rot_period (P : Mat2) (θ : ℝ) : rot P (θ + 4 * Real.pi) = rot P θ := by
  have : (θ + 4 * Real.pi) / 2 = θ / 2 + 2 * Real.pi := by ring
  unfold rot
  rw [this, Real.cos_add_two_pi, Real.sin_add_two_pi]

theorem rot2_period (P : Mat2) (θ : ℝ) (p q : Fin N) : rot2 P (θ + 4 * Real.pi) p q = rot2 P θ p q := by
  have : (θ + 4 * Real.pi) / 2 = θ / 2 + 2 * Real.pi := by ring
  unfold rot2
  rw [this, Real.cos_add_two_pi, Real.sin_add_two_pi]

theorem phase_period (θ : ℝ) : Spec.phase (θ + 2 * Real.pi) = Spec.phase θ := by
  unfold Spec.phase
  have : exp (((θ + 2 * Real.pi : ℝ) : ℂ) * I) = exp ((θ : ℂ) * I) := by
    push_cast
    rw [add_mul, Complex.exp_add, Complex.exp_two_pi_mul_I, mul_one]
  rw [this]

theorem rot_comm {P : Mat2} (θ : ℝ) : rot P θ * P = P * rot P θ := by
  unfold rot
  rw [mul_sub, sub_mul, Matrix.mul_smul, Matrix.mul_smul, Matrix.smul_mul, Matrix.smul_mul, mul_one, one_mul]

/-! ## A choice between two matrices on one qubit -/

/-- `g1` on qubit `t` if all controls are 1, `g0` otherwise -/
noncomputable def sel (cs : List (Fin N)) (t : Fin N) (g0 g1 : Mat2) : QOp N := fun a b =>
  if ∀ c ∈ cs, b c = 1 then onQubit t g1 a b else onQubit t g0 a b

theorem sel_same (cs : List (Fin N)) (t : Fin N) (g : Mat2) : sel cs t g g = onQubit t g := by
  ext a b; simp [sel]

theorem sel_controlled (cs : List (Fin N)) (t : Fin N) (g : Mat2) : sel cs t 1 g = controlled cs t g := by
  ext a b; simp [sel, controlled, onQubit_one]

theorem sel_mul {cs : List (Fin N)} {t : Fin N} (ht : t ∉ cs) (g0 g1 h0 h1 : Mat2) :
    sel cs t g0 g1 * sel cs t h0 h1 = sel cs t (g0 * h0) (g1 * h1) := by
  ext a b
  have hk : ∀ k : Bits N, ∀ h : Mat2, onQubit t h k b ≠ 0 → ((∀ c ∈ cs, k c = 1) ↔ ∀ c ∈ cs, b c = 1) := by
    intro k h hh
    have : ∀ j, j ≠ t → k j = b j := by
      by_contra hn
      exact hh (by rw [onQubit, if_neg hn])
    refine forall₂_congr fun c hc => ?_
    rw [this c fun e => ht (e ▸ hc)]
  rw [Matrix.mul_apply]
  unfold sel
  by_cases hb : ∀ c ∈ cs, b c = 1
  · simp only [if_pos hb]
    rw [← onQubit_mul, Matrix.mul_apply]
    refine Finset.sum_congr rfl fun k _ => ?_
    by_cases h0 : onQubit t h1 k b = 0
    · rw [h0, mul_zero, mul_zero]
    · rw [if_pos ((hk k _ h0).2 hb)]
  · simp only [if_neg hb]
    rw [← onQubit_mul, Matrix.mul_apply]
    refine Finset.sum_congr rfl fun k _ => ?_
    by_cases h' : onQubit t h0 k b = 0
    · rw [h', mul_zero, mul_zero]
    · rw [if_neg fun h => hb ((hk k _ h').1 h)]

theorem controlled_conj {cs : List (Fin N)} {t : Fin N} (ht : t ∉ cs) {g g' : Mat2} (h1 : g * g' = 1) (h : Mat2) :
    onQubit t g * (controlled cs t h * onQubit t g') = controlled cs t (g * h * g') := by
  rw [← sel_same cs t g, ← sel_same cs t g', ← sel_controlled, ← sel_controlled, sel_mul ht, sel_mul ht, one_mul, h1,
    mul_assoc]

/-! ## Permutations of the basis with phases -/

/-- The basis state `b` goes to `f b` times the basis state `σ b`. -/
noncomputable def pd (σ : Bits N → Bits N) (f : Bits N → ℂ) : QOp N := fun a b => if a = σ b then f b else 0

theorem pd_mul (σ τ : Bits N → Bits N) (f g : Bits N → ℂ) :
    pd σ f * pd τ g = pd (fun b => σ (τ b)) (fun b => f (τ b) * g b) := by
  ext a b
  rw [Matrix.mul_apply]
  simp only [pd, mul_ite, mul_zero]
  rw [Finset.sum_ite_eq' Finset.univ (τ b)]
  simp [ite_mul]

theorem pd_ext {σ τ : Bits N → Bits N} {f g : Bits N → ℂ} (h1 : ∀ b, σ b = τ b) (h2 : ∀ b, f b = g b) :
    pd σ f = pd τ g := by
  rw [funext h1, funext h2]

theorem pd_one : (1 : QOp N) = pd (fun b => b) (fun _ => 1) := by
  ext a b; simp [pd, Matrix.one_apply]

theorem eq_update_iff (a b : Bits N) (t : Fin N) (x : Fin 2) :
    a = Function.update b t x ↔ (∀ j, j ≠ t → a j = b j) ∧ a t = x := by
  constructor
  · rintro rfl
    exact ⟨fun j hj => Function.update_of_ne hj _ _, Function.update_self _ _ _⟩
  · rintro ⟨h, hx⟩
    funext j
    by_cases hj : j = t
    · subst hj; simpa using hx
    · rw [Function.update_of_ne hj, h j hj]

theorem onQubit_X_pd (t : Fin N) : onQubit t Spec.X = pd (fun b => Function.update b t (b t + 1)) (fun _ => 1) := by
  ext a b
  unfold onQubit pd
  simp only [eq_update_iff]
  by_cases h : ∀ j, j ≠ t → a j = b j
  · rw [if_pos h]
    rcases fin2 (a t) with ha | ha <;> rcases fin2 (b t) with hb | hb <;> simp [ha, hb, Spec.X]
    intro j hj; exact h j hj
    intro j hj; exact h j hj
  · rw [if_neg h, if_neg fun hh => h hh.1]

theorem onQubit_diag_pd (t : Fin N) (u v : ℂ) :
    onQubit t !![u, 0; 0, v] = pd (fun b => b) (fun b => if b t = 1 then v else u) := by
  ext a b
  unfold onQubit pd
  by_cases h : a = b
  · subst h
    rcases fin2 (a t) with ha | ha <;> simp [ha]
  · rw [if_neg h]
    split_ifs with hh
    · have hne : a t ≠ b t := fun e => h (funext fun j => by
        by_cases hj : j = t
        · subst hj; exact e
        · exact hh j hj)
      rcases fin2 (a t) with ha | ha <;> rcases fin2 (b t) with hb | hb <;> simp_all
    · rfl

theorem controlled_pd {cs : List (Fin N)} {t : Fin N} {g : Mat2} {σ : Bits N → Bits N} {f : Bits N → ℂ}
    (h : onQubit t g = pd σ f) : controlled cs t g =
      pd (fun b => if ∀ c ∈ cs, b c = 1 then σ b else b) (fun b => if ∀ c ∈ cs, b c = 1 then f b else 1) := by
  ext a b
  unfold controlled
  rw [h]
  unfold pd
  beta_reduce
  by_cases h1 : ∀ c ∈ cs, b c = 1
  · simp only [if_pos h1]
  · simp only [if_neg h1, Matrix.one_apply]

theorem phase_pd (t : Fin N) (θ : ℝ) :
    onQubit t (Spec.phase θ) = pd (fun b => b) (fun b => if b t = 1 then exp (θ * I) else 1) :=
  onQubit_diag_pd t _ _

theorem Z_pd (t : Fin N) : onQubit t Spec.Z = pd (fun b => b) (fun b => if b t = 1 then -1 else 1) :=
  onQubit_diag_pd t _ _

theorem rotZ_pd (t : Fin N) (θ : ℝ) : onQubit t (rot Spec.Z θ) =
    pd (fun b => b) (fun b => if b t = 1 then exp ((θ / 2 : ℝ) * I) else exp (-((θ / 2 : ℝ) * I))) := by
  rw [rot_Z_eq]; exact onQubit_diag_pd t _ _

theorem swap_pd (p q : Fin N) : Spec.swap p q = pd (fun b => b ∘ Equiv.swap p q) (fun _ => 1) := rfl

theorem rot2Z_pd (p q : Fin N) (θ : ℝ) : rot2 Spec.Z θ p q =
    pd (fun b => b) (fun b => if b p = b q then exp (-((θ / 2 : ℝ) * I)) else exp ((θ / 2 : ℝ) * I)) := by
  unfold rot2
  rw [Z_pd, Z_pd, pd_mul, pd_one]
  have e1 : exp (-((θ / 2 : ℝ) * I)) = (Real.cos (θ / 2) : ℂ) - I * (Real.sin (θ / 2) : ℂ) := by
    rw [← neg_mul, Complex.exp_mul_I, Complex.cos_neg, Complex.sin_neg, Complex.ofReal_cos, Complex.ofReal_sin]; ring
  have e2 : exp ((θ / 2 : ℝ) * I) = (Real.cos (θ / 2) : ℂ) + I * (Real.sin (θ / 2) : ℂ) := by
    rw [Complex.exp_mul_I, Complex.ofReal_cos, Complex.ofReal_sin]; ring
  rw [e1, e2]
  ext a b
  simp only [Matrix.sub_apply, Matrix.smul_apply, pd, smul_eq_mul]
  by_cases h : a = b
  · simp only [if_pos h]
    rcases fin2 (b p) with hp | hp <;> rcases fin2 (b q) with hq | hq <;> simp [hp, hq]
  · simp [if_neg h]

theorem cnot_pd {c t : Fin N} :
    controlled [c] t Spec.X = pd (fun b => Function.update b t (b t + b c)) (fun _ => 1) := by
  rw [controlled_pd (onQubit_X_pd t)]
  refine pd_ext (fun b => ?_) fun b => by simp
  rcases fin2 (b c) with h | h <;> simp [h]

theorem cphase_pd (cs : List (Fin N)) (t : Fin N) (θ : ℝ) : controlled cs t (Spec.phase θ) =
    pd (fun b => b) (fun b => if (∀ c ∈ cs, b c = 1) ∧ b t = 1 then exp (θ * I) else 1) := by
  rw [controlled_pd (phase_pd t θ)]
  refine pd_ext (fun b => by simp) fun b => ?_
  by_cases h : ∀ c ∈ cs, b c = 1 <;> by_cases ht : b t = 1 <;> simp [h, ht]

theorem mcnot_pd (cs : List (Fin N)) (t : Fin N) : controlled cs t Spec.X =
    pd (fun b => if ∀ c ∈ cs, b c = 1 then Function.update b t (b t + 1) else b) (fun _ => 1) := by
  rw [controlled_pd (onQubit_X_pd t)]
  exact pd_ext (fun b => rfl) fun b => by simp

/-! ## The laws for several qubits -/

theorem cphase_symm' (θ : ℝ) (c t : Fin N) :
    controlled [c] t (Spec.phase θ) = controlled [t] c (Spec.phase θ) := by
  rw [cphase_pd, cphase_pd]
  exact pd_ext (fun b => rfl) fun b => by simp [and_comm]

theorem cz_symm' (c t : Fin N) : controlled [c] t Spec.Z = controlled [t] c Spec.Z := by
  rw [← phase_pi]; exact cphase_symm' _ _ _

theorem swap_symm' (p q : Fin N) : Spec.swap p q = Spec.swap q p := by
  unfold Spec.swap; rw [Equiv.swap_comm]

theorem rot2_symm' (P : Mat2) (θ : ℝ) {p q : Fin N} (h : p ≠ q) : rot2 P θ p q = rot2 P θ q p := by
  unfold rot2; rw [onQubit_comm h]

theorem swap_cnots {p q : Fin N} (h : p ≠ q) : Spec.swap p q =
    controlled [p] q Spec.X * (controlled [q] p Spec.X * controlled [p] q Spec.X) := by
  rw [swap_pd, cnot_pd, cnot_pd, pd_mul, pd_mul]
  refine pd_ext (fun b => ?_) fun b => by simp
  funext j
  by_cases h1 : j = p
  · subst h1
    rcases fin2 (b j) with hp | hp <;> rcases fin2 (b q) with hq | hq <;> simp [hp, hq, h, h.symm]
  · by_cases h2 : j = q
    · subst h2
      rcases fin2 (b p) with hp | hp <;> rcases fin2 (b j) with hq | hq <;> simp [hp, hq, h, h.symm]
    · simp [h1, h2, Equiv.swap_apply_of_ne_of_ne h1 h2]

theorem rzz_cnots {p q : Fin N} (h : p ≠ q) (θ : ℝ) : rot2 Spec.Z θ p q =
    controlled [p] q Spec.X * (onQubit q (rot Spec.Z θ) * controlled [p] q Spec.X) := by
  rw [rot2Z_pd, cnot_pd, rotZ_pd, pd_mul, pd_mul]
  refine pd_ext (fun b => ?_) fun b => ?_
  · funext j
    by_cases h2 : j = q
    · subst h2
      rcases fin2 (b p) with hp | hp <;> rcases fin2 (b j) with hq | hq <;> simp [hp, hq, h]
    · simp [h2]
  · rcases fin2 (b p) with hp | hp <;> rcases fin2 (b q) with hq | hq <;> simp [hp, hq]

theorem rot2_conj' {p q : Fin N} (h : p ≠ q) {g g' P Q : Mat2} (h1 : g * g' = 1) (h2 : g * P * g' = Q) (θ : ℝ) :
    onQubit p g * (onQubit q g * (rot2 P θ p q * (onQubit q g' * onQubit p g'))) = rot2 Q θ p q := by
  have e1 : onQubit p g * (onQubit q g * (onQubit q g' * onQubit p g')) = (1 : QOp N) := by
    rw [← mul_assoc (onQubit q g), onQubit_mul, h1, onQubit_one, one_mul, onQubit_mul, h1, onQubit_one]
  have e2 : onQubit p g * (onQubit q g * (onQubit p P * onQubit q P * (onQubit q g' * onQubit p g'))) =
      onQubit p Q * onQubit q Q := by
    calc _ = onQubit p g * (onQubit q g * onQubit p P) * (onQubit q P * (onQubit q g' * onQubit p g')) := by
          simp only [mul_assoc]
      _ = (onQubit p g * onQubit p P) * (onQubit q g * onQubit q P * onQubit q g') * onQubit p g' := by
          rw [onQubit_comm h.symm]; simp only [mul_assoc]
      _ = onQubit p (g * P) * (onQubit q Q * onQubit p g') := by
          rw [onQubit_mul, onQubit_mul, onQubit_mul, h2, mul_assoc]
      _ = onQubit p Q * onQubit q Q := by
          rw [onQubit_comm h.symm, ← mul_assoc, onQubit_mul, h2]
  unfold rot2
  simp only [sub_mul, mul_sub, Matrix.smul_mul, Matrix.mul_smul, one_mul, e1, e2]

theorem cphase_cnots {c t : Fin N} (h : c ≠ t) (θ : ℝ) : controlled [c] t (Spec.phase θ) =
    controlled [c] t Spec.X * (onQubit t (Spec.phase (-(θ / 2))) * (controlled [c] t Spec.X *
      (onQubit t (Spec.phase (θ / 2)) * onQubit c (Spec.phase (θ / 2))))) := by
  rw [cphase_pd, cnot_pd, phase_pd, phase_pd, phase_pd, pd_mul, pd_mul, pd_mul, pd_mul]
  refine pd_ext (fun b => ?_) fun b => ?_
  · funext j
    by_cases h2 : j = t
    · subst h2
      rcases fin2 (b c) with hp | hp <;> rcases fin2 (b j) with hq | hq <;> simp [hp, hq, h]
    · simp [h2]
  · rcases fin2 (b c) with hp | hp <;> rcases fin2 (b t) with hq | hq <;>
      simp [hp, hq, ← Complex.exp_add]
    ring_nf

theorem cu3_cnots {c t : Fin N} (h : c ≠ t) (θ φ l : ℝ) : controlled [c] t (U3 θ φ l) =
    onQubit t (rot Spec.Z φ) * (onQubit t (rot Spec.Y (θ / 2)) * (controlled [c] t Spec.X *
      (onQubit t (rot Spec.Y (-(θ / 2))) * (onQubit t (rot Spec.Z (-((φ + l) / 2))) * (controlled [c] t Spec.X *
        onQubit t (rot Spec.Z ((l - φ) / 2))))))) := by
  have ht : t ∉ [c] := by simpa using h.symm
  simp only [← sel_same [c] t, ← sel_controlled, sel_mul ht, one_mul]
  congr 1
  · rw [rot_mul Z_sq, ← mul_assoc (rot Spec.Y _), rot_mul Y_sq, add_neg_cancel, rot_zero, one_mul, rot_mul Z_sq,
      show φ + (-((φ + l) / 2) + (l - φ) / 2) = 0 by ring, rot_zero]
  · have e1 : Spec.X * (rot Spec.Y (-(θ / 2)) * (rot Spec.Z (-((φ + l) / 2)) * (Spec.X * rot Spec.Z ((l - φ) / 2)))) =
        rot Spec.Y (θ / 2) * rot Spec.Z l := by
      rw [← mul_assoc (rot Spec.Z _), rot_anti Z_X, neg_neg, mul_assoc, rot_mul Z_sq, ← mul_assoc (rot Spec.Y _),
        rot_anti Y_X, neg_neg, mul_assoc, ← mul_assoc, X_sq, one_mul, show (φ + l) / 2 + (l - φ) / 2 = l by ring]
    rw [e1, ← mul_assoc (rot Spec.Y _), rot_mul Y_sq, ← mul_assoc, add_halves, U3_eq]

theorem ccz_cnots {a b t : Fin N} (h : a ≠ b ∧ a ≠ t ∧ b ≠ t) (w : ℝ) :
    controlled [a] b Spec.X * (onQubit b (Spec.phase (-w)) * (onQubit a (Spec.phase w) * (controlled [a] b Spec.X *
      (onQubit t (Spec.phase w) * (onQubit b (Spec.phase w) * (controlled [a] t Spec.X * (onQubit t (Spec.phase (-w)) *
        (controlled [b] t Spec.X * (onQubit t (Spec.phase w) * (controlled [a] t Spec.X *
          (onQubit t (Spec.phase (-w)) * controlled [b] t Spec.X))))))))))) =
      controlled [a, b] t (Spec.phase (4 * w)) := by
  obtain ⟨hab, hat, hbt⟩ := h
  simp only [cnot_pd, phase_pd, cphase_pd, pd_mul]
  have e : exp ((-w : ℝ) * I) * exp (w * I) = 1 := by
    rw [← Complex.exp_add]; push_cast; simp
  have e4 : exp ((4 * w : ℝ) * I) = exp (w * I) ^ 4 := by
    rw [← Complex.exp_nat_mul]; push_cast; ring_nf
  rw [e4]
  generalize exp ((-w : ℝ) * I) = y at *
  generalize exp (w * I) = x at *
  refine pd_ext (fun s => ?_) fun s => ?_
  · funext j
    by_cases h1 : j = t
    · subst h1
      rcases fin2 (s a) with ha | ha <;> rcases fin2 (s b) with hb | hb <;> rcases fin2 (s j) with hj | hj <;>
        simp [ha, hb, hj, hab, hat, hbt, hbt.symm]
    · by_cases h2 : j = b
      · subst h2
        rcases fin2 (s a) with ha | ha <;> rcases fin2 (s j) with hj | hj <;>
          simp [ha, hj, hab, hat, hbt]
      · simp [h1, h2]
  · have e2 : y ^ 2 * x ^ 2 = 1 := by linear_combination (y * x + 1) * e
    rcases fin2 (s a) with ha | ha <;> rcases fin2 (s b) with hb | hb <;> rcases fin2 (s t) with hj | hj <;>
        simp [ha, hb, hj, hab, hat, hbt] <;> ring_nf <;>
        first | rfl | (linear_combination e) | (linear_combination e2)

theorem mcphase_step {c t : Fin N} {cs : List (Fin N)} (hct : c ≠ t) (hc : c ∉ cs) (θ : ℝ) :
    controlled (c :: cs) t (Spec.phase θ) =
      controlled cs t (Spec.phase (θ / 2)) * (controlled cs c Spec.X * (controlled [c] t (Spec.phase (-(θ / 2))) *
        (controlled cs c Spec.X * controlled [c] t (Spec.phase (θ / 2))))) := by
  have hu : ∀ b : Bits N, ∀ x, (∀ c' ∈ cs, Function.update b c x c' = 1) ↔ ∀ c' ∈ cs, b c' = 1 := fun b x =>
    forall₂_congr fun c' h' => by rw [Function.update_of_ne fun e : c' = c => hc (e ▸ h')]
  simp only [cphase_pd, mcnot_pd, pd_mul]
  have e : exp ((-(θ / 2) : ℝ) * I) * exp ((θ / 2 : ℝ) * I) = 1 := by
    rw [← Complex.exp_add]; push_cast; simp
  have e2 : exp (θ * I) = exp ((θ / 2 : ℝ) * I) * exp ((θ / 2 : ℝ) * I) := by
    rw [← Complex.exp_add]; push_cast; ring_nf
  rw [e2]
  generalize exp ((-(θ / 2) : ℝ) * I) = y at *
  generalize exp ((θ / 2 : ℝ) * I) = x at *
  refine pd_ext (fun b => ?_) fun b => ?_
  · by_cases hs : ∀ c' ∈ cs, b c' = 1
    · simp only [if_pos hs, if_pos ((hu b _).2 hs), Function.update_self, Function.update_idem]
      have h2 : b c + 1 + 1 = b c := by rcases fin2 (b c) with h | h <;> rw [h] <;> rfl
      rw [h2, Function.update_eq_self]
    · simp only [if_neg hs]
  · by_cases hs : ∀ c' ∈ cs, b c' = 1
    · simp only [if_pos hs, if_pos ((hu b _).2 hs), Function.update_self, Function.update_idem]
      rcases fin2 (b c) with h | h <;> rcases fin2 (b t) with h' | h' <;>
        simp [h, h', hct.symm, hu, mul_comm x y, e]
      · intro a ha hn; exact absurd (hs a ha) hn
      · rw [if_pos hs, if_pos hs]
    · simp only [if_neg hs]
      rcases fin2 (b c) with h | h <;> rcases fin2 (b t) with h' | h' <;> simp [h, h', hs, e]

/-! ## All laws -/

theorem rule_wf {a b : List (Instr N)} (r : Rule a b) : (∀ g ∈ a, g.WF) ∧ ∀ g ∈ b, g.WF := by
  cases r <;> simp_all [Instr.WF, ne_comm]

theorem onQubit_comm_of {t : Fin N} {ins : Instr N} (hw : ins.WF) (h : t ∉ ins.qubits) (g : Mat2) :
    ins.op * onQubit t g = onQubit t g * ins.op :=
  (opsOn_comm (W := (· ∈ ins.qubits)) (V := (· = t)) (fun _ hi e => h (e ▸ hi)) (instr_mem ins hw)
    (Algebra.subset_adjoin ⟨t, g, rfl, rfl⟩)).eq

theorem rule_op {a b : List (Instr N)} (r : Rule a b) : gatesOp a = gatesOp b := by
  have hn : ∀ {c t : Fin N}, c ≠ t → t ∉ [c] := fun h => by simpa using h.symm
  have hn2 : ∀ {a b t : Fin N}, a ≠ b ∧ a ≠ t ∧ b ≠ t → t ∉ [a, b] := fun h => by
    simpa using ⟨h.2.1.symm, h.2.2.symm⟩
  cases r <;> simp only [gatesOp_cons, gatesOp_nil, one_mul, Instr.op, mul_assoc]
  case h_h i => rw [onQubit_mul, H_sq, onQubit_one]
  case x_x i => rw [onQubit_mul, X_sq, onQubit_one]
  case y_y i => rw [onQubit_mul, Y_sq, onQubit_one]
  case z_z i => rw [onQubit_mul, Z_sq, onQubit_one]
  case cnot_cnot c t h => rw [controlled_mul (hn h), X_sq, controlled_one (hn h)]
  case cz_cz c t h => rw [controlled_mul (hn h), Z_sq, controlled_one (hn h)]
  case swap_swap p q h => rw [swap_mul_self]
  case toffoli_toffoli a b t h => rw [controlled_mul (hn2 h), X_sq, controlled_one (hn2 h)]
  case mcnot_mcnot cs t h => rw [controlled_mul h.2, X_sq, controlled_one h.2]
  case rx_zero i => rw [rot_zero, onQubit_one]
  case ry_zero i => rw [rot_zero, onQubit_one]
  case rz_zero i => rw [rot_zero, onQubit_one]
  case u1_zero i => rw [phase_zero, onQubit_one]
  case u3_zero i => rw [← U3_eq, rot_zero, rot_zero, one_mul, one_mul, onQubit_one]
  case rxx_zero p q h => rw [rot2_zero]
  case ryy_zero p q h => rw [rot2_zero]
  case rzz_zero p q h => rw [rot2_zero]
  case cphase_zero c t h => rw [phase_zero, controlled_one (hn h)]
  case cu3_zero c t h => rw [← U3_eq, rot_zero, rot_zero, one_mul, one_mul, controlled_one (hn h)]
  case rx_rx α β i => rw [onQubit_mul, rot_mul X_sq, add_comm]
  case ry_ry α β i => rw [onQubit_mul, rot_mul Y_sq, add_comm]
  case rz_rz α β i => rw [onQubit_mul, rot_mul Z_sq, add_comm]
  case u1_u1 α β i => rw [onQubit_mul, phase_mul, add_comm]
  case rxx_rxx α β p q h => rw [rot2_mul X_sq h, add_comm]
  case ryy_ryy α β p q h => rw [rot2_mul Y_sq h, add_comm]
  case rzz_rzz α β p q h => rw [rot2_mul Z_sq h, add_comm]
  case cphase_cphase α β c t h => rw [controlled_mul (hn h), phase_mul, add_comm]
  case rx_period α i => rw [rot_period]
  case ry_period α i => rw [rot_period]
  case rz_period α i => rw [rot_period]
  case u1_period α i => rw [phase_period]
  case cphase_period α c t h => rw [phase_period]
  case rxx_period α p q h => rw [rot2_period]
  case ryy_period α p q h => rw [rot2_period]
  case rzz_period α p q h => rw [rot2_period]
  case z_u1 i => rw [phase_pi]
  case x_hzh i => rw [onQubit_mul, onQubit_mul, ← mul_assoc, H_Z_H]
  case y_u1 i => rw [onQubit_mul, onQubit_mul, ← mul_assoc, S_X_S]
  case rx_hrz θ i => rw [onQubit_mul, onQubit_mul, ← mul_assoc, conj_rot H_sq H_Z_H]
  case ry_u1 θ i => rw [onQubit_mul, onQubit_mul, ← mul_assoc, conj_rot S_S S_X_S]
  case rz_u1 θ i => rw [onQubit_mul, onQubit_mul, onQubit_mul, ← mul_assoc, ← mul_assoc, X_phase_X]
  case ry_h θ i => rw [onQubit_mul, onQubit_mul, rot_anti Y_H]
  case x_rz θ i => rw [onQubit_mul, onQubit_mul, rot_anti Z_X]
  case x_ry θ i => rw [onQubit_mul, onQubit_mul, rot_anti Y_X]
  case z_rx θ i => rw [onQubit_mul, onQubit_mul, rot_anti X_Z]
  case z_ry θ i => rw [onQubit_mul, onQubit_mul, rot_anti Y_Z]
  case u3_rot θ φ l i => rw [onQubit_mul, onQubit_mul, ← mul_assoc, U3_eq]
  case cz_symm c t h => rw [cz_symm']
  case cphase_symm θ c t h => rw [cphase_symm']
  case swap_symm p q h => rw [swap_symm']
  case rxx_symm θ p q h => rw [rot2_symm' _ _ h]
  case ryy_symm θ p q h => rw [rot2_symm' _ _ h]
  case rzz_symm θ p q h => rw [rot2_symm' _ _ h]
  case toffoli_symm a b t h => rw [controlled_comm]
  case cz_cphase c t h => rw [phase_pi]
  case cz_cnot c t h => rw [controlled_conj (hn h) H_sq, H_X_H]
  case cnot_flip c t h =>
    rw [← mul_assoc (controlled _ _ _), ← mul_assoc (onQubit t _), controlled_conj (hn h) H_sq, H_X_H, cz_symm',
      controlled_conj (hn h.symm) H_sq, H_Z_H]
  case swap_cnot p q h => rw [swap_cnots h]
  case rzz_cnot θ p q h => rw [rzz_cnots h]
  case rxx_rzz θ p q h => rw [rot2_conj' h H_sq H_Z_H]
  case ryy_rxx θ p q h => rw [rot2_conj' h S_S S_X_S]
  case cphase_cnot θ c t h => rw [← cphase_cnots h]
  case cu3_cnot θ φ l c t h => rw [← cu3_cnots h]
  case toffoli_cnot a b t h =>
    have e1 : controlled [a] b Spec.X * onQubit t Spec.H = onQubit t Spec.H * controlled [a] b Spec.X :=
      onQubit_comm_of (ins := .cnot a b) h.1 (by simpa [Instr.qubits] using hn2 h) _
    have e2 : ∀ {c : Fin N}, c ≠ t → ∀ (w : ℝ) (M : QOp N), onQubit c (Spec.phase w) * (onQubit t Spec.H * M) =
        onQubit t Spec.H * (onQubit c (Spec.phase w) * M) := fun hc w M => by
      rw [← mul_assoc, onQubit_comm hc, mul_assoc]
    have e1' : ∀ M : QOp N, controlled [a] b Spec.X * (onQubit t Spec.H * M) =
        onQubit t Spec.H * (controlled [a] b Spec.X * M) := fun M => by rw [← mul_assoc, e1, mul_assoc]
    rw [e1', e2 h.2.1, e2 h.2.2, e1']
    have := ccz_cnots h (Real.pi / 4)
    rw [mul_div_cancel₀ Real.pi (by norm_num), phase_pi] at this
    have e3 := controlled_conj (hn2 h) H_sq Spec.Z
    rw [H_Z_H, ← this] at e3
    rw [← e3]
    simp only [mul_assoc]
  case x_control c t h =>
    simp only [onQubit_X_pd, cnot_pd, pd_mul]
    refine pd_ext (fun b => ?_) fun b => by simp
    funext j
    by_cases h1 : j = t
    · subst h1; simp [h, h.symm, add_assoc]
    · by_cases h2 : j = c
      · subst h2; simp [h]
      · simp [h1, h2]
  case x_target c t h =>
    simp only [← sel_same [c] t, ← sel_controlled, sel_mul (hn h), one_mul, mul_one]
  case z_control c t h =>
    simp only [Z_pd, cnot_pd, pd_mul]
    exact pd_ext (fun b => rfl) fun b => by simp [h]
  case z_target c t h =>
    simp only [Z_pd, cnot_pd, pd_mul]
    refine pd_ext (fun b => rfl) fun b => ?_
    rcases fin2 (b c) with hp | hp <;> rcases fin2 (b t) with hq | hq <;> simp [hp, hq, h]
  case rz_control θ c t h =>
    simp only [rotZ_pd, cnot_pd, pd_mul]
    exact pd_ext (fun b => rfl) fun b => by simp [h]
  case rx_target θ c t h =>
    simp only [← sel_same [c] t, ← sel_controlled, sel_mul (hn h), one_mul, mul_one, rot_comm]
  case swap_cnot_move p q h =>
    simp only [swap_pd, cnot_pd, pd_mul]
    refine pd_ext (fun b => ?_) fun b => by simp
    funext j
    by_cases h1 : j = q
    · subst h1; simp
    · by_cases h2 : j = p
      · subst h2; simp [h, h.symm]
      · simp [h1, h2, Equiv.swap_apply_of_ne_of_ne h2 h1]
  case disjoint x y hx hy h =>
    exact ((opsOn_comm (W := (· ∈ x.qubits)) (V := (· ∈ y.qubits)) h (instr_mem x hx) (instr_mem y hy)).eq).symm

theorem rewrites_op {a b : List (Instr N)} (r : Rewrites a b) :
    gatesOp a = gatesOp b ∧ ((∀ g ∈ a, g.WF) ↔ ∀ g ∈ b, g.WF) := by
  induction r with
  | refl l => exact ⟨rfl, Iff.rfl⟩
  | step pre post r _ ih =>
    have hw := rule_wf r
    rw [← ih.1, ← ih.2]
    simp only [gatesOp_append, rule_op r, List.forall_mem_append, iff_of_true hw.1 hw.2, and_self]
  | back pre post r _ ih =>
    have hw := rule_wf r
    rw [← ih.1, ← ih.2]
    simp only [gatesOp_append, rule_op r, List.forall_mem_append, iff_of_true hw.1 hw.2, and_self]

/-! ## Hadamards, phase gates and controlled NOTs suffice -/

/-- a phase gate controlled by one qubit -/
noncomputable def cphaseGates (θ : ℝ) (c t : Fin N) : List (Instr N) :=
  [.u1 (θ / 2) c, .u1 (θ / 2) t, .cnot c t, .u1 (-(θ / 2)) t, .cnot c t]

/-- a phase gate controlled by any number of different qubits -/
noncomputable def mcphaseGates : List (Fin N) → ℝ → Fin N → List (Instr N)
  | [], θ, t => [.u1 θ t]
  | c :: cs, θ, t =>
    cphaseGates (θ / 2) c t ++ ([.h c] ++ mcphaseGates cs Real.pi c ++ [.h c]) ++ cphaseGates (-(θ / 2)) c t ++
      ([.h c] ++ mcphaseGates cs Real.pi c ++ [.h c]) ++ mcphaseGates cs (θ / 2) t

theorem cphaseGates_op {c t : Fin N} (h : c ≠ t) (θ : ℝ) :
    gatesOp (cphaseGates θ c t) = controlled [c] t (Spec.phase θ) := by
  have := rule_op (Rule.cphase_cnot θ c t h)
  rw [gatesOp_cons, gatesOp_nil, one_mul] at this
  exact this.symm

theorem hh_op {cs : List (Fin N)} {c : Fin N} (hc : c ∉ cs) {l : List (Instr N)}
    (h : gatesOp l = controlled cs c (Spec.phase Real.pi)) :
    gatesOp ([.h c] ++ l ++ [.h c]) = controlled cs c Spec.X := by
  rw [gatesOp_append, gatesOp_append, h, phase_pi]
  simp only [gatesOp_cons, gatesOp_nil, one_mul, Instr.op]
  rw [controlled_conj hc H_sq, H_Z_H]

theorem mcphaseGates_op {cs : List (Fin N)} (hd : cs.Nodup) {t : Fin N} (ht : t ∉ cs) (θ : ℝ) :
    gatesOp (mcphaseGates cs θ t) = controlled cs t (Spec.phase θ) := by
  induction cs generalizing t θ with
  | nil =>
    rw [mcphaseGates, Props.controlled_nil, gatesOp_cons, gatesOp_nil, one_mul]
    rfl
  | cons c cs ih =>
    have hct : c ≠ t := fun e => ht (by simp [e])
    have ht' : t ∉ cs := fun e => ht (by simp [e])
    have hc : c ∉ cs := (List.nodup_cons.1 hd).1
    have hd' := (List.nodup_cons.1 hd).2
    have hm := hh_op hc (ih hd' hc Real.pi)
    rw [mcphaseGates]
    generalize [Instr.h c] ++ mcphaseGates cs Real.pi c ++ [Instr.h c] = m at hm ⊢
    rw [gatesOp_append, gatesOp_append, gatesOp_append, gatesOp_append, cphaseGates_op hct, cphaseGates_op hct,
      ih hd' ht', hm, mcphase_step hct hc θ]

theorem mcphaseGates_basic {cs : List (Fin N)} {t : Fin N} (hd : cs.Nodup) (ht : t ∉ cs) (θ : ℝ) :
    ∀ g ∈ mcphaseGates cs θ t, g.basic ∧ g.WF := by
  induction cs generalizing t θ with
  | nil => simp [mcphaseGates, Instr.basic, Instr.WF]
  | cons c cs ih =>
    have hct : c ≠ t := fun e => ht (by simp [e])
    have ht' : t ∉ cs := fun e => ht (by simp [e])
    have hc : c ∉ cs := (List.nodup_cons.1 hd).1
    have hd' := (List.nodup_cons.1 hd).2
    have h1 : ∀ θ, ∀ g ∈ cphaseGates θ c t, g.basic ∧ g.WF := fun θ => by
      simp [cphaseGates, Instr.basic, Instr.WF, hct]
    have h2 : ∀ g ∈ [Instr.h c], g.basic ∧ g.WF := by simp [Instr.basic, Instr.WF]
    rw [mcphaseGates]
    simp only [List.forall_mem_append]
    exact ⟨⟨⟨⟨h1 _, ⟨h2, ih hd' hc _⟩, h2⟩, h1 _⟩, ⟨h2, ih hd' hc _⟩, h2⟩, ih hd' ht' _⟩

/-- `l` can be written with Hadamards, phase gates and controlled NOTs -/
def Compiles (l : List (Instr N)) : Prop :=
  ∃ l' : List (Instr N), (∀ g ∈ l', g.basic ∧ g.WF) ∧ gatesOp l' = gatesOp l

theorem Compiles.nil : Compiles ([] : List (Instr N)) := ⟨[], by simp, rfl⟩

theorem Compiles.append {l m : List (Instr N)} : Compiles l → Compiles m → Compiles (l ++ m) :=
  fun ⟨l', h, e⟩ ⟨m', h', e'⟩ => ⟨l' ++ m', List.forall_mem_append.2 ⟨h, h'⟩, by
    rw [gatesOp_append, gatesOp_append, e, e']⟩

theorem Compiles.cons {g : Instr N} {m : List (Instr N)} (h : Compiles [g]) (h' : Compiles m) : Compiles (g :: m) :=
  h.append h'

theorem Compiles.rule {l m : List (Instr N)} (r : Rule l m) : Compiles m → Compiles l :=
  fun ⟨l', h, e⟩ => ⟨l', h, by rw [e, rule_op r]⟩

theorem Compiles.basic {g : Instr N} (h : g.basic) (hw : g.WF) : Compiles [g] := ⟨[g], by simpa using ⟨h, hw⟩, rfl⟩

theorem compile_gate (g : Instr N) (h : g.WF) : Compiles [g] := by
  have kh : ∀ i : Fin N, Compiles [Instr.h i] := fun i => .basic trivial trivial
  have ku : ∀ (θ : ℝ) (i : Fin N), Compiles [Instr.u1 θ i] := fun θ i => .basic trivial trivial
  have kc : ∀ {c t : Fin N}, c ≠ t → Compiles [Instr.cnot c t] := fun h => .basic trivial h
  have kz : ∀ i : Fin N, Compiles [Instr.z i] := fun i => .rule (.z_u1 i) (ku _ _)
  have kx : ∀ i : Fin N, Compiles [Instr.x i] := fun i => .rule (.x_hzh i) ((kh i).cons ((kz i).cons (kh i)))
  have krz : ∀ (θ : ℝ) (i : Fin N), Compiles [Instr.rz θ i] := fun θ i =>
    .rule (.rz_u1 θ i) ((ku _ _).cons ((kx i).cons ((ku _ _).cons (kx i))))
  have krx : ∀ (θ : ℝ) (i : Fin N), Compiles [Instr.rx θ i] := fun θ i =>
    .rule (.rx_hrz θ i) ((kh i).cons ((krz _ i).cons (kh i)))
  have kry : ∀ (θ : ℝ) (i : Fin N), Compiles [Instr.ry θ i] := fun θ i =>
    .rule (.ry_u1 θ i) ((ku _ i).cons ((krx _ i).cons (ku _ i)))
  have krzz : ∀ (θ : ℝ) {p q : Fin N}, p ≠ q → Compiles [Instr.rzz θ p q] := fun θ p q h =>
    .rule (.rzz_cnot θ p q h) ((kc h).cons ((krz _ q).cons (kc h)))
  have krxx : ∀ (θ : ℝ) {p q : Fin N}, p ≠ q → Compiles [Instr.rxx θ p q] := fun θ p q h =>
    .rule (.rxx_rzz θ p q h) ((kh p).cons ((kh q).cons ((krzz θ h).cons ((kh q).cons (kh p)))))
  have kcp : ∀ (θ : ℝ) {p q : Fin N}, p ≠ q → Compiles [Instr.cphase θ p q] := fun θ p q h =>
    .rule (.cphase_cnot θ p q h) ((ku _ p).cons ((ku _ q).cons ((kc h).cons ((ku _ q).cons (kc h)))))
  have kmc : ∀ (cs : List (Fin N)) (t : Fin N), cs ≠ [] ∧ t ∉ cs → Compiles [Instr.mcnot cs t] := by
    intro cs t hc
    have ht : t ∉ cs.dedup := by simpa using hc.2
    refine ⟨[.h t] ++ mcphaseGates cs.dedup Real.pi t ++ [.h t], ?_, ?_⟩
    · have h2 : ∀ g ∈ [Instr.h t], g.basic ∧ g.WF := by simp [Instr.basic, Instr.WF]
      simp only [List.forall_mem_append]
      exact ⟨⟨h2, mcphaseGates_basic cs.nodup_dedup ht _⟩, h2⟩
    · rw [hh_op ht (mcphaseGates_op cs.nodup_dedup ht _), gatesOp_cons, gatesOp_nil, one_mul]
      ext a b
      simp [Instr.op, controlled]
  cases g with
  | h i => exact kh i
  | x i => exact kx i
  | y i => exact .rule (.y_u1 i) ((ku _ i).cons ((kx i).cons (ku _ i)))
  | z i => exact kz i
  | rx θ i => exact krx θ i
  | ry θ i => exact kry θ i
  | rz θ i => exact krz θ i
  | u1 θ i => exact ku θ i
  | u3 θ φ l i => exact .rule (.u3_rot θ φ l i) ((krz _ i).cons ((kry _ i).cons (krz _ i)))
  | rxx θ p q => exact krxx θ h
  | ryy θ p q =>
    exact .rule (.ryy_rxx θ p q h) ((ku _ p).cons ((ku _ q).cons ((krxx θ h).cons ((ku _ q).cons (ku _ p)))))
  | rzz θ p q => exact krzz θ h
  | cnot c t => exact kc h
  | cz c t => exact .rule (.cz_cphase c t h) (kcp _ h)
  | cphase θ c t => exact kcp θ h
  | cu3 θ φ l c t =>
    exact .rule (.cu3_cnot θ φ l c t h) ((krz _ t).cons ((kc h).cons ((krz _ t).cons ((kry _ t).cons
      ((kc h).cons ((kry _ t).cons (krz _ t)))))))
  | swap p q => exact .rule (.swap_cnot p q h) ((kc h).cons ((kc (Ne.symm h)).cons (kc h)))
  | toffoli a b t => exact .rule (.toffoli_mcnot a b t h) (kmc _ _ ⟨by simp, by simpa using ⟨h.2.1.symm, h.2.2.symm⟩⟩)
  | mcnot cs t => exact kmc cs t h

theorem compile_gates (l : List (Instr N)) (h : ∀ g ∈ l, g.WF) : Compiles l := by
  induction l with
  | nil => exact .nil
  | cons g l ih =>
    exact (compile_gate g (h g (by simp))).cons (ih fun g' hg => h g' (by simp [hg]))

end QTN
