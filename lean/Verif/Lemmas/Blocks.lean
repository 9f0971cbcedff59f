import Verif.Lemmas.Descent
import Verif.Lemmas.RoundLayer
import Verif.Props.Accuracy

/-! # How an expectation value changes when the parameters move gate by gate (property C109) -/

namespace QTN

open QTN.Spec Matrix Finset

variable {N : ℕ}

/-! ## A rotation about Y, Z and Y -/

/-- A quaternion as a matrix. -/
noncomputable def quat (w x y z : ℝ) : Mat2 :=
  !![(w : ℂ) - z * Complex.I, -(y : ℂ) - x * Complex.I; (y : ℂ) - x * Complex.I, (w : ℂ) + z * Complex.I]

theorem quat_sub (w x y z w' x' y' z' : ℝ) :
    quat w x y z - quat w' x' y' z' = quat (w - w') (x - x') (y - y') (z - z') := by
  unfold quat
  ext i j
  fin_cases i <;> fin_cases j <;> simp <;> ring

theorem quat_norm (w x y z : ℝ) :
    (quat w x y z)ᴴ * quat w x y z = ((w ^ 2 + x ^ 2 + y ^ 2 + z ^ 2 : ℝ) : ℂ) • (1 : Mat2) := by
  unfold quat
  ext i j
  fin_cases i <;> fin_cases j <;> apply Complex.ext <;>
    simp [Matrix.mul_apply, Fin.sum_univ_two, pow_two] <;> ring

theorem yzy_quat (a b c : ℝ) : seqRot [Spec.Y, Spec.Z, Spec.Y] [a, b, c] =
    quat (Real.cos (b / 2) * Real.cos ((a + c) / 2)) (Real.sin (b / 2) * Real.sin ((c - a) / 2))
      (Real.cos (b / 2) * Real.sin ((a + c) / 2)) (Real.sin (b / 2) * Real.cos ((c - a) / 2)) := by
  rw [add_div, sub_div, Real.cos_add, Real.sin_add, Real.cos_sub, Real.sin_sub]
  simp only [seqRot, one_mul]
  unfold quat rot
  generalize Real.cos (a / 2) = ca
  generalize Real.cos (b / 2) = cb
  generalize Real.cos (c / 2) = cc
  generalize Real.sin (a / 2) = sa
  generalize Real.sin (b / 2) = sb
  generalize Real.sin (c / 2) = sc
  ext i j
  fin_cases i <;> fin_cases j <;> apply Complex.ext <;>
    simp [Spec.Y, Spec.Z, Matrix.mul_apply, Fin.sum_univ_two] <;> ring

/-- The sum of the squared differences of two lists of parameters. -/
noncomputable def sqDist (p p' : List ℝ) : ℝ := ∑ i ∈ range p.length, (p.getD i 0 - p'.getD i 0) ^ 2

theorem sqDist_nonneg (p p' : List ℝ) : 0 ≤ sqDist p p' := Finset.sum_nonneg fun _ _ => sq_nonneg _

theorem quat_diff {c s c' s' u w u' w' x y x' y' : ℝ} (q1 : c ^ 2 + s ^ 2 = 1) (q2 : c' ^ 2 + s' ^ 2 = 1)
    (q3 : u ^ 2 + w ^ 2 = 1) (q4 : u' ^ 2 + w' ^ 2 = 1) (q5 : x ^ 2 + y ^ 2 = 1) (q6 : x' ^ 2 + y' ^ 2 = 1) :
    (c * u - c' * u') ^ 2 + (s * y - s' * y') ^ 2 + (c * w - c' * w') ^ 2 + (s * x - s' * x') ^ 2 =
      2 - 2 * (c * c' * (u * u' + w * w') + s * s' * (x * x' + y * y')) := by
  linear_combination c ^ 2 * q3 + c' ^ 2 * q4 + s ^ 2 * q5 + s' ^ 2 * q6 + q1 + q2

theorem quat_close_aux (β β' σ σ' τ τ' m : ℝ) (m1 : (σ - σ') ^ 2 ≤ m) (m2 : (τ - τ') ^ 2 ≤ m) :
    (Real.cos β * Real.cos σ - Real.cos β' * Real.cos σ') ^ 2 + (Real.sin β * Real.sin τ - Real.sin β' * Real.sin τ') ^ 2 +
    (Real.cos β * Real.sin σ - Real.cos β' * Real.sin σ') ^ 2 +
    (Real.sin β * Real.cos τ - Real.sin β' * Real.cos τ') ^ 2 ≤ (β - β') ^ 2 + m := by
  have h1 := Real.one_sub_sq_div_two_le_cos (x := β - β')
  have h2 := Real.one_sub_sq_div_two_le_cos (x := σ - σ')
  have h3 := Real.one_sub_sq_div_two_le_cos (x := τ - τ')
  have k2 := Real.cos_le_one (σ - σ')
  have k3 := Real.cos_le_one (τ - τ')
  rw [quat_diff (Real.cos_sq_add_sin_sq β) (Real.cos_sq_add_sin_sq β') (Real.cos_sq_add_sin_sq σ)
    (Real.cos_sq_add_sin_sq σ') (Real.cos_sq_add_sin_sq τ) (Real.cos_sq_add_sin_sq τ'), ← Real.cos_sub, ← Real.cos_sub]
  have hCS : |Real.cos β * Real.cos β'| + |Real.sin β * Real.sin β'| ≤ 1 := by
    rw [abs_mul, abs_mul]
    have q1 := Real.cos_sq_add_sin_sq β
    have q2 := Real.cos_sq_add_sin_sq β'
    have r1 := two_mul_le_add_sq |Real.cos β| |Real.cos β'|
    have r2 := two_mul_le_add_sq |Real.sin β| |Real.sin β'|
    rw [sq_abs, sq_abs] at r1 r2
    linarith
  rw [Real.cos_sub β β'] at h1
  generalize Real.cos β * Real.cos β' = C at *
  generalize Real.sin β * Real.sin β' = S at *
  generalize Real.cos (σ - σ') = x at *
  generalize Real.cos (τ - τ') = y at *
  have f1 : C * (1 - x) ≤ |C| * (1 - x) := mul_le_mul_of_nonneg_right (le_abs_self C) (by linarith)
  have f2 : S * (1 - y) ≤ |S| * (1 - y) := mul_le_mul_of_nonneg_right (le_abs_self S) (by linarith)
  have g1 : |C| * (1 - x) ≤ |C| * (m / 2) := mul_le_mul_of_nonneg_left (by linarith) (abs_nonneg _)
  have g2 : |S| * (1 - y) ≤ |S| * (m / 2) := mul_le_mul_of_nonneg_left (by linarith) (abs_nonneg _)
  have m0 : 0 ≤ m := (sq_nonneg _).trans m1
  have g3 : (|C| + |S|) * (m / 2) ≤ m / 2 := mul_le_of_le_one_left (by linarith) hCS
  rw [add_mul] at g3
  rw [mul_sub, mul_one] at f1 f2
  linarith

theorem quat_close (a b c a' b' c' : ℝ) :
    (Real.cos (b / 2) * Real.cos ((a + c) / 2) - Real.cos (b' / 2) * Real.cos ((a' + c') / 2)) ^ 2 +
    (Real.sin (b / 2) * Real.sin ((c - a) / 2) - Real.sin (b' / 2) * Real.sin ((c' - a') / 2)) ^ 2 +
    (Real.cos (b / 2) * Real.sin ((a + c) / 2) - Real.cos (b' / 2) * Real.sin ((a' + c') / 2)) ^ 2 +
    (Real.sin (b / 2) * Real.cos ((c - a) / 2) - Real.sin (b' / 2) * Real.cos ((c' - a') / 2)) ^ 2 ≤
      ((a - a') ^ 2 + (b - b') ^ 2 + (c - c') ^ 2) / 2 := by
  refine (quat_close_aux _ _ _ _ _ _ (((a - a') ^ 2 + (c - c') ^ 2) / 2) ?_ ?_).trans ?_
  · have := sq_nonneg ((a - a') - (c - c'))
    ring_nf at this ⊢
    linarith
  · have := sq_nonneg ((a - a') + (c - c'))
    ring_nf at this ⊢
    linarith
  · have := sq_nonneg (b - b')
    ring_nf at this ⊢
    linarith

/-- A qubit's three rotations move a state by at most `√(½ Σ (change of angle)²)`. -/
theorem near_yzy (j : Fin N) (p p' : List ℝ) (h : p.length = 3) (h' : p'.length = 3) :
    NearOp 1 (Real.sqrt (sqDist p p' / 2)) (onQubit j (seqRot [Spec.Y, Spec.Z, Spec.Y] p))
      (onQubit j (seqRot [Spec.Y, Spec.Z, Spec.Y] p')) := by
  match p, p', h, h' with
  | [a, b, c], [a', b', c'], _, _ =>
    have hu : ∀ q : List ℝ, IsUnitaryOp (onQubit j (seqRot [Spec.Y, Spec.Z, Spec.Y] q)) := fun q =>
      onQubit_unitary (seqRot_u2 _ (axes_axis .yzy) q) j
    refine ⟨hu _, hu _, by simp, fun v => ?_⟩
    have hd := quat_close a b c a' b' c'
    have hs : sqDist [a, b, c] [a', b', c'] = (a - a') ^ 2 + (b - b') ^ 2 + (c - c') ^ 2 := by
      simp [sqDist, Finset.sum_range_succ]
    rw [← hs] at hd
    rw [one_smul, ← Matrix.sub_mulVec, Arith.onQubit_sub, yzy_quat, yzy_quat, quat_sub]
    have hn := quat_norm (Real.cos (b / 2) * Real.cos ((a + c) / 2) - Real.cos (b' / 2) * Real.cos ((a' + c') / 2))
      (Real.sin (b / 2) * Real.sin ((c - a) / 2) - Real.sin (b' / 2) * Real.sin ((c' - a') / 2))
      (Real.cos (b / 2) * Real.sin ((a + c) / 2) - Real.cos (b' / 2) * Real.sin ((a' + c') / 2))
      (Real.sin (b / 2) * Real.cos ((c - a) / 2) - Real.sin (b' / 2) * Real.cos ((c' - a') / 2))
    set r := _ + (Real.sin (b / 2) * Real.cos ((c - a) / 2) - Real.sin (b' / 2) * Real.cos ((c' - a') / 2)) ^ 2
    set q := quat _ _ _ _
    have e : ip (onQubit j q *ᵥ v) (onQubit j q *ᵥ v) = (r : ℂ) * ip v v := by
      rw [show onQubit j q = (onQubit j qᴴ)ᴴ by rw [onQubit_conjTranspose, conjTranspose_conjTranspose], ip_adj,
        Matrix.mulVec_mulVec, onQubit_conjTranspose, conjTranspose_conjTranspose, onQubit_mul, hn, onQubit_smul',
        onQubit_one, Matrix.smul_mulVec, Matrix.one_mulVec]
      unfold ip
      rw [Finset.mul_sum]
      exact Finset.sum_congr rfl fun a _ => by simp; ring
    rw [Props.ip_self, Props.ip_self, ← Complex.ofReal_mul, Complex.ofReal_inj] at e
    refine le_of_sq_le_sq ?_ (mul_nonneg (Real.sqrt_nonneg _) (norm2_nonneg _))
    rw [e, mul_pow, Real.sq_sqrt (by have := sqDist_nonneg [a, b, c] [a', b', c']; positivity)]
    exact mul_le_mul_of_nonneg_right hd (sq_nonneg _)

/-! ## Two changes at once -/

theorem braket_op_sub (A B : QOp N) (v : QState N) : braket (A - B) v = braket A v - braket B v := by
  unfold braket
  simp only [Matrix.sub_apply, mul_sub, sub_mul, Finset.sum_sub_distrib]

/-- The effect of a change of the circuit hardly depends on a small change of its input. -/
theorem braket_mixed {O R R' : QOp N} {B ρ : ℝ} (hB0 : 0 ≤ B) (hB : ∀ w : QState N, norm2 (O *ᵥ w) ≤ B * norm2 w)
    (h : NearOp 1 ρ R R') (w w' : QState N) :
    ‖(braket O (R' *ᵥ w') - braket O (R *ᵥ w')) - (braket O (R' *ᵥ w) - braket O (R *ᵥ w))‖ ≤
      2 * B * ρ * (norm2 w' + norm2 w) * dist2 w' w := by
  obtain ⟨hR, hR', -, hn⟩ := h
  have hD : Bnd ρ (R - R') := fun v => by
    have := hn v
    rwa [one_smul, ← Matrix.sub_mulVec] at this
  have hT : Bnd 1 R'ᴴ := Bnd.unitary ⟨by rw [conjTranspose_conjTranspose]; exact hR'.2, by rw [conjTranspose_conjTranspose]; exact hR'.1⟩
  have hS : Bnd 1 Rᴴ := Bnd.unitary ⟨by rw [conjTranspose_conjTranspose]; exact hR.2, by rw [conjTranspose_conjTranspose]; exact hR.1⟩
  have e : R'ᴴ * O * R' - Rᴴ * O * R = R'ᴴ * O * -(R - R') + R'ᴴ * ((R - R') * (Rᴴ * (O * R))) := by
    have e1 : R'ᴴ * ((R - R') * (Rᴴ * (O * R))) = R'ᴴ * (R * Rᴴ) * (O * R) - (R'ᴴ * R') * Rᴴ * (O * R) := by
      noncomm_ring
    rw [e1, hR.1, hR'.2]
    noncomm_ring
  have hX : Bnd (2 * B * ρ) (R'ᴴ * O * R' - Rᴴ * O * R) := by
    by_cases hρ : 0 ≤ ρ
    · rw [e]
      have b1 := Bnd.mul (by positivity) (Bnd.mul zero_le_one hT hB) hD.neg
      have b2 := Bnd.mul zero_le_one hT (Bnd.mul hρ hD (Bnd.mul zero_le_one hS (Bnd.mul hB0 hB (Bnd.unitary hR))))
      exact (b1.add b2).mono (by ring_nf; rfl)
    · intro v
      have h0 : norm2 v = 0 := by
        have h1 := (norm2_nonneg _).trans (hD v)
        have h2 := norm2_nonneg v
        by_contra hne
        have : 0 < norm2 v := lt_of_le_of_ne h2 (Ne.symm hne)
        nlinarith
      have b1 := Bnd.mul (by positivity) (Bnd.mul zero_le_one hT hB) (Bnd.unitary hR') v
      have b2 := Bnd.mul (by positivity) (Bnd.mul zero_le_one hS hB) (Bnd.unitary hR) v
      rw [h0, mul_zero] at b1 b2 ⊢
      have := Bnd.sub (M := R'ᴴ * O * R') (M' := Rᴴ * O * R) (Bnd.mul (by positivity) (Bnd.mul zero_le_one hT hB) (Bnd.unitary hR'))
        (Bnd.mul (by positivity) (Bnd.mul zero_le_one hS hB) (Bnd.unitary hR)) v
      rwa [h0, mul_zero] at this
  have := Props.braket_diff hX w' w
  rwa [braket_op_sub, braket_op_sub, ← braket_mul, ← braket_mul, ← braket_mul, ← braket_mul] at this

/-- How far the state can move when the parameters change, gate by gate. -/
noncomputable def moveSum (r : List ℝ → List ℝ → ℝ) : List (Item N) → List (Item N) → ℝ
  | it :: l, it' :: l' => r it.params it'.params + moveSum r l l'
  | _, _ => 0

/-- The second-order term, gate by gate. -/
noncomputable def blockCost (r : List ℝ → List ℝ → ℝ) : List (Item N) → List (Item N) → ℝ
  | it :: l, it' :: l' =>
    paramDist it.params it'.params ^ 2 / 2 + 4 * r it.params it'.params * moveSum r l l' + blockCost r l l'
  | _, _ => 0

theorem near_moves {r : List ℝ → List ℝ → ℝ} {l l' : List (Item N)} (hs : SameForm l l')
    (hr : ∀ it ∈ l, ∀ p, p.length = it.params.length → NearOp 1 (r it.params p) it.op (it.withParams p).op) :
    NearOp 1 (moveSum r l l') (circuitOp l) (circuitOp l') := by
  induction hs with
  | nil => exact NearOp.refl isUnitaryOp_one
  | cons h hs ih =>
    rename_i it it' l l'
    obtain ⟨p, hp, rfl⟩ := h
    have e : (it.withParams p).params = p := params_withParams it p hp
    have := (ih fun x hx => hr x (by simp [hx])).mul1 (hr it (by simp) p hp)
    rw [circuitOp_cons, circuitOp_cons, moveSum, e, add_comm]
    exact this

theorem energy_cons (O : QOp N) (v : QState N) (it : Item N) (l : List (Item N)) :
    energy O v (it :: l) = energy O (it.op *ᵥ v) l := by
  unfold energy
  rw [circuitOp_cons, Matrix.mulVec_mulVec]

theorem shiftValue_later (O : QOp N) (v : QState N) (it : Item N) (l : List (Item N)) (j : ℕ) :
    shiftValue O v (it :: l) (it.params.length + j) = shiftValue O (it.op *ᵥ v) l j := by
  unfold shiftValue
  have e : (allParams (it :: l)).getD (it.params.length + j) 0 = (allParams l).getD j 0 := by
    unfold allParams
    rw [List.flatMap_cons, List.getD_append_right _ _ _ _ (by omega)]
    congr 1
    omega
  have hset : ∀ x, setParam (it :: l) (it.params.length + j) x = it :: setParam l j x := fun x => by
    rw [setParam, if_neg (by omega), Nat.add_sub_cancel_left]
  rw [e, hset, hset, energy_cons, energy_cons]

/-- The expectation value after a move of all parameters: the linear prediction and a term for every gate and every pair of
gates. -/
theorem block_descent {O : QOp N} {B : ℝ} (hB0 : 0 ≤ B) (hB : ∀ w : QState N, norm2 (O *ᵥ w) ≤ B * norm2 w)
    {r : List ℝ → List ℝ → ℝ} {l l' : List (Item N)} (hs : SameForm l l') (hw : ∀ it ∈ l, it.WF)
    (hc : ∀ it ∈ l, ¬ Props.IsCu3 it)
    (hr : ∀ it ∈ l, ∀ p, p.length = it.params.length → NearOp 1 (r it.params p) it.op (it.withParams p).op)
    (h0 : ∀ p p', 0 ≤ r p p') (v : QState N) :
    energy O v l' ≤ energy O v l +
      ∑ j ∈ range (allParams l).length, shiftValue O v l j * ((allParams l').getD j 0 - (allParams l).getD j 0) +
      B * norm2 v ^ 2 * blockCost r l l' := by
  induction hs generalizing v with
  | nil => simp [allParams, blockCost]
  | cons h hs ih =>
    rename_i it it' l l'
    obtain ⟨p, hp, rfl⟩ := h
    have e : (it.withParams p).params = p := params_withParams it p hp
    have hnr := hr it (by simp) p hp
    have hm0 : ∀ l l' : List (Item N), 0 ≤ moveSum r l l' := by
      intro l
      induction l with
      | nil => intro l'; simp [moveSum]
      | cons a l ih =>
        intro l'
        cases l' with
        | nil => simp [moveSum]
        | cons b l' => exact add_nonneg (h0 _ _) (ih l')
    -- the first gate alone
    have h1 := energy_descent hB0 hB (l := it :: l) (l' := it.withParams p :: l)
      (.cons ⟨p, hp, rfl⟩ (List.forall₂_same.2 fun x _ => ⟨x.params, rfl, (withParams_self x).symm⟩)) hw hc v
    -- the others alone
    have h2 := ih (fun x hx => hw x (by simp [hx])) (fun x hx => hc x (by simp [hx])) (fun x hx => hr x (by simp [hx]))
      (it.op *ᵥ v)
    -- both
    have h3 := braket_mixed hB0 hB (near_moves hs fun x hx => hr x (by simp [hx])) (it.op *ᵥ v) ((it.withParams p).op *ᵥ v)
    have hd : dist2 ((it.withParams p).op *ᵥ v) (it.op *ᵥ v) ≤ r it.params p * norm2 v := by
      have := hnr.2.2.2 v
      rw [one_smul] at this
      rwa [dist2_comm, dist2_eq]
    rw [norm2_unitary hnr.1, norm2_unitary hnr.2.1] at h3
    rw [norm2_unitary hnr.1] at h2
    have h4 := (Complex.abs_re_le_norm _).trans (h3.trans (mul_le_mul_of_nonneg_left hd
      (by have := norm2_nonneg v; have := hm0 l l'; positivity)))
    have h5 := (abs_le.1 h4).2
    simp only [Complex.sub_re] at h5
    have hlen : (allParams (it :: l)).length = it.params.length + (allParams l).length := by
      simp [allParams]
    have hA : ∀ (x y : Item N) (m : List (Item N)) (j : ℕ), x.params.length = it.params.length →
        (allParams (x :: m)).getD (it.params.length + j) 0 = (allParams m).getD j 0 := by
      intro x y m j hx
      unfold allParams
      rw [List.flatMap_cons, List.getD_append_right _ _ _ _ (by omega)]
      congr 1
      omega
    have hF : ∀ (x : Item N) (m : List (Item N)) (j : ℕ), x.params.length = it.params.length → j < it.params.length →
        (allParams (x :: m)).getD j 0 = x.params.getD j 0 := by
      intro x m j hx hj
      unfold allParams
      rw [List.flatMap_cons, List.getD_append _ _ _ _ (by omega)]
    have hlp : (it.withParams p).params.length = it.params.length := by rw [e, hp]
    rw [hlen, Finset.sum_range_add, Finset.sum_range_add] at h1
    rw [hlen, Finset.sum_range_add]
    simp only [hA _ it _ _ hlp, hA it it _ _ rfl, sub_self, mul_zero, abs_zero, Finset.sum_const_zero, add_zero,
      shiftValue_later] at h1 ⊢
    have hsame : ∀ j ∈ range it.params.length, shiftValue O v (it :: l) j *
        ((allParams (it.withParams p :: l)).getD j 0 - (allParams (it :: l)).getD j 0) = shiftValue O v (it :: l) j *
        ((allParams (it.withParams p :: l')).getD j 0 - (allParams (it :: l)).getD j 0) := fun j hj => by
      have hj' := Finset.mem_range.1 hj
      rw [hF _ l j hlp hj', hF _ l' j hlp hj']
    have hpd : ∑ j ∈ range it.params.length, |(allParams (it.withParams p :: l)).getD j 0 - (allParams (it :: l)).getD j 0|
        = paramDist it.params p := by
      unfold paramDist
      refine Finset.sum_congr rfl fun j hj => ?_
      have hj' := Finset.mem_range.1 hj
      rw [hF _ l j hlp hj', hF it l j rfl hj', e, abs_sub_comm]
    rw [Finset.sum_congr rfl hsame, hpd] at h1
    rw [blockCost, e]
    rw [energy_cons, energy_cons] at h1
    rw [energy_cons, energy_cons]
    unfold energy at h1 h2 ⊢
    have : B * norm2 v ^ 2 * (paramDist it.params p ^ 2 / 2 + 4 * r it.params p * moveSum r l l' + blockCost r l l') =
      B * norm2 v ^ 2 / 2 * paramDist it.params p ^ 2 + 2 * B * moveSum r l l' * (norm2 v + norm2 v) * (r it.params p * norm2 v)
        + B * norm2 v ^ 2 * blockCost r l l' := by ring
    rw [this]
    linarith

/-! ## Gates with at most three parameters -/

/-- How far three rotations of a qubit move the state. -/
noncomputable def blockMove (p p' : List ℝ) : ℝ := Real.sqrt (sqDist p p' / 2)

theorem blockMove_nonneg (p p' : List ℝ) : 0 ≤ blockMove p p' := Real.sqrt_nonneg _

theorem blockMove_sq (p p' : List ℝ) : blockMove p p' ^ 2 = sqDist p p' / 2 :=
  Real.sq_sqrt (by have := sqDist_nonneg p p'; positivity)

/-- The number of operations with parameters. -/
def active (l : List (Item N)) : ℕ := (l.map fun it => if it.params = [] then 0 else 1).sum

theorem sqDist_append {a a' b b' : List ℝ} (h : a.length = a'.length) :
    sqDist (a ++ b) (a' ++ b') = sqDist a a' + sqDist b b' := by
  unfold sqDist
  rw [List.length_append, Finset.sum_range_add]
  congr 1
  · refine Finset.sum_congr rfl fun i hi => ?_
    rw [Finset.mem_range] at hi
    rw [List.getD_append _ _ _ _ hi, List.getD_append _ _ _ _ (h ▸ hi)]
  · refine Finset.sum_congr rfl fun i _ => ?_
    rw [List.getD_append_right _ _ _ _ (by omega), List.getD_append_right _ _ _ _ (by omega)]
    congr 3 <;> omega

theorem paramDist_sq_le (p p' : List ℝ) (h : p.length ≤ 3) : paramDist p p' ^ 2 ≤ 3 * sqDist p p' := by
  have := sq_sum_le_card_mul_sum_sq (s := range p.length) (f := fun j => |p.getD j 0 - p'.getD j 0|)
  simp only [Finset.card_range, sq_abs] at this
  refine this.trans (mul_le_mul_of_nonneg_right ?_ (sqDist_nonneg p p'))
  exact_mod_cast h

theorem blockCost_le {l l' : List (Item N)} (hs : SameForm l l') (h3 : ∀ it ∈ l, it.params.length ≤ 3) :
    blockCost blockMove l l' ≤ (active l + 1 / 2) * sqDist (allParams l) (allParams l') := by
  have key : blockCost blockMove l l' ≤ sqDist (allParams l) (allParams l') / 2 + 2 * moveSum blockMove l l' ^ 2 ∧
      2 * moveSum blockMove l l' ^ 2 ≤ active l * sqDist (allParams l) (allParams l') := by
    induction hs with
    | nil => simp [blockCost, moveSum, allParams, sqDist]
    | cons h hs ih =>
      rename_i it it' l l'
      obtain ⟨p, hp, rfl⟩ := h
      have e : (it.withParams p).params = p := params_withParams it p hp
      obtain ⟨i1, i2⟩ := ih fun x hx => h3 x (by simp [hx])
      have hq : sqDist (allParams (it :: l)) (allParams (it.withParams p :: l')) =
          sqDist it.params p + sqDist (allParams l) (allParams l') := by
        unfold allParams
        rw [List.flatMap_cons, List.flatMap_cons, e, sqDist_append hp.symm]
      have hb := blockMove_sq it.params p
      have hQ := sqDist_nonneg (allParams l) (allParams l')
      have hE := sqDist_nonneg it.params p
      have hd := paramDist_sq_le it.params p (h3 it (by simp))
      rw [blockCost, moveSum, e, hq]
      refine ⟨by nlinarith, ?_⟩
      have ha : active (it :: l) = (if it.params = [] then 0 else 1) + active l := by simp [active]
      rw [ha]
      generalize moveSum blockMove l l' = S at *
      generalize hx : blockMove it.params p = x at *
      generalize sqDist (allParams l) (allParams l') = Q at *
      split_ifs with h
      · have hE0 : sqDist it.params p = 0 := by rw [h]; simp [sqDist]
        rw [hE0] at hb ⊢
        have hx0 : x = 0 := by simpa using hb
        rw [hx0]
        simpa using i2
      · have hm : (0 : ℝ) ≤ (active l : ℝ) := Nat.cast_nonneg _
        push_cast
        rcases Nat.eq_zero_or_pos (active l) with h0 | h0
        · rw [h0] at i2 ⊢
          have hS : S = 0 := by
            have : S ^ 2 ≤ 0 := by
              rw [Nat.cast_zero, zero_mul] at i2
              linarith
            exact pow_eq_zero_iff (two_ne_zero) |>.1 (le_antisymm this (sq_nonneg _))
          rw [hS]
          push_cast
          nlinarith
        · have h1 : (1 : ℝ) ≤ (active l : ℝ) := by exact_mod_cast h0
          generalize (active l : ℝ) = m at *
          have hm0 : 0 < m := by linarith
          have c1 : 4 * (x * S) ≤ 2 * m * x ^ 2 + Q := by
            have := sq_nonneg (m * x - S)
            have c2 : m * (4 * (x * S)) ≤ m * (2 * m * x ^ 2 + Q) := by nlinarith
            exact le_of_mul_le_mul_left c2 hm0
          nlinarith
  linarith [key.1, key.2]

end QTN
