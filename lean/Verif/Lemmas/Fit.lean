import Verif.Lemmas.Rewrite
import Verif.Props.Train
import Verif.Props.Classify

/-! # Lemmas for C98: what a ring of CNOTs does to bits and to Pauli matrices -/

namespace QTN

open QTN.Spec Matrix Finset

variable {N : ℕ}

/-! ## A ring of CNOTs on basis states -/

/-- Bit 0 becomes the sum of the other bits, bit `k` the sum of the bits `0, …, k`. -/
def ringBits (b : Bits N) : Bits N := fun k =>
  if (k : ℕ) = 0 then ∑ j : Fin N with 0 < j.val, b j else ∑ j : Fin N with j.val ≤ k.val, b j

/-- The bits after the first `k` gates. -/
def ringBitsUpTo (k : ℕ) (b : Bits N) : Bits N := fun j =>
  if (j : ℕ) ≤ k then ∑ i : Fin N with i.val ≤ j.val, b i else b j

theorem sum_le_succ (b : Bits N) {k : ℕ} (h : k + 1 < N) :
    ∑ i : Fin N with i.val ≤ k + 1, b i = b ⟨k + 1, h⟩ + ∑ i : Fin N with i.val ≤ k, b i := by
  have : (univ.filter fun i : Fin N => i.val ≤ k + 1) = insert ⟨k + 1, h⟩ (univ.filter fun i : Fin N => i.val ≤ k) := by
    ext i
    simp [Fin.ext_iff]
    omega
  rw [this, sum_insert (by simp)]

theorem sum_le_zero (b : Bits N) (h : 0 < N) : ∑ i : Fin N with i.val ≤ 0, b i = b ⟨0, h⟩ := by
  have : (univ.filter fun i : Fin N => i.val ≤ 0) = {⟨0, h⟩} := by
    ext i
    simp [Fin.ext_iff]
  rw [this, sum_singleton]

theorem ring_upTo (k : ℕ) (h : k + 1 ≤ N) :
    timeOrdered ((ringPairs N 1 k).map (cn N)) = pd (ringBitsUpTo k) (fun _ => 1) := by
  induction k with
  | zero =>
    rw [ringPairs, List.range_zero, List.map_nil, List.map_nil, timeOrdered_nil, pd_one]
    refine pd_ext (fun b => funext fun j => ?_) fun _ => rfl
    unfold ringBitsUpTo
    split
    · have hj : (j : ℕ) = 0 := by omega
      rw [hj, sum_le_zero b (by omega)]
      congr 1
      exact Fin.ext hj
    · rfl
  | succ k ih =>
    rw [ringPairs_succ, List.map_append, timeOrdered_append, ih (by omega), List.map_singleton, timeOrdered_singleton]
    have e : (k + 1) % N = k + 1 := Nat.mod_eq_of_lt (by omega)
    rw [cn, dif_pos ⟨by simp; omega, by simp [e]; omega⟩]
    simp only [e]
    rw [cnot_pd, pd_mul]
    refine pd_ext (fun b => funext fun j => ?_) fun _ => by simp
    by_cases hj : j = ⟨k + 1, by omega⟩
    · subst hj
      rw [Function.update_self]
      simp [ringBitsUpTo, sum_le_succ b (k := k) (by omega)]
    · rw [Function.update_of_ne hj]
      have : (j : ℕ) ≠ k + 1 := fun h => hj (Fin.ext h)
      unfold ringBitsUpTo
      by_cases h' : (j : ℕ) ≤ k
      · rw [if_pos h', if_pos (by omega)]
      · rw [if_neg h', if_neg (by omega)]

theorem ring_pd (h : 3 ≤ N) : ringOp 1 (List.finRange N) = pd ringBits (fun _ => 1) := by
  rw [ringOp_of_ne (by simp; omega), ringGates_finRange (by omega)]
  obtain ⟨n, rfl⟩ : ∃ n, N = n + 1 := ⟨N - 1, by omega⟩
  rw [ringPairs_succ, List.map_append, timeOrdered_append, ring_upTo n le_rfl, List.map_singleton, timeOrdered_singleton]
  rw [Nat.mod_self, cn, dif_pos ⟨by simp, by simp⟩, cnot_pd, pd_mul]
  refine pd_ext (fun b => funext fun j => ?_) fun _ => by simp
  have h0 : ∀ c : Bits (n + 1), ∑ i, c i = c ⟨0, by omega⟩ + ∑ i : Fin (n + 1) with 0 < i.val, c i := by
    intro c
    rw [Fin.sum_univ_succ]
    congr 1
    have : (univ.filter fun i : Fin (n + 1) => 0 < i.val) = univ.map (Fin.succEmb n) := by
      ext i
      simp only [mem_filter, mem_univ, true_and, mem_map, Fin.coe_succEmb]
      constructor
      · intro hi
        exact ⟨i.pred (Fin.pos_iff_ne_zero.1 hi), by simp⟩
      · rintro ⟨a, rfl⟩
        simp
    rw [this, sum_map]
    rfl
  have two : ∀ x : Fin 2, x + x = 0 := by decide
  by_cases hj : j = ⟨0, by omega⟩
  · subst hj
    rw [Function.update_self]
    unfold ringBits ringBitsUpTo
    simp only [if_true, Nat.zero_le, le_refl]
    rw [sum_le_zero b (by omega)]
    have : (univ.filter fun i : Fin (n + 1) => i.val ≤ n) = univ := by
      ext i; simp; omega
    rw [this, h0 b, ← add_assoc, two, zero_add]
  · rw [Function.update_of_ne hj]
    have : (j : ℕ) ≠ 0 := fun h => hj (Fin.ext h)
    unfold ringBits ringBitsUpTo
    rw [if_neg this, if_pos (by omega)]

theorem ringBits_add (b c : Bits N) : ringBits (b + c) = ringBits b + ringBits c := by
  funext k
  unfold ringBits
  simp only [Pi.add_apply]
  split <;> exact sum_add_distrib

/-- The bit string with a single one. -/
def bit1 (i : Fin N) : Bits N := Pi.single i 1

theorem ringBits_bit1 (i k : Fin N) : ringBits (bit1 i) k =
    if (k : ℕ) = 0 then (if 0 < (i : ℕ) then 1 else 0) else (if (i : ℕ) ≤ k then 1 else 0) := by
  unfold ringBits bit1
  simp

/-! ## Pauli matrices -/

theorem X_shift (t : Fin N) : onQubit t Spec.X = pd (fun b => b + bit1 t) (fun _ => 1) := by
  rw [onQubit_X_pd]
  refine pd_ext (fun b => funext fun j => ?_) fun _ => rfl
  unfold bit1
  by_cases h : j = t
  · subst h; simp
  · simp [h]

/-- The sign of a bit. -/
noncomputable def sg (x : Fin 2) : ℂ := if x = 1 then -1 else 1

theorem sg_add (x y : Fin 2) : sg (x + y) = sg x * sg y := by
  rcases fin2 x with rfl | rfl <;> rcases fin2 y with rfl | rfl <;> simp [sg]

theorem sg_sum (s : Finset (Fin N)) (b : Bits N) : sg (∑ j ∈ s, b j) = ∏ j ∈ s, sg (b j) := by
  classical
  induction s using Finset.induction_on with
  | empty => simp [sg]
  | insert a s ha ih => rw [sum_insert ha, prod_insert ha, sg_add, ih]

theorem Z_sign (t : Fin N) : onQubit t Spec.Z = pd (fun b => b) (fun b => sg (b t)) := Z_pd t

/-- Z on all qubits but the first. -/
noncomputable def zRest (N : ℕ) : QOp N := onEach (fun j => if (j : ℕ) = 0 then 1 else Spec.Z)

/-- X on all qubits but the first. -/
noncomputable def xRest (N : ℕ) : QOp N := onEach (fun j => if (j : ℕ) = 0 then 1 else Spec.X)

theorem zRest_pd : zRest N = pd (fun b => b) (fun b => sg (∑ j : Fin N with 0 < j.val, b j)) := by
  ext a b
  unfold zRest onEach pd
  have e : ∀ j : Fin N, (if (j : ℕ) = 0 then (1 : Mat2) else Spec.Z) (a j) (b j) =
      if a j = b j then (if 0 < (j : ℕ) then sg (b j) else 1) else 0 := by
    intro j
    by_cases hj : (j : ℕ) = 0
    · simp [hj, Matrix.one_apply]
    · rw [if_neg hj, if_pos (Nat.pos_of_ne_zero hj)]
      rcases fin2 (a j) with h | h <;> rcases fin2 (b j) with h' | h' <;> simp [h, h', Spec.Z, sg]
  simp only [e]
  rw [prod_ite_zero, sg_sum, prod_filter]
  simp [funext_iff]

/-- Ones everywhere but in the first place. -/
def bitsRest (N : ℕ) : Bits N := fun j => if (j : ℕ) = 0 then 0 else 1

theorem xRest_pd : xRest N = pd (fun b => b + bitsRest N) (fun _ => 1) := by
  ext a b
  unfold xRest onEach pd
  have e : ∀ j : Fin N, (if (j : ℕ) = 0 then (1 : Mat2) else Spec.X) (a j) (b j) =
      if a j = b j + bitsRest N j then 1 else 0 := by
    intro j
    unfold bitsRest
    by_cases hj : (j : ℕ) = 0
    · simp [hj, Matrix.one_apply]
    · rw [if_neg hj, if_neg hj]
      rcases fin2 (a j) with h | h <;> rcases fin2 (b j) with h' | h' <;> simp [h, h', Spec.X]
  simp only [e]
  rw [prod_ite_zero]
  simp [funext_iff]

/-! ## Moving Pauli matrices through a ring -/

theorem pd_inter_shift {σ : Bits N → Bits N} {c d : Bits N} (h : ∀ b, σ (b + d) = σ b + c) :
    pd (fun b => b + c) (fun _ => 1) * pd σ (fun _ => 1) = pd σ (fun _ => 1) * pd (fun b => b + d) (fun _ => 1) := by
  rw [pd_mul, pd_mul]
  exact pd_ext (fun b => (h b).symm) fun _ => rfl

theorem pd_shift_mul (c d : Bits N) : pd (fun b : Bits N => b + c) (fun _ => 1) * pd (fun b => b + d) (fun _ => 1) =
    pd (fun b => b + (c + d)) (fun _ => 1) := by
  rw [pd_mul]
  exact pd_ext (fun b => by rw [add_comm c, add_assoc]) fun _ => by simp

theorem pd_inter_sign {σ : Bits N → Bits N} {f g : Bits N → ℂ} (h : ∀ b, f (σ b) = g b) :
    pd (fun b => b) f * pd σ (fun _ => 1) = pd σ (fun _ => 1) * pd (fun b => b) g := by
  rw [pd_mul, pd_mul]
  exact pd_ext (fun b => rfl) fun b => by simp [h]

variable (h3 : 3 ≤ N)

include h3 in
theorem ring_Z0 : onQubit ⟨0, by omega⟩ Spec.Z * ringOp 1 (List.finRange N) = ringOp 1 (List.finRange N) * zRest N := by
  rw [ring_pd h3, Z_sign, zRest_pd]
  exact pd_inter_sign fun b => by simp [ringBits]

include h3 in
theorem ring_xRest : xRest N * ringOp 1 (List.finRange N) =
    ringOp 1 (List.finRange N) * onQubit ⟨0, by omega⟩ Spec.X := by
  rw [ring_pd h3, X_shift, xRest_pd]
  refine pd_inter_shift fun b => ?_
  rw [ringBits_add]
  congr 1
  funext k
  rw [ringBits_bit1]
  simp [bitsRest]

include h3 in
theorem ring_X0 : onQubit ⟨0, by omega⟩ Spec.X * ringOp 1 (List.finRange N) =
    ringOp 1 (List.finRange N) * (onQubit ⟨0, by omega⟩ Spec.X * onQubit ⟨1, by omega⟩ Spec.X) := by
  rw [ring_pd h3, X_shift, X_shift, pd_shift_mul]
  refine pd_inter_shift fun b => ?_
  rw [ringBits_add, ringBits_add]
  congr 1
  funext k
  rw [Pi.add_apply, ringBits_bit1, ringBits_bit1]
  unfold bit1
  by_cases hk : (k : ℕ) = 0
  · have : k = ⟨0, by omega⟩ := Fin.ext hk
    rw [this]
    simp
  · rw [if_neg hk, if_neg hk, if_pos (by simp), if_pos (by simp; omega), Pi.single_eq_of_ne (fun h => hk (congrArg Fin.val h))]
    rfl

include h3 in
theorem ring_X1 : onQubit ⟨1, by omega⟩ Spec.X * ringOp 1 (List.finRange N) =
    ringOp 1 (List.finRange N) * (onQubit ⟨1, by omega⟩ Spec.X * onQubit ⟨2, by omega⟩ Spec.X) := by
  rw [ring_pd h3, X_shift, X_shift, pd_shift_mul]
  refine pd_inter_shift fun b => ?_
  rw [ringBits_add, ringBits_add]
  congr 1
  funext k
  rw [Pi.add_apply, ringBits_bit1, ringBits_bit1]
  unfold bit1
  by_cases hk : (k : ℕ) = 0
  · rw [if_pos hk, if_pos hk, Pi.single_eq_of_ne (fun h => by rw [h] at hk; simp at hk)]
    simp
  · rw [if_neg hk, if_neg hk]
    by_cases hk1 : (k : ℕ) = 1
    · have : k = ⟨1, by omega⟩ := Fin.ext hk1
      rw [this]
      simp
    · rw [if_pos (by simp; omega), if_pos (by simp; omega), Pi.single_eq_of_ne (fun h => hk1 (congrArg Fin.val h))]
      rfl

include h3 in
theorem ring_Z1 : onQubit ⟨1, by omega⟩ Spec.Z * ringOp 1 (List.finRange N) =
    ringOp 1 (List.finRange N) * (onQubit ⟨0, by omega⟩ Spec.Z * onQubit ⟨1, by omega⟩ Spec.Z) := by
  rw [ring_pd h3, Z_sign, Z_sign, pd_mul (fun b => b) (fun b => b)]
  refine pd_inter_sign (g := fun b => sg (b ⟨0, by omega⟩) * sg (b ⟨1, by omega⟩)) fun b => ?_
  rw [← sg_add]
  congr 1
  show (if (1 : ℕ) = 0 then _ else _) = _
  rw [if_neg (by omega)]
  rw [sum_le_succ b (by omega), sum_le_zero b (by omega), add_comm]

/-! ## Moving Pauli matrices through rotations -/

theorem inter_mul {P M Q M' S : QOp N} (h : P * M = M * Q) (h' : Q * M' = M' * S) : P * (M * M') = M * M' * S := by
  rw [← mul_assoc, h, mul_assoc, h', mul_assoc]

theorem X_rotY (θ : ℝ) : Spec.X * rot Spec.Y θ =
    rot Spec.Y θ * ((Real.cos θ : ℂ) • Spec.X + (Real.sin θ : ℂ) • Spec.Z) := by
  have h : θ = 2 * (θ / 2) := by ring
  have hc : (Real.cos θ : ℂ) = (Real.cos (θ / 2) : ℂ) ^ 2 - (Real.sin (θ / 2) : ℂ) ^ 2 := by
    rw [h, Real.cos_two_mul']; push_cast; ring_nf
  have hs : (Real.sin θ : ℂ) = 2 * (Real.sin (θ / 2) : ℂ) * (Real.cos (θ / 2) : ℂ) := by
    rw [h, Real.sin_two_mul]; push_cast; ring_nf
  have h1 : (Real.sin (θ / 2) : ℂ) ^ 2 + (Real.cos (θ / 2) : ℂ) ^ 2 = 1 := by
    exact_mod_cast Real.sin_sq_add_cos_sq (θ / 2)
  rw [rot_Y_eq, hc, hs]
  generalize (Real.sin (θ / 2) : ℂ) = s at *
  generalize (Real.cos (θ / 2) : ℂ) = c at *
  ext i j
  fin_cases i <;> fin_cases j <;> simp [Spec.X, Spec.Z, Matrix.mul_apply, Fin.sum_univ_two]
  · linear_combination (-s) * h1
  · linear_combination (-c) * h1
  · linear_combination (-c) * h1
  · linear_combination s * h1

theorem Z_rotY (θ : ℝ) : Spec.Z * rot Spec.Y θ =
    rot Spec.Y θ * ((Real.cos θ : ℂ) • Spec.Z - (Real.sin θ : ℂ) • Spec.X) := by
  have h : θ = 2 * (θ / 2) := by ring
  have hc : (Real.cos θ : ℂ) = (Real.cos (θ / 2) : ℂ) ^ 2 - (Real.sin (θ / 2) : ℂ) ^ 2 := by
    rw [h, Real.cos_two_mul']; push_cast; ring_nf
  have hs : (Real.sin θ : ℂ) = 2 * (Real.sin (θ / 2) : ℂ) * (Real.cos (θ / 2) : ℂ) := by
    rw [h, Real.sin_two_mul]; push_cast; ring_nf
  have h1 : (Real.sin (θ / 2) : ℂ) ^ 2 + (Real.cos (θ / 2) : ℂ) ^ 2 = 1 := by
    exact_mod_cast Real.sin_sq_add_cos_sq (θ / 2)
  rw [rot_Y_eq, hc, hs]
  generalize (Real.sin (θ / 2) : ℂ) = s at *
  generalize (Real.cos (θ / 2) : ℂ) = c at *
  ext i j
  fin_cases i <;> fin_cases j <;> simp [Spec.X, Spec.Z, Matrix.mul_apply, Fin.sum_univ_two]
  · linear_combination (-c) * h1
  · linear_combination s * h1
  · linear_combination s * h1
  · linear_combination c * h1

theorem Z_rotY_neg : Spec.Z * rot Spec.Y (-(Real.pi / 2)) = rot Spec.Y (-(Real.pi / 2)) * Spec.X := by
  rw [Z_rotY]
  simp

theorem X_rotY_pos : Spec.X * rot Spec.Y (Real.pi / 2) = rot Spec.Y (Real.pi / 2) * Spec.Z := by
  rw [X_rotY]
  simp

theorem zRest_turn : zRest N * onEach (fun _ => rot Spec.Y (-(Real.pi / 2))) =
    onEach (fun _ => rot Spec.Y (-(Real.pi / 2))) * xRest N := by
  rw [zRest, xRest, onEach_mul, onEach_mul]
  congr 1
  funext j
  split
  · rw [one_mul, mul_one]
  · exact Z_rotY_neg

theorem X0_turn (i : Fin N) : onQubit i Spec.X * onEach (fun _ => rot Spec.Y (Real.pi / 2)) =
    onEach (fun _ => rot Spec.Y (Real.pi / 2)) * onQubit i Spec.Z := by
  rw [← onEach_update_one, ← onEach_update_one, onEach_mul, onEach_mul]
  congr 1
  funext j
  by_cases h : j = i
  · subst h; simp [X_rotY_pos]
  · simp [h]

theorem XX_turn {p q : Fin N} (h : p ≠ q) (θ : ℝ) :
    onQubit p Spec.X * onQubit q Spec.X * onQubit q (rot Spec.Y θ) = onQubit q (rot Spec.Y θ) *
      ((Real.cos θ : ℂ) • (onQubit p Spec.X * onQubit q Spec.X) + (Real.sin θ : ℂ) • (onQubit p Spec.X * onQubit q Spec.Z)) := by
  rw [mul_assoc, onQubit_mul, X_rotY, ← onQubit_mul, onQubit_add, onQubit_smul', onQubit_smul', ← mul_assoc,
    onQubit_comm h, mul_assoc, mul_add, mul_smul_comm, mul_smul_comm]

/-- The observable at the first layer. -/
noncomputable def fitObs (p q r : Fin N) (θ : ℝ) : QOp N :=
  (Real.cos θ : ℂ) • (onQubit p Spec.X * onQubit r Spec.X) +
    (Real.sin θ : ℂ) • (onQubit p (Spec.X * Spec.Z) * onQubit q (Spec.X * Spec.Z))

include h3 in
theorem ring_last (θ : ℝ) : ((Real.cos θ : ℂ) • (onQubit ⟨0, by omega⟩ Spec.X * onQubit ⟨1, by omega⟩ Spec.X) +
    (Real.sin θ : ℂ) • (onQubit ⟨0, by omega⟩ Spec.X * onQubit ⟨1, by omega⟩ Spec.Z)) * ringOp 1 (List.finRange N) =
    ringOp 1 (List.finRange N) * fitObs ⟨0, by omega⟩ ⟨1, by omega⟩ ⟨2, by omega⟩ θ := by
  have h01 : (⟨0, by omega⟩ : Fin N) ≠ ⟨1, by omega⟩ := by simp
  unfold fitObs
  rw [add_mul, mul_add, smul_mul_assoc, smul_mul_assoc, mul_smul_comm, mul_smul_comm, mul_assoc, ring_X1 h3, ← mul_assoc,
    ring_X0 h3, mul_assoc (onQubit _ _) (onQubit _ _) (ringOp _ _), ring_Z1 h3, ← mul_assoc (onQubit _ _) (ringOp _ _),
    ring_X0 h3]
  congr 2
  · rw [mul_assoc, mul_assoc, ← mul_assoc (onQubit ⟨1, by omega⟩ Spec.X), onQubit_mul, X_sq, onQubit_one, one_mul]
  · rw [mul_assoc, mul_assoc, ← mul_assoc (onQubit ⟨1, by omega⟩ Spec.X), ← onQubit_comm h01, mul_assoc, onQubit_mul,
      ← mul_assoc (onQubit ⟨0, by omega⟩ Spec.X), onQubit_mul]

/-- The circuit after the first layer. -/
noncomputable def fitRest (θ : ℝ) : QOp N :=
  let R : QOp N := ringOp 1 (List.finRange N)
  R * (onEach (fun _ => rot Spec.Y (-(Real.pi / 2))) * (R * (onEach (fun _ => rot Spec.Y (Real.pi / 2)) *
    (R * (onEach (fun _ => rot Spec.Y (-(Real.pi / 2))) * (R * (R * (onQubit ⟨1, by omega⟩ (rot Spec.Y θ) * R))))))))

theorem fit_inter (θ : ℝ) : onQubit ⟨0, by omega⟩ Spec.Z * fitRest h3 θ =
    fitRest h3 θ * fitObs ⟨0, by omega⟩ ⟨1, by omega⟩ ⟨2, by omega⟩ θ := by
  unfold fitRest
  refine inter_mul (ring_Z0 h3) (inter_mul zRest_turn (inter_mul (ring_xRest h3) (inter_mul (X0_turn _)
    (inter_mul (ring_Z0 h3) (inter_mul zRest_turn (inter_mul (ring_xRest h3) (inter_mul (ring_X0 h3)
    (inter_mul (XX_turn (by simp) θ) (ring_last h3 θ)))))))))

theorem fitRest_unitary (θ : ℝ) : IsUnitaryOp (fitRest h3 θ) := by
  have hR : IsUnitaryOp (ringOp 1 (List.finRange N)) :=
    ringKindOp_unitary .ring (List.nodup_finRange N) (by simp; omega)
  have hY : ∀ t, IsU2 (rot Spec.Y t) := fun t => IsAxis.u2 (Or.inr (Or.inl rfl)) t
  have hE : ∀ t, IsUnitaryOp (onEach (fun _ : Fin N => rot Spec.Y t)) := fun t => onEach_unitary fun _ => hY t
  exact hR.mul ((hE _).mul (hR.mul ((hE _).mul (hR.mul ((hE _).mul (hR.mul (hR.mul ((onQubit_unitary (hY _) _).mul hR))))))))

theorem braket_inter {P M Q : QOp N} (h : P * M = M * Q) (hM : IsUnitaryOp M) (v : QState N) :
    braket P (M *ᵥ v) = braket Q v := by
  rw [braket_mul, mul_assoc, h, ← mul_assoc, hM.2, one_mul]

theorem braket_comb (c s : ℂ) (A B : QOp N) (v : QState N) :
    braket (c • A + s • B) v = c * braket A v + s * braket B v := by
  rw [braket_eq, braket_eq, braket_eq, Matrix.vecMul_add, Matrix.vecMul_smul, Matrix.vecMul_smul, add_dotProduct,
    smul_dotProduct, smul_dotProduct]
  rfl

theorem braket_two {p q : Fin N} (h : p ≠ q) (A B : Mat2) (g : Fin N → Mat2) (hg : ∀ j, IsU2 (g j)) :
    braket (onQubit p A * onQubit q B) (onEach g *ᵥ ket0 N) = ((g p)ᴴ * A * g p) 0 0 * ((g q)ᴴ * B * g q) 0 0 := by
  rw [braket_mul, onEach_conjTranspose, onQubit_mul_onQubit h, onEach_mul, onEach_mul]
  have e : (fun j => (g j)ᴴ * Function.update (Function.update (fun _ => (1 : Mat2)) p A) q B j * g j) =
      Function.update (Function.update (fun _ => 1) p ((g p)ᴴ * A * g p)) q ((g q)ᴴ * B * g q) := by
    funext j
    by_cases hq : j = q
    · subst hq; simp
    · by_cases hp : j = p
      · subst hp; simp [hq]
      · simp [hq, hp, (hg j).2]
  rw [e, ← onQubit_mul_onQubit h]
  unfold braket ket0
  simp only [apply_ite star, star_one, star_zero, mul_ite, mul_one, mul_zero, ite_mul, one_mul, zero_mul,
    Finset.sum_ite_eq', Finset.mem_univ, if_true]
  rw [onQubit_mul_onQubit h, onEach]
  simp only [Pi.zero_apply]
  rw [← Finset.mul_prod_erase _ _ (Finset.mem_univ p), ← Finset.mul_prod_erase _ _ (Finset.mem_erase.2 ⟨h.symm, Finset.mem_univ q⟩),
    Finset.prod_eq_one]
  · simp [h]
  · intro j hj
    simp only [Finset.mem_erase] at hj
    simp [hj.1, hj.2.1]

/-! ## The first layer -/

/-- The sign of the rotation about Z of qubit `j`. -/
def zSign (j : ℕ) : ℝ := if j % 2 = 0 then 1 else -1

/-- The phase this rotation leaves. -/
noncomputable def zPhase (j : ℕ) : ℂ := Complex.exp (-(zSign j * (Real.pi / 4) : ℝ) * Complex.I)

theorem zPhase_unit (j : ℕ) : star (zPhase j) * zPhase j = 1 := by
  unfold zPhase
  rw [Complex.star_def, ← Complex.exp_conj, ← Complex.exp_add, map_mul, map_neg, Complex.conj_ofReal, Complex.conj_I]
  simp

theorem zPhase_pair (m : ℕ) : zPhase (2 * m) * zPhase (2 * m + 1) = 1 := by
  unfold zPhase zSign
  rw [← Complex.exp_add, if_pos (by omega), if_neg (by omega)]
  simp

theorem zPhase_prod (m : ℕ) : ∏ j ∈ range (2 * m), zPhase j = 1 := by
  induction m with
  | zero => simp
  | succ m ih => rw [show 2 * (m + 1) = 2 * m + 1 + 1 by ring, prod_range_succ, prod_range_succ, ih, one_mul, zPhase_pair]

theorem exp_quarter_mul_I : Complex.I * Complex.exp (-(Real.pi / 4 : ℝ) * Complex.I) = Complex.exp ((Real.pi / 4 : ℝ) * Complex.I) := by
  nth_rewrite 1 [show Complex.I = Complex.exp ((Real.pi / 2 : ℝ) * Complex.I) by push_cast; exact (Complex.exp_pi_div_two_mul_I).symm]
  rw [← Complex.exp_add]
  congr 1
  push_cast; ring

theorem zx_col (j : ℕ) (x : ℝ) (i : Fin 2) : (rot Spec.Z (zSign j * (Real.pi / 2)) * rot Spec.X x) i 0 =
    zPhase j * rot Spec.Y (zSign j * x) i 0 := by
  have e := exp_quarter_mul_I
  have hI : Complex.I * Complex.I = -1 := Complex.I_mul_I
  rw [rot_Z_eq, rot_X_eq, rot_Y_eq]
  unfold zPhase zSign
  by_cases hj : j % 2 = 0
  · rw [if_pos hj, one_mul, one_mul, one_mul, show Real.pi / 2 / 2 = Real.pi / 4 by ring]
    fin_cases i
    · simp [Matrix.mul_apply, Fin.sum_univ_two]
    · simp only [Matrix.mul_apply, Fin.sum_univ_two, Fin.mk_one, Matrix.of_apply, Matrix.cons_val', Matrix.cons_val_zero,
        Matrix.cons_val_one, Matrix.cons_val_fin_one, zero_mul, zero_add]
      rw [← e]
      linear_combination (-(Complex.exp (-(Real.pi / 4 : ℝ) * Complex.I)) * (Real.sin (x / 2) : ℂ)) * hI
  · rw [if_neg hj, show -1 * (Real.pi / 2) / 2 = -(Real.pi / 4) by ring, show -1 * (Real.pi / 4) = -(Real.pi / 4) by ring,
      show -1 * x / 2 = -(x / 2) by ring, Real.cos_neg, Real.sin_neg]
    fin_cases i
    · simp [Matrix.mul_apply, Fin.sum_univ_two]
    · simp only [Matrix.mul_apply, Fin.sum_univ_two, Fin.mk_one, Matrix.of_apply, Matrix.cons_val', Matrix.cons_val_zero,
        Matrix.cons_val_one, Matrix.cons_val_fin_one, zero_mul, zero_add]
      push_cast at e ⊢
      rw [neg_neg, ← e]
      ring

/-- The gates of the first layer and of the encoding on qubit `j`. -/
noncomputable def fitGate (a : ℕ → ℝ) (x : ℝ) (j : ℕ) : Mat2 :=
  rot Spec.Y (a j) * rot Spec.Z (zSign j * (Real.pi / 2)) * rot Spec.X x

theorem fitGate_u2 (a : ℕ → ℝ) (x : ℝ) (j : ℕ) : IsU2 (fitGate a x j) :=
  ((IsAxis.u2 (Or.inr (Or.inl rfl)) _).mul (IsAxis.u2 (Or.inr (Or.inr rfl)) _)).mul (IsAxis.u2 (Or.inl rfl) _)

theorem fitGate_col (a : ℕ → ℝ) (x : ℝ) (j : ℕ) (i : Fin 2) :
    fitGate a x j i 0 = zPhase j * rot Spec.Y (a j + zSign j * x) i 0 := by
  rw [fitGate, mul_assoc, Matrix.mul_apply]
  simp only [zx_col]
  rw [← rot_mul Y_sq, Matrix.mul_apply, Finset.mul_sum]
  exact sum_congr rfl fun k _ => by ring

theorem fitGate_form (a : ℕ → ℝ) (x : ℝ) (j : ℕ) (A : Mat2) : ((fitGate a x j)ᴴ * A * fitGate a x j) 0 0 =
    ((rot Spec.Y (a j + zSign j * x))ᴴ * A * rot Spec.Y (a j + zSign j * x)) 0 0 := by
  have h := zPhase_unit j
  simp only [Matrix.mul_apply, Fin.sum_univ_two, Matrix.conjTranspose_apply, fitGate_col, star_mul']
  linear_combination ((star (rot Spec.Y (a j + zSign j * x) 0 0) * A 0 0 + star (rot Spec.Y (a j + zSign j * x) 1 0) * A 1 0) *
      rot Spec.Y (a j + zSign j * x) 0 0 + (star (rot Spec.Y (a j + zSign j * x) 0 0) * A 0 1 +
      star (rot Spec.Y (a j + zSign j * x) 1 0) * A 1 1) * rot Spec.Y (a j + zSign j * x) 1 0) * h

theorem rotY_X (t : ℝ) : ((rot Spec.Y t)ᴴ * Spec.X * rot Spec.Y t) 0 0 = (Real.sin t : ℂ) := by
  rw [mul_assoc, X_rotY, ← mul_assoc, (IsAxis.u2 (P := Spec.Y) (Or.inr (Or.inl rfl)) t).2, one_mul]
  simp [Spec.X, Spec.Z]

theorem rotY_XZ (t : ℝ) : ((rot Spec.Y t)ᴴ * (Spec.X * Spec.Z) * rot Spec.Y t) 0 0 = 0 := by
  rw [rot_Y_eq]
  simp only [Matrix.mul_apply, Fin.sum_univ_two, Matrix.conjTranspose_apply, Spec.X, Spec.Z]
  simp [-Complex.ofReal_cos, -Complex.ofReal_sin]
  ring

/-- The value of the observable at the first layer. -/
theorem fit_value (a : ℕ → ℝ) (θ x : ℝ) : braket (fitObs ⟨0, by omega⟩ ⟨1, by omega⟩ ⟨2, by omega⟩ θ)
    (onEach (fun j : Fin N => fitGate a x j) *ᵥ ket0 N) =
      ((Real.cos θ * (Real.sin (a 0 + x) * Real.sin (a 2 + x)) : ℝ) : ℂ) := by
  have h02 : (⟨0, by omega⟩ : Fin N) ≠ ⟨2, by omega⟩ := by simp
  have h01 : (⟨0, by omega⟩ : Fin N) ≠ ⟨1, by omega⟩ := by simp
  unfold fitObs
  rw [braket_comb, braket_two h02 _ _ _ fun j => fitGate_u2 a x j, braket_two h01 _ _ _ fun j => fitGate_u2 a x j]
  simp only [fitGate_form, rotY_X, rotY_XZ]
  simp [zSign]

/-! ## Real amplitudes -/

/-- All entries are real. -/
def RealOp (M : QOp N) : Prop := ∀ a b, (M a b).im = 0

theorem im_sum_zero {ι : Type} (s : Finset ι) (f : ι → ℂ) (h : ∀ i ∈ s, (f i).im = 0) : (∑ i ∈ s, f i).im = 0 := by
  rw [Complex.im_sum]
  exact sum_eq_zero h

theorem RealOp.mul {A B : QOp N} (hA : RealOp A) (hB : RealOp B) : RealOp (A * B) := by
  intro a b
  rw [Matrix.mul_apply]
  exact im_sum_zero _ _ fun c _ => by rw [Complex.mul_im, hA, hB]; simp

theorem RealOp.mulVec {A : QOp N} (hA : RealOp A) {v : QState N} (hv : ∀ a, (v a).im = 0) (a : Bits N) : ((A *ᵥ v) a).im = 0 :=
  im_sum_zero _ _ fun c _ => by rw [Complex.mul_im, hA, hv]; simp

theorem im_prod_zero {ι : Type} (s : Finset ι) (f : ι → ℂ) (h : ∀ i ∈ s, (f i).im = 0) : (∏ i ∈ s, f i).im = 0 := by
  classical
  induction s using Finset.induction_on with
  | empty => simp
  | insert a s ha ih =>
    rw [prod_insert ha, Complex.mul_im, h a (by simp), ih fun i hi => h i (by simp [hi])]
    simp

theorem rotY_real (t : ℝ) (i j : Fin 2) : (rot Spec.Y t i j).im = 0 := by
  rw [rot_Y_eq]
  fin_cases i <;> fin_cases j <;> simp [-Complex.ofReal_cos, -Complex.ofReal_sin]

theorem onEach_real {g : Fin N → Mat2} (h : ∀ j a b, (g j a b).im = 0) : RealOp (onEach g) :=
  fun _ _ => im_prod_zero _ _ fun j _ => h j _ _

theorem onQubit_real {g : Mat2} (h : ∀ a b, (g a b).im = 0) (i : Fin N) : RealOp (onQubit i g) := by
  intro a b
  unfold onQubit
  split
  · exact h _ _
  · rfl

include h3 in
theorem ring_real : RealOp (ringOp 1 (List.finRange N)) := by
  intro a b
  rw [ring_pd h3, pd]
  split <;> simp

theorem fitRest_real (θ : ℝ) : RealOp (fitRest h3 θ) := by
  have hR := ring_real h3
  have hE : ∀ t, RealOp (onEach (fun _ : Fin N => rot Spec.Y t)) := fun t => onEach_real fun _ => rotY_real t
  exact hR.mul ((hE _).mul (hR.mul ((hE _).mul (hR.mul ((hE _).mul (hR.mul (hR.mul ((onQubit_real (rotY_real _) _).mul hR))))))))

theorem fit_start_real (hN : N % 2 = 0) (a : ℕ → ℝ) (x : ℝ) (c : Bits N) :
    ((onEach (fun j : Fin N => fitGate a x j) *ᵥ ket0 N) c).im = 0 := by
  rw [Props.onEach_ket0]
  simp only [fitGate_col]
  rw [prod_mul_distrib]
  have : ∏ j : Fin N, zPhase j = 1 := by
    rw [Fin.prod_univ_eq_prod_range (fun j => zPhase j) N]
    obtain ⟨m, rfl⟩ : ∃ m, N = 2 * m := ⟨N / 2, by omega⟩
    exact zPhase_prod m
  rw [this, one_mul]
  exact im_prod_zero _ _ fun j _ => rotY_real _ _ _

/-! ## Weights -/

/-- The list of weights with the angle `g r j i` for the `i`-th rotation of qubit `j` in layer `r`. -/
noncomputable def weightsOf (N : ℕ) (g : ℕ → ℕ → ℕ → ℝ) : List ℝ :=
  (List.range (21 * N)).map (fun k => g (k / (3 * N)) (k % (3 * N) / 3) (k % 3))

theorem weightsOf_length (g : ℕ → ℕ → ℕ → ℝ) : (weightsOf N g).length = 21 * N := by simp [weightsOf]

theorem weightsOf_layer (g : ℕ → ℕ → ℕ → ℝ) {r : ℕ} (hr : r ≤ 6) :
    layerOp [Y, Z, Y] (List.finRange N) (((weightsOf N g).drop (3 * N * r)).take (3 * N)) =
      onEach (fun j : Fin N => rot Y (g r j 2) * rot Z (g r j 1) * rot Y (g r j 0)) := by
  rw [layerOp_finRange]
  congr 1
  funext j
  have hj := j.2
  have hrN : 3 * N * r ≤ 3 * N * 6 := Nat.mul_le_mul_left _ hr
  have hl : (((weightsOf N g).drop (3 * N * r)).take (3 * N)).length = 3 * N := by
    rw [List.length_take, List.length_drop, weightsOf_length]
    omega
  have hlen : ([Y, Z, Y] : List Mat2).length = 3 := rfl
  rw [hlen, seqRot3 (by rw [hl]; omega)]
  have key : ∀ i (hi : i < 3) (h : 3 * (j : ℕ) + i < (((weightsOf N g).drop (3 * N * r)).take (3 * N)).length),
      (((weightsOf N g).drop (3 * N * r)).take (3 * N))[3 * (j : ℕ) + i] = g r j i := by
    intro i hi h
    rw [List.getElem_take, List.getElem_drop]
    unfold weightsOf
    rw [List.getElem_map, List.getElem_range]
    have h1 : (3 * N * r + (3 * j + i)) / (3 * N) = r := by
      rw [Nat.mul_add_div (by omega), Nat.div_eq_of_lt (by omega), add_zero]
    have h2 : (3 * N * r + (3 * j + i)) % (3 * N) = 3 * j + i := by
      rw [Nat.mul_add_mod, Nat.mod_eq_of_lt (by omega)]
    have h3 : (3 * N * r + (3 * j + i)) % 3 = i := by
      rw [mul_assoc, Nat.mul_add_mod, Nat.mul_add_mod, Nat.mod_eq_of_lt hi]
    rw [h1, h2, h3]
    congr 1
    omega
  have k0 := key 0 (by omega) (by rw [hl]; omega)
  rw [key 2 (by omega), key 1 (by omega)]
  simp only [add_zero] at k0
  rw [k0]

/-- The angles: layer 0 prepares, layer 1 turns qubit 1 by `θ`, layers 3, 4 and 5 turn all qubits. -/
noncomputable def fitAngles (a : ℕ → ℝ) (θ : ℝ) (r j i : ℕ) : ℝ :=
  if r = 0 then (if i = 1 then zSign j * (Real.pi / 2) else if i = 2 then a j else 0)
  else if i ≠ 0 then 0
  else if r = 1 then (if j = 1 then θ else 0)
  else if r = 3 ∨ r = 5 then -(Real.pi / 2)
  else if r = 4 then Real.pi / 2
  else 0

/-- Layer `r`. -/
noncomputable def fitLayer (N : ℕ) (a : ℕ → ℝ) (θ : ℝ) (r : ℕ) : QOp N :=
  onEach (fun j : Fin N => rot Y (fitAngles a θ r j 2) * rot Z (fitAngles a θ r j 1) * rot Y (fitAngles a θ r j 0))

theorem fitLayer_rest (a : ℕ → ℝ) (θ : ℝ) (r : ℕ) (hr : r ≠ 0) : fitLayer N a θ r =
    onEach (fun j : Fin N => rot Y (fitAngles a θ r j 0)) := by
  unfold fitLayer
  congr 1
  funext j
  have : ∀ i, i ≠ 0 → fitAngles a θ r j i = 0 := by
    intro i hi
    unfold fitAngles
    rw [if_neg hr, if_pos hi]
  rw [this 2 (by omega), this 1 (by omega), rot_zero, rot_zero, one_mul, one_mul]

theorem fitLayer_zero (a : ℕ → ℝ) (θ : ℝ) :
    fitLayer N a θ 0 = onEach (fun j : Fin N => rot Y (a j) * rot Z (zSign j * (Real.pi / 2))) := by
  unfold fitLayer
  congr 1
  funext j
  simp [fitAngles, rot_zero]

include h3 in
theorem fitLayer_one (a : ℕ → ℝ) (θ : ℝ) : fitLayer N a θ 1 = onQubit ⟨1, by omega⟩ (rot Y θ) := by
  rw [fitLayer_rest _ _ _ (by omega), ← onEach_update_one]
  congr 1
  funext j
  by_cases h : j = ⟨1, by omega⟩
  · subst h; simp [fitAngles]
  · rw [Function.update_of_ne h]
    have : (j : ℕ) ≠ 1 := fun h' => h (Fin.ext h')
    simp [fitAngles, this, rot_zero]

theorem fitLayer_id (a : ℕ → ℝ) (θ : ℝ) (r : ℕ) (hr : r = 2 ∨ r = 6) : fitLayer N a θ r = 1 := by
  rw [fitLayer_rest _ _ _ (by omega), ← onEach_one]
  congr 1
  funext j
  rcases hr with rfl | rfl <;> simp [fitAngles, rot_zero]

theorem fitLayer_neg (a : ℕ → ℝ) (θ : ℝ) (r : ℕ) (hr : r = 3 ∨ r = 5) :
    fitLayer N a θ r = onEach (fun _ => rot Y (-(Real.pi / 2))) := by
  rw [fitLayer_rest _ _ _ (by omega)]
  congr 1
  funext j
  rcases hr with rfl | rfl <;> simp [fitAngles]

theorem fitLayer_pos (a : ℕ → ℝ) (θ : ℝ) : fitLayer N a θ 4 = onEach (fun _ => rot Y (Real.pi / 2)) := by
  rw [fitLayer_rest _ _ _ (by omega)]
  congr 1

theorem fit_circuit (a : ℕ → ℝ) (θ : ℝ) : circuitOp (Props.trainItems N (weightsOf N (fitAngles a θ))) =
    fitRest h3 θ * onEach (fun j : Fin N => rot Y (a j) * rot Z (zSign j * (Real.pi / 2))) := by
  have e : circuitOp (Props.trainItems N (weightsOf N (fitAngles a θ))) = fitLayer N a θ 6 *
      timeOrdered ((List.range 6).map (fun r => ringOp 1 (List.finRange N) * fitLayer N a θ r)) := by
    unfold circuitOp Props.trainItems
    rw [List.map_append, timeOrdered_append, List.map_flatMap]
    simp only [List.map_cons, List.map_nil]
    rw [timeOrdered_singleton, Props.timeOrdered_pairs]
    have hl : ∀ r, r ≤ 6 → Item.op (.layer .yzy (List.finRange N)
        (((weightsOf N (fitAngles a θ)).drop (3 * N * r)).take (3 * N))) = fitLayer N a θ r :=
      fun r hr => weightsOf_layer (fitAngles a θ) hr
    rw [hl 6 le_rfl]
    congr 2
    refine List.map_congr_left fun r hr => ?_
    rw [hl r (by have := List.mem_range.1 hr; omega)]
    rfl
  rw [e]
  have e6 : (List.range 6) = [0, 1, 2, 3, 4, 5] := rfl
  rw [e6]
  simp only [List.map_cons, List.map_nil, timeOrdered_cons, timeOrdered_nil]
  rw [fitLayer_zero, fitLayer_one h3, fitLayer_id _ _ 2 (by simp), fitLayer_id _ _ 6 (by simp), fitLayer_neg _ _ 3 (by simp),
    fitLayer_neg _ _ 5 (by simp), fitLayer_pos]
  unfold fitRest
  simp only [mul_assoc, one_mul, mul_one]

end QTN
