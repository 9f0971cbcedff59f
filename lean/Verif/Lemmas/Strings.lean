import Verif.Lemmas.FitNet

/-! # Lemmas for C99: strings of Pauli matrices and how layers and rings move them -/

namespace QTN

open QTN.Spec Matrix Finset

variable {N : ℕ}

/-! ## Strings of Pauli matrices -/

/-- The Pauli matrix with the bits `x` and `z`. -/
noncomputable def pauli (x z : Fin 2) : Mat2 :=
  if x = 1 then (if z = 1 then Spec.Y else Spec.X) else (if z = 1 then Spec.Z else 1)

/-- A Pauli matrix on every qubit. -/
noncomputable def str (x z : Bits N) : QOp N := onEach (fun j => pauli (x j) (z j))

/-- The sum of the bits of `b` selected by `z`. -/
def dot (z b : Bits N) : Fin 2 := ∑ j, z j * b j

/-- The factor between Y and the product of X and Z. -/
noncomputable def yPhase (x z : Fin 2) : ℂ := if x = 1 ∧ z = 1 then Complex.I else 1

theorem pauli_entry (x z a b : Fin 2) : pauli x z a b = if a = b + x then yPhase x z * sg (z * b) else 0 := by
  rcases fin2 x with rfl | rfl <;> rcases fin2 z with rfl | rfl <;> rcases fin2 a with rfl | rfl <;>
    rcases fin2 b with rfl | rfl <;> simp [pauli, yPhase, sg, Spec.X, Spec.Y, Spec.Z]

theorem sg_dot (z b : Bits N) : sg (dot z b) = ∏ j, sg (z j * b j) := sg_sum univ fun j => z j * b j

/-- A string moves the basis states and multiplies them with a sign. -/
theorem str_pd (x z : Bits N) : str x z = (∏ j, yPhase (x j) (z j)) • pd (fun b => b + x) (fun b => sg (dot z b)) := by
  ext a b
  rw [Matrix.smul_apply]
  unfold str onEach pd
  simp only [pauli_entry]
  rw [prod_ite_zero, sg_dot, prod_mul_distrib]
  simp [funext_iff]

theorem pauli_sq (x z : Fin 2) : pauli x z * pauli x z = 1 := by
  unfold pauli
  split <;> split
  exacts [Y_sq, X_sq, Z_sq, one_mul 1]

theorem str_sq (x z : Bits N) : str x z * str x z = 1 := by
  unfold str
  rw [onEach_mul]
  simp only [pauli_sq, onEach_one]

theorem str_Z (i : Fin N) : onQubit i Spec.Z = str 0 (bit1 i) := by
  unfold str
  rw [← onEach_update_one]
  congr 1
  funext j
  unfold bit1
  by_cases h : j = i
  · subst h; simp [pauli]
  · simp [h, pauli]

theorem str_Y (i : Fin N) : str (bit1 i) (bit1 i) = onQubit i Spec.Y := by
  unfold str
  rw [← onEach_update_one]
  congr 1
  funext j
  unfold bit1
  by_cases h : j = i
  · subst h; simp [pauli]
  · simp [h, pauli]

/-- Moving the string `x z` through `U` turns it into the string `x' z'`, up to the sign. -/
def Moves (U : QOp N) (x z x' z' : Bits N) : Prop := ∃ ε : ℂ, (ε = 1 ∨ ε = -1) ∧ str x z * U = ε • (U * str x' z')

theorem Moves.mul {U V : QOp N} {x z x' z' x'' z'' : Bits N} (h : Moves U x z x' z') (h' : Moves V x' z' x'' z'') :
    Moves (U * V) x z x'' z'' := by
  obtain ⟨ε, hε, e⟩ := h
  obtain ⟨δ, hδ, e'⟩ := h'
  refine ⟨ε * δ, ?_, ?_⟩
  · rcases hε with rfl | rfl <;> rcases hδ with rfl | rfl <;> simp
  · rw [← mul_assoc, e, smul_mul_assoc, mul_assoc, e', mul_smul_comm, smul_smul, mul_assoc]

/-! ## Rings -/

theorem yPhase_unit (x z : Fin 2) : star (yPhase x z) * yPhase x z = 1 := by
  unfold yPhase
  split <;> simp

theorem sign_of_sq {ε : ℂ} (h : ε * ε = 1) : ε = 1 ∨ ε = -1 := mul_self_eq_one_iff.1 h

/-- What a permutation of the basis does to a string. -/
theorem pd_moves {σ : Bits N → Bits N} (hU : IsUnitaryOp (pd σ (fun _ => 1))) {x z x' z' : Bits N}
    (h1 : ∀ b, σ (b + x') = σ b + x) (h2 : ∀ b, dot z (σ b) = dot z' b) : Moves (pd σ (fun _ => 1)) x z x' z' := by
  set U : QOp N := pd σ (fun _ => 1)
  set c : ℂ := ∏ j, yPhase (x j) (z j)
  set d : ℂ := ∏ j, yPhase (x' j) (z' j)
  have hd : star d * d = 1 := by
    show star (∏ j, _) * ∏ j, _ = _
    rw [star_prod, ← prod_mul_distrib]
    exact prod_eq_one fun j _ => yPhase_unit _ _
  have key : str x z * U = (c * star d) • (U * str x' z') := by
    have : (pd (fun b => b + x) (fun b => sg (dot z b)) : QOp N) * U = U * pd (fun b => b + x') (fun b => sg (dot z' b)) := by
      show pd _ _ * pd σ _ = pd σ _ * pd _ _
      rw [pd_mul, pd_mul]
      exact pd_ext (fun b => (h1 b).symm) fun b => by rw [h2]; ring
    rw [str_pd, str_pd, smul_mul_assoc, this, mul_smul_comm, smul_smul]
    congr 1
    show c = c * star d * d
    rw [mul_assoc, hd, mul_one]
  refine ⟨c * star d, sign_of_sq ?_, key⟩
  set ε := c * star d
  have e1 : str x z * (str x z * U) = (ε * ε) • U := by
    rw [key, mul_smul_comm, ← mul_assoc, key, smul_mul_assoc, smul_smul, mul_assoc U, str_sq, mul_one]
  rw [← mul_assoc, str_sq, one_mul] at e1
  have e2 : (1 : QOp N) = (ε * ε) • (1 : QOp N) := by
    have := congrArg (fun M => M * Uᴴ) e1
    simpa [hU.1, smul_mul_assoc] using this
  have := congrFun (congrFun e2 0) 0
  simpa using this.symm

/-- Every sum of bits of additive images is a sum of bits. -/
theorem dot_adjoint (σ : Bits N →+ Bits N) (z : Bits N) : ∃ z' : Bits N, ∀ b, dot z (σ b) = dot z' b := by
  have hadd : ∀ b c : Bits N, dot z (b + c) = dot z b + dot z c := by
    intro b c
    unfold dot
    rw [← sum_add_distrib]
    exact sum_congr rfl fun j _ => by rw [Pi.add_apply, mul_add]
  let f : Bits N →+ Fin 2 := ⟨⟨fun b => dot z (σ b), by simp [dot]⟩, fun b c => by simp only [map_add, hadd]⟩
  refine ⟨fun j => f (bit1 j), fun b => ?_⟩
  show f b = ∑ j, f (bit1 j) * b j
  conv_lhs => rw [← Finset.univ_sum_single b]
  rw [map_sum]
  refine sum_congr rfl fun j _ => ?_
  rcases fin2 (b j) with h | h
  · rw [h, mul_zero, Pi.single_zero, map_zero]
  · rw [h, mul_one]; rfl

theorem ring_unitary (d : ℕ) (h3 : 3 ≤ N) (hd : d = 1 ∨ d = 2) : IsUnitaryOp (ringOp d (List.finRange N)) := by
  rcases hd with rfl | rfl
  · exact ringKindOp_unitary .ring (List.nodup_finRange N) (by simp; omega)
  · exact ringKindOp_unitary .ring2 (List.nodup_finRange N) (by simp; omega)

theorem ring_hom_upTo {d : ℕ} (hd : 0 < d) (hN : d < N) (k : ℕ) (hk : k ≤ N) :
    ∃ σ : Bits N →+ Bits N, timeOrdered ((ringPairs N d k).map (cn N)) = pd σ (fun _ => 1) ∧
      (1 ≤ k → σ (bit1 ⟨0, by omega⟩ + bit1 ⟨d, hN⟩) = bit1 ⟨0, by omega⟩) := by
  induction k with
  | zero =>
    refine ⟨AddMonoidHom.id _, ?_, fun h => by omega⟩
    rw [ringPairs, List.range_zero, List.map_nil, List.map_nil, timeOrdered_nil, pd_one]
    rfl
  | succ k ih =>
    obtain ⟨σ, e, s⟩ := ih (by omega)
    have ht : (k + d) % N < N := Nat.mod_lt _ (by omega)
    let c : Fin N := ⟨k, by omega⟩
    let t : Fin N := ⟨(k + d) % N, ht⟩
    let τ : Bits N →+ Bits N := ⟨⟨fun b => Function.update b t (b t + b c), by
      funext j
      by_cases h : j = t
      · subst h; simp
      · simp [h]⟩, fun a b => by
      funext j
      by_cases h : j = t
      · subst h
        simp only [Function.update_self, Pi.add_apply]
        abel
      · simp [h]⟩
    refine ⟨τ.comp σ, ?_, fun _ => ?_⟩
    · rw [ringPairs_succ, List.map_append, timeOrdered_append, e, List.map_singleton, timeOrdered_singleton, cn,
        dif_pos ⟨by simp; omega, by simpa using ht⟩, cnot_pd, pd_mul]
      exact pd_ext (fun b => rfl) fun b => by simp
    · rw [AddMonoidHom.comp_apply]
      show Function.update _ t (_ + _) = _
      by_cases h0 : k = 0
      · subst h0
        have ht' : t = ⟨d, hN⟩ := Fin.ext (by show (0 + d) % N = d; rw [zero_add, Nat.mod_eq_of_lt hN])
        have hσ : ∀ b, σ b = b := by
          intro b
          have e1 : (pd σ (fun _ => 1) : QOp N) = pd (fun b => b) (fun _ => 1) := by
            rw [← e, ← pd_one, ringPairs, List.range_zero, List.map_nil, List.map_nil, timeOrdered_nil]
          have := congrFun (congrFun e1 b) b
          unfold pd at this
          by_contra hb
          rw [if_neg fun h => hb h.symm] at this
          simp at this
        rw [hσ, ht']
        funext j
        have hne : (⟨d, hN⟩ : Fin N) ≠ c := fun h => by have := congrArg Fin.val h; simp [c] at this; omega
        by_cases h : j = ⟨d, hN⟩
        · subst h
          rw [Function.update_self]
          simp [bit1, c] at hne ⊢
          simp [hne, Ne.symm hne]
        · rw [Function.update_of_ne h]
          simp [bit1, h]
      · rw [s (by omega)]
        have hc : (bit1 ⟨0, by omega⟩ : Bits N) c = 0 := by
          unfold bit1
          rw [Pi.single_eq_of_ne]
          intro h
          exact h0 (congrArg Fin.val h)
        rw [hc, add_zero, Function.update_eq_self]

/-- A ring permutes the basis states by an additive map; it makes `X` on the first qubit from `X` on two. -/
theorem ring_hom {d : ℕ} (hd : d = 1 ∨ d = 2) (h3 : 3 ≤ N) :
    ∃ σ : Bits N →+ Bits N, ringOp d (List.finRange N) = pd σ (fun _ => 1) ∧
      σ (bit1 ⟨0, by omega⟩ + bit1 ⟨d, by omega⟩) = bit1 ⟨0, by omega⟩ := by
  obtain ⟨σ, e, s⟩ := ring_hom_upTo (N := N) (d := d) (by omega) (by omega) N le_rfl
  refine ⟨σ, ?_, s (by omega)⟩
  rw [ringOp_of_ne (by simp; omega), ringGates_finRange (by omega), e]

/-! ## Layers -/

/-- A layer of rotations: qubit `j` is turned about Y by `g j 0`, about Z by `g j 1` and about Y by `g j 2`. -/
noncomputable def turns (N : ℕ) (g : ℕ → ℕ → ℝ) : QOp N :=
  onEach (fun j : Fin N => rot Y (g j 2) * rot Z (g j 1) * rot Y (g j 0))


/-- Moving the Pauli matrix `P` through `U` gives `Q`, up to the sign. -/
def Moves1 (U P Q : Mat2) : Prop := ∃ ε : ℂ, (ε = 1 ∨ ε = -1) ∧ P * U = ε • (U * Q)

theorem Moves1.mul {U V P Q R : Mat2} (h : Moves1 U P Q) (h' : Moves1 V Q R) : Moves1 (U * V) P R := by
  obtain ⟨ε, hε, e⟩ := h
  obtain ⟨δ, hδ, e'⟩ := h'
  refine ⟨ε * δ, ?_, ?_⟩
  · rcases hε with rfl | rfl <;> rcases hδ with rfl | rfl <;> simp
  · rw [← mul_assoc, e, smul_mul_assoc, mul_assoc, e', mul_smul_comm, smul_smul, mul_assoc]

theorem Moves1.id (P : Mat2) {A : Mat2} : Moves1 (rot A 0) P P := ⟨1, Or.inl rfl, by rw [rot_zero, one_smul, mul_one, one_mul]⟩

theorem moves_own (P : Mat2) (θ : ℝ) : Moves1 (rot P θ) P P := ⟨1, Or.inl rfl, by rw [one_smul, rot_comm]⟩

theorem moves_YX : Moves1 (rot Y (Real.pi / 2)) X Z := ⟨1, Or.inl rfl, by rw [one_smul, X_rotY_pos]⟩

theorem moves_YZ : Moves1 (rot Y (Real.pi / 2)) Z X := ⟨-1, Or.inr rfl, by rw [Z_rotY]; simp⟩

/-- A quarter turn about Z exchanges X and Y. -/
theorem Z_quarter {P Q : Mat2} (h1 : P * Z = -(Z * P)) (h2 : Z * P = Complex.I • Q) (h3 : Z * Q = -Complex.I • P) :
    P * rot Z (Real.pi / 2) = -(rot Z (Real.pi / 2) * Q) := by
  have hc : Real.cos (Real.pi / 2 / 2) = Real.sin (Real.pi / 2 / 2) := by
    rw [show Real.pi / 2 / 2 = Real.pi / 4 by ring, Real.cos_pi_div_four, Real.sin_pi_div_four]
  unfold rot
  rw [hc, mul_sub, sub_mul, Matrix.mul_smul, Matrix.mul_smul, Matrix.smul_mul, Matrix.smul_mul, mul_one, one_mul, h1, h2, h3,
    smul_neg, smul_smul, smul_smul]
  have e1 : Complex.I * (Real.sin (Real.pi / 2 / 2) : ℂ) * Complex.I = -(Real.sin (Real.pi / 2 / 2) : ℂ) := by
    linear_combination (Real.sin (Real.pi / 2 / 2) : ℂ) * Complex.I_mul_I
  rw [mul_neg, e1]
  module

theorem moves_ZX : Moves1 (rot Z (Real.pi / 2)) X Y := by
  refine ⟨-1, Or.inr rfl, ?_⟩
  rw [neg_smul, one_smul]
  exact Z_quarter X_Z
    (by ext i j; fin_cases i <;> fin_cases j <;> simp [Spec.X, Spec.Y, Spec.Z])
    (by ext i j; fin_cases i <;> fin_cases j <;> simp [Spec.X, Spec.Y, Spec.Z])

theorem moves_ZY : Moves1 (rot Z (Real.pi / 2)) Y X := by
  refine ⟨1, Or.inl rfl, ?_⟩
  have : Y * rot Z (Real.pi / 2) = -(rot Z (Real.pi / 2) * (-X)) := Z_quarter Y_Z
    (by ext i j; fin_cases i <;> fin_cases j <;> simp [Spec.X, Spec.Y, Spec.Z])
    (by ext i j; fin_cases i <;> fin_cases j <;> simp [Spec.X, Spec.Y, Spec.Z])
  rw [this, one_smul, mul_neg, neg_neg]

/-- Any Pauli matrix can be turned into any other. -/
theorem pauli_moves (x z x' z' : Fin 2) (h : (x = 0 ∧ z = 0) ↔ (x' = 0 ∧ z' = 0)) :
    ∃ a : ℕ → ℝ, Moves1 (rot Y (a 2) * rot Z (a 1) * rot Y (a 0)) (pauli x z) (pauli x' z') := by
  have q := Real.pi / 2
  have mk : ∀ (r s t : ℝ) {P Q : Mat2}, Moves1 (rot Y r * rot Z s * rot Y t) P Q →
      ∃ a : ℕ → ℝ, Moves1 (rot Y (a 2) * rot Z (a 1) * rot Y (a 0)) P Q := fun r s t P Q hm =>
    ⟨fun i => if i = 2 then r else if i = 1 then s else t, by simpa using hm⟩
  have same : ∀ P : Mat2, ∃ a : ℕ → ℝ, Moves1 (rot Y (a 2) * rot Z (a 1) * rot Y (a 0)) P P := fun P =>
    mk 0 0 0 (((Moves1.id P).mul (Moves1.id P)).mul (Moves1.id P))
  have hX : pauli 1 0 = X := by simp [pauli]
  have hY : pauli 1 1 = Y := by simp [pauli]
  have hZ : pauli 0 1 = Z := by simp [pauli]
  rcases fin2 x with rfl | rfl <;> rcases fin2 z with rfl | rfl <;> rcases fin2 x' with rfl | rfl <;>
    rcases fin2 z' with rfl | rfl <;> simp at h <;> try exact same _
  · rw [hZ, hX]
    exact mk (Real.pi / 2) 0 0 ((moves_YZ.mul (Moves1.id _)).mul (Moves1.id _))
  · rw [hZ, hY]
    exact mk (Real.pi / 2) (Real.pi / 2) 0 ((moves_YZ.mul moves_ZX).mul (Moves1.id _))
  · rw [hX, hZ]
    exact mk (Real.pi / 2) 0 0 ((moves_YX.mul (Moves1.id _)).mul (Moves1.id _))
  · rw [hX, hY]
    exact mk 0 (Real.pi / 2) 0 (((Moves1.id _).mul moves_ZX).mul (Moves1.id _))
  · rw [hY, hZ]
    exact mk 0 (Real.pi / 2) (Real.pi / 2) (((Moves1.id _).mul moves_ZY).mul moves_YX)
  · rw [hY, hX]
    exact mk 0 (Real.pi / 2) 0 (((Moves1.id _).mul moves_ZY).mul (Moves1.id _))

theorem onEach_smul_prod (c : Fin N → ℂ) (f : Fin N → Mat2) : onEach (fun j => c j • f j) = (∏ j, c j) • onEach f := by
  ext a b
  simp only [onEach, Matrix.smul_apply, smul_eq_mul, prod_mul_distrib]

theorem sign_prod (ε : Fin N → ℂ) (h : ∀ j, ε j = 1 ∨ ε j = -1) : (∏ j, ε j) = 1 ∨ (∏ j, ε j) = -1 := by
  classical
  refine Finset.prod_induction _ (fun c => c = 1 ∨ c = -1) ?_ (Or.inl rfl) fun j _ => h j
  rintro a b (rfl | rfl) (rfl | rfl) <;> simp

/-- A layer can turn any string into any other string with the same qubits. -/
theorem turns_moves (x z x' z' : Bits N) (h : ∀ j, (x j = 0 ∧ z j = 0) ↔ (x' j = 0 ∧ z' j = 0)) :
    ∃ g : ℕ → ℕ → ℝ, Moves (turns N g) x z x' z' := by
  choose a ε hε e using fun j : Fin N => pauli_moves (x j) (z j) (x' j) (z' j) (h j)
  refine ⟨fun j => if h : j < N then a ⟨j, h⟩ else 0, ∏ j, ε j, sign_prod ε hε, ?_⟩
  unfold str turns
  rw [onEach_mul, onEach_mul, ← onEach_smul_prod]
  congr 1
  funext j
  simp only [dif_pos j.2]
  exact e j

theorem turns_unitary (g : ℕ → ℕ → ℝ) : IsUnitaryOp (turns N g) :=
  onEach_unitary fun _ => ((IsAxis.u2 (Or.inr (Or.inl rfl)) _).mul (IsAxis.u2 (Or.inr (Or.inr rfl)) _)).mul
    (IsAxis.u2 (Or.inr (Or.inl rfl)) _)

/-! ## Layers followed by rings -/

/-- The string acts on qubit `j`. -/
def On (x z : Bits N) (j : Fin N) : Prop := ¬(x j = 0 ∧ z j = 0)

instance (x z : Bits N) : DecidablePred (On x z) := fun j => inferInstanceAs (Decidable (¬(x j = 0 ∧ z j = 0)))

theorem ne_zero_iff (a : Fin 2) : a ≠ 0 ↔ a = 1 := by rcases fin2 a with rfl | rfl <;> simp

/-- A layer and a ring of either kind can keep the string on the first qubit. -/
theorem keep_first {d : ℕ} (hd : d = 1 ∨ d = 2) (h3 : 3 ≤ N) (x z : Bits N) (h : On x z ⟨0, by omega⟩) :
    ∃ g x' z', Moves (turns N g * ringOp d (List.finRange N)) x z x' z' ∧ On x' z' ⟨0, by omega⟩ := by
  obtain ⟨σ, e, s⟩ := ring_hom hd h3
  set o : Fin N := ⟨0, by omega⟩
  let z₁ : Bits N := fun j => if j ≠ o ∧ On x z j then 1 else 0
  obtain ⟨z', hz'⟩ := dot_adjoint σ z₁
  obtain ⟨g, hg⟩ := turns_moves x z (bit1 o) z₁ (by
    intro j
    by_cases hj : j = o
    · subst hj
      simp only [On] at h
      simp [h, bit1]
    · by_cases hx : x j = 0 ∧ z j = 0 <;> simp [z₁, On, hj, bit1, hx])
  refine ⟨g, bit1 o + bit1 ⟨d, by omega⟩, z', hg.mul ?_, ?_⟩
  · rw [e]
    refine pd_moves ?_ (fun b => ?_) hz'
    · rw [← e]; exact ring_unitary d h3 hd
    · rw [map_add, s]
  · intro hh
    have := hh.1
    have hne : o ≠ ⟨d, by omega⟩ := fun h => by have := congrArg Fin.val h; simp [o] at this; omega
    simp [bit1, hne] at this

theorem ringBits_surj (h3 : 3 ≤ N) (y : Bits N) : ∃ x, ringBits x = y := by
  have hU := (ring_unitary 1 h3 (Or.inl rfl)).1
  rw [ring_pd h3] at hU
  by_contra hx
  push Not at hx
  have := congrFun (congrFun hU y) y
  rw [Matrix.mul_apply, Matrix.one_apply_eq, sum_eq_zero] at this
  · simp at this
  · intro b _
    unfold pd
    rw [if_neg fun h => hx b h.symm, zero_mul]

theorem ring_moves (h3 : 3 ≤ N) {x z x' z' : Bits N} (h1 : ringBits x' = x) (h2 : ∀ b, dot z (ringBits b) = dot z' b) :
    Moves (ringOp 1 (List.finRange N)) x z x' z' := by
  rw [ring_pd h3]
  refine pd_moves ?_ (fun b => by rw [ringBits_add, h1]) h2
  rw [← ring_pd h3]
  exact ring_unitary 1 h3 (Or.inl rfl)

theorem dot_bit1 (i : Fin N) (b : Bits N) : dot (bit1 i) b = b i := by
  unfold dot bit1
  rw [sum_eq_single i]
  · simp
  · intro j _ hj; simp [hj]
  · simp

theorem bits_split (h : 0 < N) (b : Bits N) : ∑ j, b j = b ⟨0, h⟩ + ∑ j : Fin N with 0 < j.val, b j := by
  rw [← sum_erase_add _ _ (mem_univ (⟨0, h⟩ : Fin N)), add_comm]
  congr 1
  refine sum_congr ?_ fun _ _ => rfl
  ext j
  simp [Fin.ext_iff, Nat.pos_iff_ne_zero]

theorem two_self : ∀ x : Fin 2, x + x = 0 := by decide

theorem ring_first (b : Bits N) (h : 0 < N) : ringBits b ⟨0, h⟩ = ∑ j : Fin N with 0 < j.val, b j := by
  unfold ringBits
  rw [if_pos rfl]

theorem ring_lastBit (b : Bits N) (h : 2 ≤ N) : ringBits b ⟨N - 1, by omega⟩ = ∑ j, b j := by
  unfold ringBits
  rw [if_neg (by simp; omega)]
  refine sum_congr ?_ fun _ _ => rfl
  ext j
  simp
  omega

/-- A layer and a ring can spread a string on the first qubit over all qubits. -/
theorem spread (h3 : 3 ≤ N) (x z : Bits N) (h : On x z ⟨0, by omega⟩) :
    ∃ g x' z', Moves (turns N g * ringOp 1 (List.finRange N)) x z x' z' ∧ ∀ j, On x' z' j := by
  set o : Fin N := ⟨0, by omega⟩
  set l : Fin N := ⟨N - 1, by omega⟩
  have hlo : l ≠ o := fun h => by have := congrArg Fin.val h; simp [l, o] at this; omega
  let y : Bits N := fun j => if j = o then (if On x z l then 0 else 1) else if On x z j then 1 else 0
  obtain ⟨x', hx'⟩ := ringBits_surj h3 y
  let z' : Bits N := fun j => if j = o then 0 else 1
  obtain ⟨g, hg⟩ := turns_moves x z y (bit1 o) (by
    intro j
    by_cases hj : j = o
    · subst hj
      simp only [On] at h
      simp [h, bit1]
    · by_cases hx : x j = 0 ∧ z j = 0 <;> simp [y, On, hj, bit1, hx])
  refine ⟨g, x', z', hg.mul (ring_moves h3 hx' fun b => ?_), fun j hh => ?_⟩
  · rw [dot_bit1, ring_first]
    unfold dot
    rw [sum_filter]
    refine sum_congr rfl fun j _ => ?_
    by_cases hj : j = o
    · subst hj; simp [z', o]
    · have : 0 < (j : ℕ) := Nat.pos_of_ne_zero fun h => hj (Fin.ext h)
      simp [z', hj, this]
  · by_cases hj : j = o
    · have e1 := ring_first x' (by omega : 0 < N)
      have e2 := ring_lastBit x' (by omega)
      rw [bits_split (by omega) x', ← e1, hx'] at e2
      have hx0 : x' ⟨0, by omega⟩ = 0 := by have := hh.1; rw [hj] at this; exact this
      rw [hx0, zero_add] at e2
      change y l = y o at e2
      simp only [y, if_neg hlo, if_pos rfl] at e2
      by_cases hl : On x z l <;> simp [hl] at e2
    · have := hh.2
      simp [z', hj] at this

/-- A layer and a ring can contract a string on all qubits to Y on the first qubit. -/
theorem contract (h3 : 3 ≤ N) (x z : Bits N) (h : ∀ j, On x z j) :
    ∃ g, Moves (turns N g * ringOp 1 (List.finRange N)) x z (bit1 ⟨0, by omega⟩) (bit1 ⟨0, by omega⟩) := by
  set o : Fin N := ⟨0, by omega⟩
  set l : Fin N := ⟨N - 1, by omega⟩
  obtain ⟨g, hg⟩ := turns_moves x z (ringBits (bit1 o)) (bit1 o + bit1 l) (by
    intro j
    have := h j
    unfold On at this
    simp only [this, false_iff, not_and]
    intro hj
    rw [ringBits_bit1] at hj
    by_cases hj0 : j = o
    · have hlo : o ≠ l := fun h => by have := congrArg Fin.val h; simp [l, o] at this; omega
      rw [hj0]
      simp [bit1, hlo]
    · have : (j : ℕ) ≠ 0 := fun h => hj0 (Fin.ext h)
      rw [if_neg this] at hj
      simp [o] at hj)
  refine ⟨g, hg.mul (ring_moves h3 rfl fun b => ?_)⟩
  have hadd : dot (bit1 o + bit1 l) (ringBits b) = dot (bit1 o) (ringBits b) + dot (bit1 l) (ringBits b) := by
    unfold dot
    rw [← sum_add_distrib]
    exact sum_congr rfl fun j _ => by rw [Pi.add_apply, add_mul]
  rw [hadd, dot_bit1, dot_bit1, dot_bit1, ring_first, ring_lastBit _ (by omega), bits_split (by omega) b]
  rw [add_left_comm, two_self, add_zero]

end QTN
