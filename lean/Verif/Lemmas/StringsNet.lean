import Verif.Lemmas.Strings

/-! # Lemmas for C99: the first layer, the weights and the networks -/

namespace QTN

open QTN.Spec Matrix Finset

variable {N : ℕ}

/-! ## The first layer -/

theorem braket_onEach (A g : Fin N → Mat2) :
    braket (onEach A) (onEach g *ᵥ ket0 N) = ∏ j, ((g j)ᴴ * A j * g j) 0 0 := by
  rw [braket_mul, onEach_conjTranspose, onEach_mul, onEach_mul]
  unfold braket ket0
  simp only [apply_ite star, star_one, star_zero, mul_ite, mul_one, mul_zero, ite_mul, one_mul, zero_mul,
    Finset.sum_ite_eq', Finset.mem_univ, if_true]
  rfl

theorem rotY_Z (t : ℝ) : ((rot Y t)ᴴ * Spec.Z * rot Y t) 0 0 = (Real.cos t : ℂ) := by
  have hu := (IsAxis.u2 (P := Spec.Y) (Or.inr (Or.inl rfl)) t).2
  rw [mul_assoc, Z_rotY, ← mul_assoc, hu, one_mul]
  simp [Spec.X, Spec.Z]

/-- The phases with half a turn added for the first qubit if the sign is to be changed. -/
noncomputable def signed (ε : ℂ) (φ : ℕ → ℝ) (j : ℕ) : ℝ := if j = 0 ∧ ε = -1 then φ j + Real.pi else φ j

theorem signed_prod (h : 0 < N) {ε : ℂ} (hε : ε = 1 ∨ ε = -1) (S : Fin N → Prop) [DecidablePred S] (hS : S ⟨0, h⟩) (φ t : ℕ → ℝ) :
    ε * ∏ j : Fin N, (if S j then (Real.cos (signed ε φ j + t j) : ℂ) else 1) =
      ∏ j : Fin N, (if S j then (Real.cos (φ j + t j) : ℂ) else 1) := by
  have one_ne : (1 : ℂ) ≠ -1 := by norm_num
  rcases hε with rfl | rfl
  · simp [signed, one_ne]
  · rw [← mul_prod_erase _ _ (mem_univ ⟨0, h⟩), ← mul_prod_erase univ (fun j : Fin N => if S j then (Real.cos (φ j + t j) : ℂ) else 1)
      (mem_univ ⟨0, h⟩), if_pos hS, if_pos hS, ← mul_assoc]
    congr 1
    · have : Real.cos (φ 0 + Real.pi + t 0) = -Real.cos (φ 0 + t 0) := by
        rw [add_right_comm, Real.cos_add_pi]
      simp only [signed, true_and, if_true, this]
      push_cast
      ring
    · refine prod_congr rfl fun j hj => ?_
      have : (j : ℕ) ≠ 0 := fun h => (mem_erase.1 hj).1 (Fin.ext h)
      simp [signed, this]

theorem string_value (x z : Bits N) (t : Fin N → ℝ) :
    braket (str 0 (fun j => if On x z j then 1 else 0)) (onEach (fun j : Fin N => rot Y (t j)) *ᵥ ket0 N) =
      ∏ j : Fin N, (if On x z j then (Real.cos (t j) : ℂ) else 1) := by
  unfold str
  rw [braket_onEach]
  refine prod_congr rfl fun j _ => ?_
  by_cases hj : On x z j
  · have : pauli ((0 : Bits N) j) (if On x z j then 1 else 0) = Z := by simp [pauli, hj]
    rw [this, rotY_Z, if_pos hj]
  · have : pauli ((0 : Bits N) j) (if On x z j then 1 else 0) = 1 := by simp [pauli, hj]
    rw [this, if_neg hj, mul_one, (IsAxis.u2 (P := Spec.Y) (Or.inr (Or.inl rfl)) _).2]
    simp

/-- The first layer makes a product of cosines of the inputs, shifted as one likes, from any string. -/
theorem first_layer (h : 0 < N) (x z : Bits N) (hx : On x z ⟨0, h⟩) (δ : ℂ) (hδ : δ = 1 ∨ δ = -1) (φ : ℕ → ℝ) :
    ∃ g, ∀ t : ℕ → ℝ, δ * braket (str x z) (turns N g *ᵥ onEach (fun j : Fin N => rot Y (t j)) *ᵥ ket0 N) =
      ∏ j : Fin N, (if On x z j then (Real.cos (φ j + t j) : ℂ) else 1) := by
  let z' : Bits N := fun j => if On x z j then 1 else 0
  obtain ⟨g, ε, hε, e⟩ := turns_moves x z 0 z' (by
    intro j
    by_cases hj : x j = 0 ∧ z j = 0 <;> simp [z', On, hj])
  have hs : δ * ε = 1 ∨ δ * ε = -1 := by
    rcases hε with rfl | rfl <;> rcases hδ with rfl | rfl <;> simp
  refine ⟨fun j i => if i = 0 then g j 0 + signed (δ * ε) φ j else g j i, fun t => ?_⟩
  have e1 : turns N (fun j i => if i = 0 then g j 0 + signed (δ * ε) φ j else g j i) *ᵥ
      onEach (fun j : Fin N => rot Y (t j)) *ᵥ ket0 N =
      turns N g *ᵥ onEach (fun j : Fin N => rot Y (signed (δ * ε) φ j + t j)) *ᵥ ket0 N := by
    rw [mulVec_mulVec, mulVec_mulVec]
    unfold turns
    rw [onEach_mul, onEach_mul]
    congr 2
    funext j
    have hY : ∀ a b : ℝ, rot Y a * rot Y b = rot Y (a + b) := fun a b => rot_mul Y_sq a b
    simp only [if_true, OfNat.ofNat_ne_zero, one_ne_zero, if_false]
    rw [← hY, ← hY]
    simp only [mul_assoc]
  have e2 : braket (str x z) (turns N g *ᵥ onEach (fun j : Fin N => rot Y (signed (δ * ε) φ j + t j)) *ᵥ ket0 N) =
      ε * braket (str 0 z') (onEach (fun j : Fin N => rot Y (signed (δ * ε) φ j + t j)) *ᵥ ket0 N) := by
    rw [braket_mul, mul_assoc, e, mul_smul_comm, ← mul_assoc, (turns_unitary g).2, one_mul]
    have := braket_comb ε 0 (str 0 z') 0 (onEach (fun j : Fin N => rot Y (signed (δ * ε) φ j + t j)) *ᵥ ket0 N)
    simpa using this
  have e3 : braket (str 0 z') (onEach (fun j : Fin N => rot Y (signed (δ * ε) φ j + t j)) *ᵥ ket0 N) =
      ∏ j : Fin N, (if On x z j then (Real.cos (signed (δ * ε) φ j + t j) : ℂ) else 1) :=
    string_value x z _
  rw [e1, e2, ← mul_assoc, e3]
  exact signed_prod h hs (On x z) hx φ t

/-! ## Weights -/

/-- The list of weights of `m` layers with the angle `g r j i` for the `i`-th rotation of qubit `j` in layer `r`. -/
noncomputable def weightsFor (m N : ℕ) (g : ℕ → ℕ → ℕ → ℝ) : List ℝ :=
  (List.range (3 * N * m)).map (fun k => g (k / (3 * N)) (k % (3 * N) / 3) (k % 3))

theorem weightsFor_length (m : ℕ) (g : ℕ → ℕ → ℕ → ℝ) : (weightsFor m N g).length = 3 * N * m := by simp [weightsFor]

theorem weightsFor_layer {m : ℕ} (g : ℕ → ℕ → ℕ → ℝ) {r : ℕ} (hr : r < m) :
    layerOp [Y, Z, Y] (List.finRange N) (Props.weightBlock N (weightsFor m N g) r) = turns N (g r) := by
  have hrN : 3 * N * r + 3 * N ≤ 3 * N * m := by
    have := Nat.mul_le_mul_left (3 * N) (show r + 1 ≤ m from hr)
    rwa [Nat.mul_add, mul_one] at this
  unfold Props.weightBlock
  rw [yzy_block (by rw [weightsFor_length]; omega)]
  unfold turns
  congr 1
  funext j
  have hj := j.2
  have key : ∀ i < 3, (weightsFor m N g).getD (3 * N * r + (3 * j + i)) 0 = g r j i := by
    intro i hi
    rw [List.getD_eq_getElem _ _ (by rw [weightsFor_length]; omega)]
    unfold weightsFor
    rw [List.getElem_map, List.getElem_range]
    have h1 : (3 * N * r + (3 * j + i)) / (3 * N) = r := by
      rw [Nat.mul_add_div (by omega), Nat.div_eq_of_lt (by omega), add_zero]
    have h2 : (3 * N * r + (3 * j + i)) % (3 * N) = 3 * j + i := by
      rw [Nat.mul_add_mod, Nat.mod_eq_of_lt (by omega)]
    have h3 : (3 * N * r + (3 * j + i)) % 3 = i := by
      rw [mul_assoc, Nat.mul_add_mod, Nat.mul_add_mod, Nat.mod_eq_of_lt hi]
    rw [h1, h2, h3]
    congr 1
    omega
  have k0 := key 0 (by omega)
  rw [add_zero] at k0
  rw [key 2 (by omega), key 1 (by omega), k0]

/-! ## Circuits -/

/-- Rings with layers before them, in time order, behind a first part. -/
noncomputable def layered (N : ℕ) (g : ℕ → ℕ → ℕ → ℝ) : ℕ → List ℕ → QOp N
  | r, [] => turns N (g r)
  | r, d :: ds => layered N g (r + 1) ds * (ringOp d (List.finRange N) * turns N (g r))

theorem basic_once (p : List ℝ) : Item.op (.basic (List.finRange N) p 1) =
    ringOp 1 (List.finRange N) * layerOp [Y, Z, Y] (List.finRange N) p := by
  show basicOp _ _ _ = _
  unfold basicOp
  rw [List.range_one, List.map_singleton, timeOrdered_singleton, zero_mul, List.drop_zero]

theorem qnn_layered (g : ℕ → ℕ → ℕ → ℝ) :
    circuitOp (Props.qnnItems N (weightsFor 5 N g)) = layered N g 0 [1, 1, 2, 2] := by
  have hl : ∀ r, r < 5 → Item.op (.layer .yzy (List.finRange N) (Props.weightBlock N (weightsFor 5 N g) r)) = turns N (g r) :=
    fun r hr => weightsFor_layer g hr
  have hb : ∀ r, r < 5 → Item.op (.basic (List.finRange N) (Props.weightBlock N (weightsFor 5 N g) r) 1) =
      ringOp 1 (List.finRange N) * turns N (g r) := fun r hr => by rw [basic_once, weightsFor_layer g hr]
  unfold circuitOp Props.qnnItems layered
  simp only [List.map_cons, List.map_nil, timeOrdered_cons, timeOrdered_nil, one_mul]
  rw [hb 0 (by omega), hb 1 (by omega), hl 2 (by omega), hl 3 (by omega), hl 4 (by omega)]
  simp only [layered, mul_assoc]
  rfl

theorem qcnn_layered (g : ℕ → ℕ → ℕ → ℝ) :
    circuitOp (Props.qcnnItems N (weightsFor 6 N g)) = layered N g 0 [1, 1, 2, 2, 1] := by
  have hl : ∀ r, r < 6 → Item.op (.layer .yzy (List.finRange N) (Props.weightBlock N (weightsFor 6 N g) r)) = turns N (g r) :=
    fun r hr => weightsFor_layer g hr
  have hb : ∀ r, r < 6 → Item.op (.basic (List.finRange N) (Props.weightBlock N (weightsFor 6 N g) r) 1) =
      ringOp 1 (List.finRange N) * turns N (g r) := fun r hr => by rw [basic_once, weightsFor_layer g hr]
  unfold circuitOp Props.qcnnItems layered
  simp only [List.map_cons, List.map_nil, timeOrdered_cons, timeOrdered_nil, one_mul]
  rw [hb 4 (by omega), hl 0 (by omega), hl 1 (by omega), hl 2 (by omega), hl 3 (by omega), hl 5 (by omega)]
  simp only [layered, mul_assoc]
  rfl

theorem free_layered (g : ℕ → ℕ → ℕ → ℝ) :
    circuitOp (Props.freeItems N (weightsFor 6 N g)) = layered N g 0 [1, 1, 2, 2, 1] := by
  have hl : ∀ r, r < 6 → Item.op (.layer .yzy (List.finRange N) (Props.weightBlock N (weightsFor 6 N g) r)) = turns N (g r) :=
    fun r hr => weightsFor_layer g hr
  unfold circuitOp Props.freeItems layered
  simp only [List.map_cons, List.map_nil, timeOrdered_cons, timeOrdered_nil, one_mul]
  rw [hl 0 (by omega), hl 1 (by omega), hl 2 (by omega), hl 3 (by omega), hl 4 (by omega), hl 5 (by omega)]
  simp only [layered, mul_assoc]
  rfl

/-! ## Moving Z of the first qubit to the first layer -/

/-- The rings with the layers behind them; layer `r` is left out. -/
noncomputable def rest (N : ℕ) (g : ℕ → ℕ → ℕ → ℝ) : ℕ → List ℕ → QOp N
  | _, [] => 1
  | r, d :: ds => rest N g (r + 1) ds * (turns N (g (r + 1)) * ringOp d (List.finRange N))

theorem layered_rest (g : ℕ → ℕ → ℕ → ℝ) (ds : List ℕ) : ∀ r, layered N g r ds = rest N g r ds * turns N (g r) := by
  induction ds with
  | nil => exact fun r => (one_mul _).symm
  | cons d ds ih => exact fun r => by simp only [layered, rest, ih, mul_assoc]

theorem rest_congr {g g' : ℕ → ℕ → ℕ → ℝ} (ds : List ℕ) : ∀ r, (∀ s > r, g s = g' s) → rest N g r ds = rest N g' r ds := by
  induction ds with
  | nil => exact fun r _ => rfl
  | cons d ds ih =>
    intro r h
    unfold rest
    rw [ih (r + 1) fun s hs => h s (by omega), h (r + 1) (by omega)]

theorem rest_unitary (h3 : 3 ≤ N) (g : ℕ → ℕ → ℕ → ℝ) {ds : List ℕ} (hd : ∀ d ∈ ds, d = 1 ∨ d = 2) :
    ∀ r, IsUnitaryOp (rest N g r ds) := by
  induction ds with
  | nil => exact fun r => ⟨by simp [rest], by simp [rest]⟩
  | cons d ds ih =>
    exact fun r => (ih (fun e he => hd e (List.mem_cons_of_mem _ he)) (r + 1)).mul
      ((turns_unitary _).mul (ring_unitary d h3 (hd d List.mem_cons_self)))

/-- One more ring and layer. -/
theorem rest_step {P Q : Bits N → Bits N → Prop} {d : ℕ} {ds : List ℕ} {r : ℕ} {u v : Bits N}
    (h : ∃ g x z, Moves (rest N g (r + 1) ds) u v x z ∧ P x z)
    (h' : ∀ x z, P x z → ∃ g x' z', Moves (turns N g * ringOp d (List.finRange N)) x z x' z' ∧ Q x' z') :
    ∃ g x z, Moves (rest N g r (d :: ds)) u v x z ∧ Q x z := by
  obtain ⟨g, x, z, hm, hP⟩ := h
  obtain ⟨g₀, x', z', hm', hQ⟩ := h' x z hP
  refine ⟨Function.update g (r + 1) g₀, x', z', ?_, hQ⟩
  unfold rest
  rw [Function.update_self, rest_congr (g' := g) ds (r + 1) fun s hs => Function.update_of_ne (by omega) _ _]
  exact hm.mul hm'

theorem rest_keep (h3 : 3 ≤ N) (ds : List ℕ) : (∀ d ∈ ds, d = 1 ∨ d = 2) → ∀ r, ∃ g x z,
    Moves (rest N g r ds) 0 (bit1 ⟨0, by omega⟩) x z ∧ On x z ⟨0, by omega⟩ := by
  induction ds with
  | nil =>
    intro _ r
    refine ⟨fun _ _ _ => 0, 0, bit1 ⟨0, by omega⟩, ⟨1, Or.inl rfl, ?_⟩, by simp [On, bit1]⟩
    simp [rest]
  | cons d ds ih =>
    intro hd r
    exact rest_step (ih (fun e he => hd e (List.mem_cons_of_mem _ he)) (r + 1))
      fun x z h => keep_first (hd d List.mem_cons_self) h3 x z h

/-- The value from the string that arrives at the first layer. -/
theorem value_of_string (h3 : 3 ≤ N) {ds : List ℕ} (hd : ∀ d ∈ ds, d = 1 ∨ d = 2) {g : ℕ → ℕ → ℕ → ℝ} {x z : Bits N}
    (hm : Moves (rest N g 0 ds) 0 (bit1 ⟨0, by omega⟩) x z) (hx : On x z ⟨0, by omega⟩) (φ : ℕ → ℝ) :
    ∃ g', ∀ t : ℕ → ℝ, braket (onQubit ⟨0, by omega⟩ Spec.Z)
      (layered N g' 0 ds *ᵥ onEach (fun j : Fin N => rot Y (t j)) *ᵥ ket0 N) =
      ∏ j : Fin N, (if On x z j then (Real.cos (φ j + t j) : ℂ) else 1) := by
  obtain ⟨ε, hε, e⟩ := hm
  obtain ⟨g₀, h₀⟩ := first_layer (by omega) x z hx ε hε φ
  refine ⟨Function.update g 0 g₀, fun t => ?_⟩
  rw [← h₀ t, layered_rest, Function.update_self, rest_congr (g' := g) ds 0 fun s hs => Function.update_of_ne (by omega) _ _,
    ← mulVec_mulVec, str_Z, braket_mul, mul_assoc, e, mul_smul_comm, ← mul_assoc, (rest_unitary h3 g hd 0).2, one_mul]
  have := braket_comb ε 0 (str x z) 0 (turns N g₀ *ᵥ onEach (fun j : Fin N => rot Y (t j)) *ᵥ ket0 N)
  simpa using this

/-- A product of the cosines of all angles. -/
theorem layered_product (h3 : 3 ≤ N) {ds : List ℕ} (hd : ∀ d ∈ ds, d = 1 ∨ d = 2) (φ : ℕ → ℝ) :
    ∃ g, ∀ t : ℕ → ℝ, braket (onQubit ⟨0, by omega⟩ Spec.Z)
      (layered N g 0 (1 :: ds) *ᵥ onEach (fun j : Fin N => rot Y (t j)) *ᵥ ket0 N) =
      ((∏ j : Fin N, Real.cos (φ j + t j) : ℝ) : ℂ) := by
  obtain ⟨g, x, z, hm, hx⟩ := rest_step (rest_keep h3 ds hd 1) fun x z h => spread h3 x z h
  obtain ⟨g', h'⟩ := value_of_string h3 (fun e he => by rcases List.mem_cons.1 he with rfl | he; exacts [Or.inl rfl, hd e he]) hm (hx _) φ
  refine ⟨g', fun t => ?_⟩
  rw [h' t, Complex.ofReal_prod]
  exact prod_congr rfl fun j _ => if_pos (hx j)

/-- The cosine of the angle of the first qubit. -/
theorem layered_wave (h3 : 3 ≤ N) {ds : List ℕ} (hd : ∀ d ∈ ds, d = 1 ∨ d = 2) (φ : ℝ) :
    ∃ g, ∀ t : ℕ → ℝ, braket (onQubit ⟨0, by omega⟩ Spec.Z)
      (layered N g 0 (1 :: 1 :: ds) *ᵥ onEach (fun j : Fin N => rot Y (t j)) *ᵥ ket0 N) = (Real.cos (φ + t 0) : ℂ) := by
  obtain ⟨g, x, z, hm, rfl, rfl⟩ := rest_step (Q := fun x z => x = bit1 ⟨0, by omega⟩ ∧ z = bit1 ⟨0, by omega⟩)
    (rest_step (rest_keep h3 ds hd 2) fun x z h => spread h3 x z h) fun x z h => by
      obtain ⟨g, hg⟩ := contract h3 x z h
      exact ⟨g, _, _, hg, rfl, rfl⟩
  have h0 : On (bit1 (⟨0, by omega⟩ : Fin N)) (bit1 ⟨0, by omega⟩) ⟨0, by omega⟩ := by simp [On, bit1]
  obtain ⟨g', h'⟩ := value_of_string h3 (fun e he => by
    rcases List.mem_cons.1 he with rfl | he
    · exact Or.inl rfl
    · rcases List.mem_cons.1 he with rfl | he
      exacts [Or.inl rfl, hd e he]) hm h0 (fun _ => φ)
  refine ⟨g', fun t => ?_⟩
  rw [h' t, prod_eq_single ⟨0, by omega⟩, if_pos h0]
  · intro j _ hj
    rw [if_neg]
    simp [On, bit1, hj]
  · simp

end QTN
