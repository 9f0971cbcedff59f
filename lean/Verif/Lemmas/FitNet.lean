import Verif.Lemmas.Fit
import Verif.Model.TrainNet
import Verif.Props.Hybrid
import Verif.Props.DemoNet
import Verif.Props.DaggerTest

/-! # Lemmas for C98: the values of the two circuits for chosen weights, and the loss -/

namespace QTN

open QTN.Spec Matrix Finset

variable {N : ℕ}

theorem enc_single (P : Mat2) (x : ℝ) : Props.encOp P [x] (List.finRange N) = onEach (fun _ : Fin N => rot P x) := by
  unfold Props.encOp
  congr 1
  funext j
  simp [Nat.mod_one]

/-! ## test_TN_train2.py -/

theorem fit_state (h3 : 3 ≤ N) (a : ℕ → ℝ) (θ x : ℝ) : Props.trainState N (weightsOf N (fitAngles a θ)) [x] =
    fitRest h3 θ *ᵥ onEach (fun j : Fin N => fitGate a x j) *ᵥ ket0 N := by
  unfold Props.trainState
  rw [fit_circuit h3, enc_single, mulVec_mulVec, mul_assoc, onEach_mul, ← mulVec_mulVec]
  rfl

theorem fit_train (h3 : 3 ≤ N) (a : ℕ → ℝ) (θ x : ℝ) :
    Props.trainValue (by omega : 0 < N) (weightsOf N (fitAngles a θ)) [x] =
      Real.cos θ * (Real.sin (a 0 + x) * Real.sin (a 2 + x)) := by
  unfold Props.trainValue
  rw [fit_state h3, braket_inter (fit_inter h3 θ) (fitRest_unitary h3 θ), fit_value h3]
  exact Complex.ofReal_re _

theorem fit_state_real (h3 : 3 ≤ N) (hN : N % 2 = 0) (a : ℕ → ℝ) (θ x : ℝ) (c : Bits N) :
    (Props.trainState N (weightsOf N (fitAngles a θ)) [x] c).im = 0 := by
  rw [fit_state h3]
  exact (fitRest_real h3 θ).mulVec (fit_start_real hN a x) c

/-- Products of two sines give every `β + α sin(2 x + φ)` with `|β| ≤ |α| ≤ k / 2`. -/
theorem fit_trig (k α β φ : ℝ) (hk : 0 < k) (hα : |α| ≤ k / 2) (hβ : |β| ≤ |α|) : ∃ θ p q : ℝ, ∀ x,
    k * (Real.cos θ * (Real.sin (p + x) * Real.sin (q + x))) = β + α * Real.sin (2 * x + φ) := by
  by_cases h0 : α = 0
  · subst h0
    have : β = 0 := by simpa using hβ
    subst this
    exact ⟨Real.pi / 2, 0, 0, fun x => by simp⟩
  · have hb : |β / α| ≤ 1 := by
      rw [abs_div, div_le_one (abs_pos.2 h0)]
      exact hβ
    have hk2 : |2 * α / k| ≤ 1 := by
      rw [abs_div, abs_mul, abs_of_pos hk, div_le_one hk]
      simp only [abs_two]
      linarith
    have hc : Real.cos (Real.arccos (2 * α / k)) = 2 * α / k := Real.cos_arccos (abs_le.1 hk2).1 (abs_le.1 hk2).2
    have hd : Real.cos (Real.arccos (β / α)) = β / α := Real.cos_arccos (abs_le.1 hb).1 (abs_le.1 hb).2
    refine ⟨Real.arccos (2 * α / k), (φ + Real.pi / 2 + Real.arccos (β / α)) / 2,
      (φ + Real.pi / 2 - Real.arccos (β / α)) / 2, fun x => ?_⟩
    set δ := Real.arccos (β / α)
    rw [hc]
    have h2 : ∀ u v : ℝ, Real.sin u * Real.sin v = (Real.cos (u - v) - Real.cos (u + v)) / 2 := by
      intro u v
      rw [Real.cos_sub, Real.cos_add]; ring
    rw [h2, show (φ + Real.pi / 2 + δ) / 2 + x - ((φ + Real.pi / 2 - δ) / 2 + x) = δ by ring,
      show (φ + Real.pi / 2 + δ) / 2 + x + ((φ + Real.pi / 2 - δ) / 2 + x) = 2 * x + φ + Real.pi / 2 by ring,
      Real.cos_add_pi_div_two, hd]
    field_simp
    ring

/-! ## test_TN_train.py -/

/-- `Z` on the first qubit commutes with the controlled phase. -/
theorem cphase_Z (t c : Fin N) (cs : List (Fin N)) (θ : ℝ) :
    onQubit c Spec.Z * controlled cs t (Spec.phase θ) = controlled cs t (Spec.phase θ) * onQubit c Spec.Z := by
  rw [Z_pd, cphase_pd, pd_mul, pd_mul]
  exact pd_ext (fun _ => rfl) fun b => mul_comm _ _

theorem ring_X0_two (h2 : 2 ≤ N) : onQubit ⟨0, by omega⟩ Spec.X * ringOp 1 (List.finRange N) =
    ringOp 1 (List.finRange N) * (onQubit ⟨0, by omega⟩ Spec.X * onQubit ⟨1, by omega⟩ Spec.X) := by
  by_cases h3 : 3 ≤ N
  · exact ring_X0 h3
  · obtain rfl : N = 2 := by omega
    have e : ringOp 1 (List.finRange 2) = controlled [(0 : Fin 2)] 1 Spec.X := rfl
    rw [e, cnot_pd, X_shift, X_shift, pd_shift_mul]
    have h2 : ∀ x y : Fin 2, x + 1 + (y + 1) = x + y ∧ y + 0 + 1 + 0 + x = x + y + 1 := by decide
    refine pd_inter_shift fun b => funext fun k => ?_
    fin_cases k
    · simp [bit1]
    · simp [bit1]
      generalize b 0 = x
      generalize b 1 = y
      revert x y
      decide

/-- The weights: X rotations by `p`, Y rotations of the first two qubits by `γ` and `π / 2` before the ring, a Y rotation
of the first qubit by `-π / 2` after it, all other angles zero. -/
noncomputable def hybridW (N : ℕ) (p : ℕ → ℝ) (γ : ℝ) : List ℝ :=
  (List.range (7 * N + 1)).map (fun k => if k < N then p k else if k = N then γ else if k = N + 3 then Real.pi / 2
    else if k = 4 * N then -(Real.pi / 2) else 0)

theorem hybridW_length (p : ℕ → ℝ) (γ : ℝ) : (hybridW N p γ).length = 7 * N + 1 := by simp [hybridW]

theorem yzy_block {w : List ℝ} {k : ℕ} (h : k + 3 * N ≤ w.length) :
    layerOp [Y, Z, Y] (List.finRange N) ((w.drop k).take (3 * N)) = onEach (fun j : Fin N =>
      rot Y (w.getD (k + (3 * j + 2)) 0) * rot Z (w.getD (k + (3 * j + 1)) 0) * rot Y (w.getD (k + 3 * j) 0)) := by
  rw [layerOp_finRange]
  congr 1
  funext j
  have hj := j.2
  have hl : ((w.drop k).take (3 * N)).length = 3 * N := by
    rw [List.length_take, List.length_drop]
    omega
  have hlen : ([Y, Z, Y] : List Mat2).length = 3 := rfl
  rw [hlen, seqRot3 (by rw [hl]; omega)]
  simp only [List.getElem_take, List.getElem_drop]
  rw [List.getD_eq_getElem _ _ (by omega), List.getD_eq_getElem _ _ (by omega), List.getD_eq_getElem _ _ (by omega)]

theorem hybridW_get (p : ℕ → ℝ) (γ : ℝ) (k : ℕ) : (hybridW N p γ).getD k 0 = if 7 * N < k then 0 else
    if k < N then p k else if k = N then γ else if k = N + 3 then Real.pi / 2
    else if k = 4 * N then -(Real.pi / 2) else 0 := by
  by_cases h : 7 * N < k
  · rw [if_pos h, List.getD_eq_default _ _ (by rw [hybridW_length]; omega)]
  · rw [if_neg h, List.getD_eq_getElem _ _ (by rw [hybridW_length]; omega)]
    simp [hybridW]

/-- The Y rotation of qubit `j` before the ring. -/
noncomputable def hybridTurn (γ : ℝ) (j : ℕ) : ℝ := if j = 0 then γ else if j = 1 then Real.pi / 2 else 0

theorem hybrid_first (h2 : 2 ≤ N) (p : ℕ → ℝ) (γ : ℝ) :
    layerOp [Y, Z, Y] (List.finRange N) (((hybridW N p γ).drop N).take (3 * N)) =
      onEach (fun j : Fin N => rot Y (hybridTurn γ j)) := by
  rw [yzy_block (by rw [hybridW_length]; omega)]
  congr 1
  funext j
  have hj := j.2
  have z2 : (hybridW N p γ).getD (N + (3 * j + 2)) 0 = 0 := by
    rw [hybridW_get, if_neg (by omega), if_neg (by omega), if_neg (by omega), if_neg (by omega), if_neg (by omega)]
  have z1 : (hybridW N p γ).getD (N + (3 * j + 1)) 0 = 0 := by
    rw [hybridW_get, if_neg (by omega), if_neg (by omega), if_neg (by omega), if_neg (by omega), if_neg (by omega)]
  have z0 : (hybridW N p γ).getD (N + 3 * j) 0 = hybridTurn γ j := by
    rw [hybridW_get, if_neg (by omega), if_neg (by omega)]
    unfold hybridTurn
    by_cases h0 : (j : ℕ) = 0
    · rw [if_pos (by omega), if_pos h0]
    · rw [if_neg (by omega), if_neg h0]
      by_cases h1 : (j : ℕ) = 1
      · rw [if_pos (by omega), if_pos h1]
      · rw [if_neg (by omega), if_neg h1, if_neg (by omega)]
  rw [z2, z1, z0, rot_zero, rot_zero, one_mul, one_mul]

theorem hybrid_last (h2 : 2 ≤ N) (p : ℕ → ℝ) (γ : ℝ) :
    layerOp [Y, Z, Y] (List.finRange N) (((hybridW N p γ).drop (4 * N)).take (3 * N)) =
      onQubit ⟨0, by omega⟩ (rot Y (-(Real.pi / 2))) := by
  rw [yzy_block (by rw [hybridW_length]; omega), ← onEach_update_one]
  congr 1
  funext j
  have hj := j.2
  have z2 : (hybridW N p γ).getD (4 * N + (3 * j + 2)) 0 = 0 := by
    rw [hybridW_get, if_neg (by omega), if_neg (by omega), if_neg (by omega), if_neg (by omega), if_neg (by omega)]
  have z1 : (hybridW N p γ).getD (4 * N + (3 * j + 1)) 0 = 0 := by
    rw [hybridW_get, if_neg (by omega), if_neg (by omega), if_neg (by omega), if_neg (by omega), if_neg (by omega)]
  rw [z2, z1, rot_zero, rot_zero, one_mul, one_mul, hybridW_get, if_neg (by omega), if_neg (by omega), if_neg (by omega),
    if_neg (by omega)]
  by_cases h0 : j = ⟨0, by omega⟩
  · rw [h0, Function.update_self, if_pos (by simp)]
  · have : (j : ℕ) ≠ 0 := fun h => h0 (Fin.ext h)
    rw [if_neg (by omega), Function.update_of_ne h0, rot_zero]

theorem hybrid_rx (p : ℕ → ℝ) (γ : ℝ) :
    circuitOp ((List.finRange N).map (fun i : Fin N => (.gate (.rx ((hybridW N p γ).getD i 0) i) : Item N))) =
      onEach (fun j : Fin N => rot X (p j)) := by
  unfold circuitOp
  rw [List.map_map]
  have : (Item.op ∘ fun i : Fin N => (.gate (.rx ((hybridW N p γ).getD i 0) i) : Item N)) =
      fun i => onQubit i (rot X (p i)) := by
    funext i
    have hi := i.2
    show onQubit i (rot X _) = _
    rw [hybridW_get, if_neg (by omega), if_pos hi]
  rw [this, timeOrdered_onQubit _ (List.nodup_finRange N)]
  simp

/-- Everything behind the first layers. -/
noncomputable def hybridRest (h2 : 2 ≤ N) : QOp N :=
  controlled [⟨1, by omega⟩] ⟨0, by omega⟩ (Spec.phase 0) * (onQubit ⟨0, by omega⟩ (rot Y (-(Real.pi / 2))) *
    ringOp 1 (List.finRange N))

theorem hybrid_circuit (h2 : 2 ≤ N) (p : ℕ → ℝ) (γ : ℝ) : circuitOp (Props.hybridItems h2 (hybridW N p γ)) =
    hybridRest h2 * onEach (fun j : Fin N => rot Y (hybridTurn γ j) * rot X (p j)) := by
  have hz : (hybridW N p γ).getD (7 * N) 0 = 0 := by
    rw [hybridW_get, if_neg (by omega), if_neg (by omega), if_neg (by omega), if_neg (by omega), if_neg (by omega)]
  unfold Props.hybridItems Props.hybridFront
  have app : ∀ l m : List (Item N), circuitOp (l ++ m) = circuitOp m * circuitOp l := fun l m => by
    unfold circuitOp
    rw [List.map_append, timeOrdered_append]
  rw [hz, app, app, hybrid_rx]
  have e : circuitOp [(.layer .yzy (List.finRange N) (((hybridW N p γ).drop N).take (3 * N)) : Item N), .ring (List.finRange N),
      .layer .yzy (List.finRange N) (((hybridW N p γ).drop (4 * N)).take (3 * N))] =
      onQubit ⟨0, by omega⟩ (rot Y (-(Real.pi / 2))) * (ringOp 1 (List.finRange N) *
        onEach (fun j : Fin N => rot Y (hybridTurn γ j))) := by
    rw [← hybrid_last h2 p γ, ← hybrid_first h2 p γ]
    unfold circuitOp
    simp only [List.map_cons, List.map_nil, timeOrdered_cons, timeOrdered_nil, one_mul, mul_assoc]
    rfl
  have e2 : circuitOp [Props.hybridPhase h2 0] = controlled [⟨1, by omega⟩] ⟨0, by omega⟩ (Spec.phase 0) := by
    unfold circuitOp Props.hybridPhase
    simp only [List.map_cons, List.map_nil, timeOrdered_singleton]
    rfl
  rw [e, e2]
  unfold hybridRest
  simp only [mul_assoc]
  rw [onEach_mul]

theorem hybrid_inter (h2 : 2 ≤ N) : onQubit ⟨0, by omega⟩ Spec.Z * hybridRest h2 =
    hybridRest h2 * (onQubit ⟨0, by omega⟩ Spec.X * onQubit ⟨1, by omega⟩ Spec.X) := by
  refine inter_mul (cphase_Z _ _ _ _) (inter_mul ?_ (ring_X0_two h2))
  rw [onQubit_mul, onQubit_mul, Z_rotY_neg]

theorem hybridRest_unitary (h2 : 2 ≤ N) : IsUnitaryOp (hybridRest h2) := by
  have h1 : IsUnitaryOp (Props.hybridPhase h2 0).op := item_unitary _ (by
    show (⟨1, by omega⟩ : Fin N) ≠ ⟨0, by omega⟩
    simp)
  exact h1.mul ((onQubit_unitary (IsAxis.u2 (Or.inr (Or.inl rfl)) _) _).mul
    (ringKindOp_unitary .ring (List.nodup_finRange N) (by simp; omega)))

theorem hybrid_form (γ t : ℝ) : ((rot Y γ * rot X t)ᴴ * Spec.X * (rot Y γ * rot X t)) 0 0 =
    ((Real.sin γ * Real.cos t : ℝ) : ℂ) := by
  have hu := (IsAxis.u2 (P := Spec.Y) (Or.inr (Or.inl rfl)) γ).2
  have e : (rot Y γ * rot X t)ᴴ * Spec.X * (rot Y γ * rot X t) =
      (rot X t)ᴴ * ((Real.cos γ : ℂ) • Spec.X + (Real.sin γ : ℂ) • Spec.Z) * rot X t := by
    rw [conjTranspose_mul]
    calc (rot X t)ᴴ * (rot Y γ)ᴴ * Spec.X * (rot Y γ * rot X t)
        = (rot X t)ᴴ * ((rot Y γ)ᴴ * (Spec.X * rot Y γ)) * rot X t := by simp only [mul_assoc]
      _ = _ := by rw [X_rotY, ← mul_assoc (rot Y γ)ᴴ, hu, one_mul]
  have h : t = 2 * (t / 2) := by ring
  have hc : (Real.cos t : ℂ) = (Real.cos (t / 2) : ℂ) ^ 2 - (Real.sin (t / 2) : ℂ) ^ 2 := by
    rw [h, Real.cos_two_mul']; push_cast; ring_nf
  have hI : Complex.I * Complex.I = -1 := Complex.I_mul_I
  rw [e, Complex.ofReal_mul, hc, rot_X_eq]
  simp [Matrix.mul_apply, Fin.sum_univ_two, Matrix.conjTranspose_apply, Spec.X, Spec.Z, -Complex.ofReal_cos, -Complex.ofReal_sin]
  ring_nf
  simp
  ring

theorem fit_hybrid (h2 : 2 ≤ N) (p : ℕ → ℝ) (γ x : ℝ) : Props.hybridValue h2 (hybridW N p γ) [x] =
    Real.sin γ * (Real.cos (p 0 + x) * Real.cos (p 1 + x)) := by
  unfold Props.hybridValue energy Props.firstZ
  rw [enc_single, hybrid_circuit, mulVec_mulVec, mul_assoc, onEach_mul, ← mulVec_mulVec,
    braket_inter (hybrid_inter h2) (hybridRest_unitary h2)]
  have hX : ∀ t u : ℝ, rot X t * rot X u = rot X (t + u) := fun t u => rot_mul X_sq t u
  have e : (fun j : Fin N => rot Y (hybridTurn γ j) * rot X (p j) * rot X x) =
      fun j : Fin N => rot Y (hybridTurn γ j) * rot X (p j + x) := by
    funext j
    rw [mul_assoc, hX]
  rw [e, braket_two (by simp) _ _ _ fun j => (IsAxis.u2 (Or.inr (Or.inl rfl)) _).mul (IsAxis.u2 (Or.inl rfl) _),
    hybrid_form, hybrid_form, ← Complex.ofReal_mul, Complex.ofReal_re]
  simp [hybridTurn]
  ring

/-! ## The loss -/

theorem mse_row {a b : Tensor ℝ} {B : ℕ} (ha : a.shape = [B]) (hb : b.shape = [B, 1]) :
    DemoNet.MSELoss a.squeeze b.squeeze = .ok ((∑ k ∈ range B, (a.get [k] - b.get [k, 0]) ^ 2) / B) := by
  by_cases h : B = 1
  · subst h
    have sa : a.squeeze.shape = [] := by simp [Tensor.squeeze, Tensor.ofFn, ha]
    have sb : b.squeeze.shape = [] := by simp [Tensor.squeeze, Tensor.ofFn, hb]
    have ga : a.squeeze.get [] = a.get [0] := by
      unfold Tensor.squeeze
      rw [Tensor.get_ofFn (by simp [ha])]
      simp [ha, Tensor.unsqIdx]
    have gb : b.squeeze.get [] = b.get [0, 0] := by
      unfold Tensor.squeeze
      rw [Tensor.get_ofFn (by simp [hb])]
      simp [hb, Tensor.unsqIdx]
    unfold DemoNet.MSELoss
    simp [sa, sb, Tensor.bcast, Tensor.bcastRev, Tensor.bIdx, ga, gb]
  · have sa : a.squeeze.shape = [B] := by simp [Tensor.squeeze, Tensor.ofFn, ha, h]
    have sb : b.squeeze.shape = [B] := by simp [Tensor.squeeze, Tensor.ofFn, hb, h]
    have ga : ∀ k < B, a.squeeze.get [k] = a.get [k] := by
      intro k hk
      unfold Tensor.squeeze
      rw [Tensor.get_ofFn (by simp [ha, h, hk])]
      simp [ha, Tensor.unsqIdx, h]
    have gb : ∀ k < B, b.squeeze.get [k] = b.get [k, 0] := by
      intro k hk
      unfold Tensor.squeeze
      rw [Tensor.get_ofFn (by simp [hb, h, hk])]
      simp [hb, Tensor.unsqIdx, h]
    unfold DemoNet.MSELoss
    rw [sa, sb]
    simp only [Tensor.bcast, Tensor.bcastRev, List.reverse_cons, List.reverse_nil, List.nil_append, if_true,
      Option.map_some, List.prod_cons, List.prod_nil, mul_one]
    congr 2
    refine sum_congr rfl fun k hk => ?_
    have hk' := mem_range.1 hk
    have : Tensor.bIdx [B] (unravel [B] k) = [k] := by
      simp [Tensor.bIdx, unravel, h]
    rw [this, ga k hk', gb k hk']

/-! ## Two states with a large overlap have similar expectation values -/

theorem braket_ip (O : QOp N) (v : QState N) : braket O v = ip v (O *ᵥ v) := by
  rw [braket_eq, ← dotProduct_mulVec]
  rfl

theorem ip_add_left (u v w : QState N) : ip (u + v) w = ip u w + ip v w := by
  unfold ip
  rw [← sum_add_distrib]
  exact sum_congr rfl fun a _ => by rw [Pi.add_apply, star_add]; ring

theorem ip_add_right (u v w : QState N) : ip u (v + w) = ip u v + ip u w := by
  unfold ip
  rw [← sum_add_distrib]
  exact sum_congr rfl fun a _ => by rw [Pi.add_apply]; ring

theorem ip_neg_left (u w : QState N) : ip (-u) w = -ip u w := by
  unfold ip
  rw [← sum_neg_distrib]
  exact sum_congr rfl fun a _ => by rw [Pi.neg_apply, star_neg]; ring

theorem ip_neg_right (u w : QState N) : ip u (-w) = -ip u w := by
  unfold ip
  rw [← sum_neg_distrib]
  exact sum_congr rfl fun a _ => by rw [Pi.neg_apply]; ring

/-- For unit vectors with the real part `c` of their inner product, and a Hermitian unitary observable. -/
theorem braket_overlap {O : QOp N} (hO : IsUnitaryOp O) (hH : Oᴴ = O) {u v : QState N} (hu : norm2 u = 1)
    (hv : norm2 v = 1) : |(braket O u).re - (braket O v).re| ≤ 2 * Real.sqrt (1 - (ip u v).re ^ 2) := by
  have h1 : (braket O u).re - (braket O v).re = (ip (u + -v) (O *ᵥ (u + v))).re := by
    have hs : (ip v (O *ᵥ u)).re = (ip u (O *ᵥ v)).re := by
      rw [← ip_adj, hH, ip_comm_re]
    rw [braket_ip, braket_ip, mulVec_add, ip_add_left, ip_add_right, ip_add_right, ip_neg_left, ip_neg_left]
    simp only [Complex.add_re, Complex.neg_re]
    linarith
  have su : (ip u u).re = 1 := by rw [Props.ip_self, hu]; simp
  have sv : (ip v v).re = 1 := by rw [Props.ip_self, hv]; simp
  have hc : (ip v u).re = (ip u v).re := ip_comm_re v u
  have hm : norm2 (u + -v) ^ 2 = 2 - 2 * (ip u v).re := by
    have : ((norm2 (u + -v) ^ 2 : ℝ) : ℂ).re = (ip (u + -v) (u + -v)).re := by rw [Props.ip_self]
    rw [Complex.ofReal_re] at this
    rw [this, ip_add_left, ip_add_right, ip_add_right, ip_neg_left, ip_neg_left, ip_neg_right, ip_neg_right]
    simp only [Complex.add_re, Complex.neg_re, su, sv, hc]
    ring
  have hp : norm2 (u + v) ^ 2 = 2 + 2 * (ip u v).re := by
    have : ((norm2 (u + v) ^ 2 : ℝ) : ℂ).re = (ip (u + v) (u + v)).re := by rw [Props.ip_self]
    rw [Complex.ofReal_re] at this
    rw [this, ip_add_left, ip_add_right, ip_add_right]
    simp only [Complex.add_re, su, sv, hc]
    ring
  rw [h1]
  refine (Complex.abs_re_le_norm _).trans ((ip_norm _ _).trans ?_)
  rw [norm2_unitary hO]
  have h0 : 0 ≤ norm2 (u + -v) * norm2 (u + v) := mul_nonneg (Real.sqrt_nonneg _) (Real.sqrt_nonneg _)
  rw [show (2 : ℝ) = Real.sqrt (2 ^ 2) by rw [Real.sqrt_sq (by norm_num)], ← Real.sqrt_mul (by positivity)]
  refine Real.le_sqrt_of_sq_le (le_of_eq ?_)
  rw [mul_pow, hm, hp]
  ring

theorem enc_overlap (x y : ℝ) : ip (onEach (fun _ : Fin N => rot X x) *ᵥ ket0 N) (onEach (fun _ : Fin N => rot X y) *ᵥ ket0 N) =
    ((Real.cos ((y - x) / 2) ^ N : ℝ) : ℂ) := by
  have e : ∀ (M : QOp N) (w : QState N), ip (M *ᵥ ket0 N) w = ip (ket0 N) (Mᴴ *ᵥ w) := by
    intro M w
    rw [← ip_adj, conjTranspose_conjTranspose]
  rw [e, mulVec_mulVec, onEach_conjTranspose, onEach_mul]
  have hr : (rot X x)ᴴ * rot X y = rot X (y - x) := by
    rw [IsAxis.conj (Or.inl rfl), rot_mul X_sq]
    congr 1
    ring
  simp only [hr]
  unfold ip Matrix.mulVec dotProduct ket0
  simp only [apply_ite star, star_one, star_zero, mul_ite, mul_one, mul_zero, ite_mul, one_mul, zero_mul,
    Finset.sum_ite_eq', Finset.mem_univ, if_true]
  unfold onEach
  rw [rot_X_eq]
  simp

end QTN
