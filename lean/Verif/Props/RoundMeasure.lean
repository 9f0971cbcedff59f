import Verif.Lemmas.RoundMeasure
import Verif.SpecRoundMeasure
import Verif.Props.Round

/-!
# C104: measured values in rounded arithmetic

The whole matrix path: building the gates, `U()`, the product with the state, `measure`.
-/

namespace QTN.Props

open QTN Spec Matrix Complex Finset Arith

variable {N : ℕ} {A : Arith}

theorem biasZ_eq (v : QState N) (i : Fin N) :
    biasZ v i = ∑ a : Bits N, (if a i = 0 then 1 else -1) * ‖v a‖ ^ 2 := (prob_diff _ i).symm

theorem biasZ_near {v w : QState N} (hv : norm2 v = 1) {d : ℝ} (hd : dist2 w v ≤ d) (i : Fin N) :
    |biasZ w i - biasZ v i| ≤ d * (2 + d) := by
  refine le_trans ?_ (C103_probs v w hv hd)
  rw [biasZ_eq, biasZ_eq, ← Finset.sum_sub_distrib]
  refine (Finset.abs_sum_le_sum_abs _ _).trans (Finset.sum_le_sum fun a _ => le_of_eq ?_)
  rw [← mul_sub, abs_mul]
  split <;> simp

theorem measErr_of {v w : QState N} (hv : norm2 v = 1) {d : ℝ} (hd : dist2 w v ≤ d) {i : Fin N} {x : ℝ}
    (hx : |x - ∑ a : Bits N, (if a i = 0 then 1 else -1) * ‖w a‖ ^ 2| ≤ sumErr A.u (2 ^ N) * norm2 w ^ 2) :
    |x - biasZ v i| ≤ measErr A.u N d := by
  have hγ := sumErr_nonneg A.u_nonneg (2 ^ N)
  have h1 : norm2 w ≤ 1 + d := by
    have := norm2_add_le v (w - v)
    rw [add_sub_cancel, hv, ← dist2_eq] at this
    linarith
  have h2 : norm2 w ^ 2 ≤ (1 + d) ^ 2 := pow_le_pow_left₀ (norm2_nonneg _) h1 2
  have h3 := biasZ_near hv hd i
  have h4 := mul_le_mul_of_nonneg_left h2 hγ
  rw [← biasZ_eq] at hx
  unfold measErr
  have := abs_sub_le x (biasZ w i) (biasZ v i)
  linarith

theorem run_basis {U state : Tensor ℂ} {W : QOp N} (hU : Represents U W) (hW : RepM A W) {b : Bits N}
    (hs : IsCol state (basisVec b)) : ∃ sv, A.matmul U state = .ok sv ∧ IsCol sv (column W b) := by
  refine ⟨_, matmul_shape hU.1 hs.1, rfl, fun a => ?_⟩
  rw [Tensor.get_ofFn (by simp [enc_lt a])]
  show A.dot (2 ^ N) (fun x => U.get [enc a, x]) (fun x => state.get [x, 0]) = W a b
  have hb : (basisVec b : QState N) b = 1 := Pi.single_eq_same _ _
  have hd := A.dot_exact (2 ^ N) (fun x => U.get [enc a, x]) (fun x => state.get [x, 0]) (enc b) (enc_lt b)
    (fun j hj hne => by
      obtain ⟨c, rfl⟩ := exists_enc hj
      right
      rw [hs.2]
      exact Pi.single_eq_of_ne (fun e => hne (by rw [e])) _)
    (Or.inr ⟨by rw [hU.2]; exact hW a b, by rw [hs.2, hb]; exact .one⟩)
  rw [hd, hU.2, hs.2, hb, mul_one]

theorem mulVec_basis (M : QOp N) (b : Bits N) : M *ᵥ basisVec b = column M b := by funext a; simp [column]

/-- C104: `measure` after `cir.U() @ state` for a basis state.  For every form of the argument the values are those
of one list, and each is within `measErr` of `P(0) - P(1)`, for the angles stored and for the angles given. -/
theorem C104_measure (A : Arith) (hN : 0 < N) (l : List (Instr N)) (hw : ∀ ins ∈ l, ins.WF) (b : Bits N)
    (state : Tensor ℂ) (hs : IsCol state (basisVec b)) :
    ∃ gates sv, ∃ f : Fin N → ℝ, l.mapM A.build = .ok gates ∧ A.run N gates state = .ok sv ∧
      A.measure N sv .none = .ok (List.ofFn f) ∧
      (∀ i : Fin N, (i : ℕ) ≠ 0 → A.measure N sv (.int (wire i)) = .ok [f i]) ∧
      (∀ ws : List (Fin N), ws ≠ [] → A.measure N sv (.list (wires ws)) = .ok (ws.map f)) ∧
      (∀ i, |f i - biasZ (gateSeqOp (l.map (Instr.mapAngles A.fl)) *ᵥ basisVec b) i| ≤
        measErr A.u N (roundBound A.u A.δ l)) ∧
      ∀ i, |f i - biasZ (gateSeqOp l *ᵥ basisVec b) i| ≤
        measErr A.u N (roundBound A.u A.δ l + A.u * angleSum l) := by
  obtain ⟨gates, U, W, h1, h2, h3, h4, h5, h6⟩ := A.circuitU_round' l hw
  obtain ⟨sv, h7, h8⟩ := run_basis h3 h4 hs
  obtain ⟨f, k1, k2, k3, k4⟩ := measure_round hN h8 (fun a => h4 a b)
  refine ⟨gates, sv, f, h1, ?_, k1, k2, k3, fun i => ?_, fun i => ?_⟩
  · unfold run
    rw [h2, Py.ok_bind, h7]
  · have hu := gateSeqOp_unitary (l.map (Instr.mapAngles A.fl)) (fun ins h => by
      obtain ⟨i, hi, rfl⟩ := List.mem_map.1 h
      exact wf_mapAngles _ i (hw i hi))
    rw [mulVec_basis]
    exact measErr_of (norm2_col hu b) (h5 b) (k4 i)
  · rw [mulVec_basis]
    exact measErr_of (norm2_col (gateSeqOp_unitary l hw) b) (h6 b) (k4 i)

theorem isCol_two : IsCol (N := 2) (Tensor.ofRows [[1], [0], [0], [0]]) (basisVec 0) := ⟨rfl, fun a => by
  obtain ⟨x, y, rfl⟩ : ∃ x y, a = ![x, y] := ⟨a 0, a 1, by funext i; fin_cases i <;> rfl⟩
  fin_cases x <;> fin_cases y <;> simp [enc, basisVec, Pi.single_apply, Tensor.ofRows, Tensor.ofFn]⟩

/-- The Bell circuit followed by a rotation. -/
example (A : Arith) := C104_measure A (N := 2) (by norm_num) [.h 0, .cnot 0 1, .ry 0.4 1] (by simp [Instr.WF]) 0 _ isCol_two

/-- C104: the same for an arbitrary normalised initial state.  Now the product with the state makes an error too,
and the bound grows with the number of qubits. -/
theorem C104_any_state (A : Arith) (hN : 0 < N) (l : List (Instr N)) (hw : ∀ ins ∈ l, ins.WF) (v : QState N)
    (hv : norm2 v = 1) (state : Tensor ℂ) (hs : IsCol state v) :
    ∃ gates sv w, ∃ f : Fin N → ℝ, l.mapM A.build = .ok gates ∧ A.run N gates state = .ok sv ∧ IsCol sv w ∧
      dist2 w (gateSeqOp l *ᵥ v) ≤ prodErr A.u N (roundBound A.u A.δ l + A.u * angleSum l) ∧
      A.measure N sv .none = .ok (List.ofFn f) ∧
      (∀ ws : List (Fin N), ws ≠ [] → A.measure N sv (.list (wires ws)) = .ok (ws.map f)) ∧
      ∀ i, |f i - biasZ (gateSeqOp l *ᵥ v) i| ≤
        measErr A.u N (prodErr A.u N (roundBound A.u A.δ l + A.u * angleSum l)) := by
  obtain ⟨gates, U, W, h1, h2, h3, h4, h5, h6⟩ := A.circuitU_round' l hw
  have hu := gateSeqOp_unitary l hw
  obtain ⟨sv, w, h7, h8, h9, h10⟩ := matmul_col_err (A := A) h3 hs hu h6
  rw [hv, mul_one] at h10
  obtain ⟨f, k1, -, k3, k4⟩ := measure_round hN h8 h9
  refine ⟨gates, sv, w, f, h1, ?_, h8, h10, k1, k3, fun i => ?_⟩
  · unfold run
    rw [h2, Py.ok_bind, h7]
  · refine measErr_of ?_ h10 (k4 i)
    rw [norm2_unitary hu, hv]

/-- The uniform superposition of one qubit. -/
example (A : Arith) := C104_any_state A (N := 1) (by norm_num) [.rz 0.3 0, .ry 0.4 0] (by simp [Instr.WF])
  (fun a => if a 0 = 0 then 0.6 else 0.8) (by
    have e : norm2 (fun a : Bits 1 => if a 0 = 0 then (0.6 : ℂ) else 0.8) ^ 2 = 1 := by
      rw [norm2_sq, ← (Equiv.funUnique (Fin 1) (Fin 2)).symm.sum_comp, Fin.sum_univ_two]
      norm_num
    nlinarith [norm2_nonneg (fun a : Bits 1 => if a 0 = 0 then (0.6 : ℂ) else 0.8)])
  (Tensor.ofRows [[0.6], [0.8]]) ⟨rfl, fun a => by
    obtain ⟨x, rfl⟩ : ∃ x, a = ![x] := ⟨a 0, by funext i; fin_cases i; rfl⟩
    fin_cases x <;> simp [enc, Tensor.ofRows, Tensor.ofFn]⟩

/-- C104: a value further from 0 than the bound has the right sign, so a decision by the sign is right. -/
theorem C104_sign (A : Arith) (hN : 0 < N) (l : List (Instr N)) (hw : ∀ ins ∈ l, ins.WF) (b : Bits N)
    (state : Tensor ℂ) (hs : IsCol state (basisVec b)) (i : Fin N)
    (hz : measErr A.u N (roundBound A.u A.δ l + A.u * angleSum l) < |biasZ (gateSeqOp l *ᵥ basisVec b) i|) :
    ∃ gates sv x, l.mapM A.build = .ok gates ∧ A.run N gates state = .ok sv ∧
      A.measure N sv (.list [wire i]) = .ok [x] ∧ (0 < x ↔ 0 < biasZ (gateSeqOp l *ᵥ basisVec b) i) := by
  obtain ⟨gates, sv, f, h1, h2, -, -, h3, -, h4⟩ := C104_measure A hN l hw b state hs
  refine ⟨gates, sv, f i, h1, h2, h3 [i] (by simp), ?_⟩
  have h5 := (h4 i).trans_lt hz
  set z := biasZ (gateSeqOp l *ᵥ basisVec b) i
  rcases abs_cases z with ⟨hz1, hz2⟩ | ⟨hz1, hz2⟩ <;> rw [hz1, abs_lt] at h5
  · exact ⟨fun _ => by linarith, fun _ => by linarith⟩
  · exact ⟨fun _ => by linarith, fun _ => by linarith⟩

/-- C104: circuits of Pauli gates, CNOT, CZ, SWAP, Toffoli and multi-controlled NOT: every measured value is exactly 1
or -1, the value of the textbook, in every arithmetic. -/
theorem C104_exact (A : Arith) (hN : 0 < N) (l : List (Instr N)) (hw : ∀ ins ∈ l, ins.WF)
    (hx : ∀ ins ∈ l, ins.exact = true) (b : Bits N) (state : Tensor ℂ) (hs : IsCol state (basisVec b)) :
    ∃ gates sv, l.mapM A.build = .ok gates ∧ A.run N gates state = .ok sv ∧
      A.measure N sv .none = .ok (List.ofFn (biasZ (gateSeqOp l *ᵥ basisVec b))) ∧
      ∀ i, biasZ (gateSeqOp l *ᵥ basisVec b) i = 1 ∨ biasZ (gateSeqOp l *ᵥ basisVec b) i = -1 := by
  obtain ⟨gates, h1, U, h2, h3⟩ := C103_exact A l hw hx
  obtain ⟨s1, -⟩ := signM_gateSeq A l hw hx
  obtain ⟨sv, h7, h8⟩ := run_basis h3 (s1.rep (A := A)) hs
  have hu := gateSeqOp_unitary l hw
  obtain ⟨c, hc⟩ := sign_column hu s1 b
  obtain ⟨f, k1, -, -, k4⟩ := measure_exact (A := A) hN h8 c hc (s1 c b)
  rw [mulVec_basis]
  have e : f = biasZ (column (gateSeqOp l) b) := by funext i; rw [k4, biasZ_eq]
  refine ⟨gates, sv, h1, ?_, e ▸ k1, fun i => ?_⟩
  · unfold run
    rw [h2, Py.ok_bind, h7]
  · have h9 : ‖column (gateSeqOp l) b c‖ ^ 2 = 1 := by
      have := norm2_col hu b
      have h10 : norm2 (column (gateSeqOp l) b) ^ 2 = 1 := by
        show norm2 (fun a => gateSeqOp l a b) ^ 2 = 1
        rw [this, one_pow]
      rw [norm2_sq, Finset.sum_eq_single c] at h10
      · exact h10
      · intro a _ ha
        show ‖gateSeqOp l a b‖ ^ 2 = 0
        rw [hc a ha]; simp
      · intro h; exact absurd (mem_univ _) h
    rw [biasZ_eq, Finset.sum_eq_single c]
    · rw [h9, mul_one]
      split
      · exact Or.inl rfl
      · exact Or.inr rfl
    · intro a _ ha
      show _ * ‖gateSeqOp l a b‖ ^ 2 = 0
      rw [hc a ha]; simp
    · intro h; exact absurd (mem_univ _) h

example (A : Arith) := C104_exact A (N := 2) (by norm_num) [.x 0, .cnot 0 1, .y 1] (by simp [Instr.WF])
  (by simp [Instr.exact]) 0 _ isCol_two

/-- `C104_sign` in single precision: a NOT gate, whose value is far from 0. -/
example := C104_sign (binary 24 (by norm_num)) (N := 2) (by norm_num) [.x 0] (by simp [Instr.WF]) 0 _ isCol_two 0 (by
  obtain ⟨_, _, -, -, -, h⟩ := C104_exact (binary 24 (by norm_num)) (N := 2) (by norm_num) [.x 0] (by simp [Instr.WF])
    (by simp [Instr.exact]) 0 _ isCol_two
  have h1 : |biasZ (gateSeqOp [Instr.x (0 : Fin 2)] *ᵥ basisVec 0) 0| = 1 := by
    rcases h 0 with h | h <;> rw [h] <;> simp
  have hs2 : Real.sqrt 2 ≤ 1.4143 := by rw [Real.sqrt_le_left (by norm_num)]; norm_num
  have hu : (binary 24 (by norm_num)).u = 2⁻¹ ^ 24 := show (2 : ℝ) ^ (-((24 : ℕ) : ℤ)) = _ by norm_num
  rw [h1, hu]
  simp [measErr, roundBound, angleSum, Instr.cost, Instr.exact, Instr.angles, sumErr, mulErr]
  norm_num
  linarith)

theorem roundBound_le {u δ : ℝ} (hu0 : 0 ≤ u) (hδ0 : 0 ≤ δ) (hu : u ≤ 2⁻¹ ^ 24) (hδ : δ ≤ 2⁻¹ ^ 23)
    (l : List (Instr N)) : 0 ≤ roundBound u δ l ∧ roundBound u δ l ≤ (1 + 5e-6) ^ l.length - 1 := by
  unfold roundBound
  have : 1 ≤ (l.map (fun ins => 1 + ins.cost u δ)).prod ∧
      (l.map (fun ins => 1 + ins.cost u δ)).prod ≤ (1 + 5e-6) ^ l.length := by
    induction l with
    | nil => simp
    | cons ins l ih =>
      obtain ⟨c0, c1⟩ := C103_cost u δ hu0 hδ0 hu hδ ins
      rw [List.map_cons, List.prod_cons, List.length_cons, pow_succ, mul_comm]
      exact ⟨one_le_mul_of_one_le_of_one_le ih.1 (by linarith),
        mul_le_mul ih.2 (by linarith) (by linarith) (by positivity)⟩
  exact ⟨by linarith [this.1], by linarith [this.2]⟩

/-- C104, single precision: with up to 10 qubits and 100 gates every measured value is within `0.0011` of the value for
the angles stored. -/
theorem C104_float32 (A : Arith) (hu : A.u ≤ 2⁻¹ ^ 24) (hδ : A.δ ≤ 2⁻¹ ^ 23) (hN : 0 < N) (hN' : N ≤ 10)
    (l : List (Instr N)) (hw : ∀ ins ∈ l, ins.WF) (hl : l.length ≤ 100) (b : Bits N)
    (state : Tensor ℂ) (hs : IsCol state (basisVec b)) :
    ∃ gates sv, ∃ f : Fin N → ℝ, l.mapM A.build = .ok gates ∧ A.run N gates state = .ok sv ∧
      A.measure N sv .none = .ok (List.ofFn f) ∧
      ∀ i, |f i - biasZ (gateSeqOp (l.map (Instr.mapAngles A.fl)) *ᵥ basisVec b) i| ≤ 0.0011 := by
  obtain ⟨gates, sv, f, h1, h2, h3, -, -, h4, -⟩ := C104_measure A hN l hw b state hs
  refine ⟨gates, sv, f, h1, h2, h3, fun i => (h4 i).trans ?_⟩
  obtain ⟨r0, r1⟩ := roundBound_le A.u_nonneg A.δ_nonneg hu hδ l
  have r2 : roundBound A.u A.δ l ≤ 0.000501 := by
    have h6 : ((1 : ℝ) + 5e-6) ^ 100 ≤ 1.000501 := by
      have h7 : (1 + 5e-6 : ℝ) ≤ Real.exp 5e-6 := by
        have := Real.add_one_le_exp (5e-6 : ℝ)
        linarith
      have h8 : ((1 : ℝ) + 5e-6) ^ 100 ≤ Real.exp 0.0005 := by
        refine (pow_le_pow_left₀ (by norm_num) h7 100).trans (le_of_eq ?_)
        rw [← Real.exp_nat_mul]; norm_num
      have h9 := Real.exp_bound' (x := 0.0005) (by norm_num) (by norm_num) (n := 2) (by norm_num)
      refine h8.trans (h9.trans ?_)
      norm_num [Finset.sum_range_succ, Nat.factorial]
    have : ((1 : ℝ) + 5e-6) ^ l.length ≤ (1 + 5e-6) ^ 100 := pow_le_pow_right₀ (by norm_num) hl
    exact r1.trans ((sub_le_sub_right (this.trans h6) 1).trans (by norm_num))
  have hγ0 := sumErr_nonneg A.u_nonneg (2 ^ N)
  have hγ : sumErr A.u (2 ^ N) ≤ 6.2e-5 := by
    refine (sumErr_mono A.u_nonneg (Nat.pow_le_pow_right (by norm_num) hN')).trans ?_
    have hs2 : Real.sqrt 2 ≤ 1.4143 := by rw [Real.sqrt_le_left (by norm_num)]; norm_num
    have hk : (1 + A.u) ^ 2 - 1 ≤ 2.0001 * 2⁻¹ ^ 24 := by
      have : (1 + A.u) ^ 2 ≤ (1 + 2⁻¹ ^ 24) ^ 2 := pow_le_pow_left₀ (by linarith [A.u_nonneg]) (by linarith) 2
      refine (sub_le_sub_right this 1).trans ?_
      norm_num
    have hk0 : 0 ≤ (1 + A.u) ^ 2 - 1 := by nlinarith [A.u_nonneg]
    have hμ0 : 0 ≤ mulErr A.u := mulErr_nonneg A.u_nonneg
    have hμ : mulErr A.u ≤ 2.829 * 2⁻¹ ^ 24 := by
      unfold mulErr
      refine (mul_le_mul hs2 hk hk0 (by norm_num)).trans ?_
      norm_num
    have h6 : (1 + A.u) ^ (2 ^ 10) ≤ 1 + 6.11e-5 := by
      have h7 : (1 + A.u : ℝ) ≤ Real.exp (2⁻¹ ^ 24) := by
        have := Real.add_one_le_exp ((2⁻¹ : ℝ) ^ 24)
        linarith
      have h8 : (1 + A.u) ^ (2 ^ 10) ≤ Real.exp (2⁻¹ ^ 14) := by
        refine (pow_le_pow_left₀ (by linarith [A.u_nonneg]) h7 _).trans (le_of_eq ?_)
        rw [← Real.exp_nat_mul]; norm_num
      have h9 := Real.exp_bound' (x := 2⁻¹ ^ 14) (by norm_num) (by norm_num) (n := 2) (by norm_num)
      refine h8.trans (h9.trans ?_)
      norm_num [Finset.sum_range_succ, Nat.factorial]
    unfold sumErr
    have := mul_le_mul h6 (add_le_add_right hμ 1) (by linarith) (by norm_num)
    refine (sub_le_sub_right this 1).trans ?_
    norm_num
  unfold measErr
  have e1 : roundBound A.u A.δ l * (2 + roundBound A.u A.δ l) ≤ 0.000501 * (2 + 0.000501) :=
    mul_le_mul r2 (by linarith) (by linarith) (by norm_num)
  have e2 : sumErr A.u (2 ^ N) * (1 + roundBound A.u A.δ l) ^ 2 ≤ 6.2e-5 * (1 + 0.000501) ^ 2 :=
    mul_le_mul hγ (pow_le_pow_left₀ (by linarith) (by linarith) 2) (by positivity) (by norm_num)
  refine (add_le_add e1 e2).trans ?_
  norm_num

example := C104_float32 (binary 24 (by norm_num)) (N := 2)
  (show (2 : ℝ) ^ (-((24 : ℕ) : ℤ)) ≤ _ by norm_num) (show (2 : ℝ) ^ (-((24 : ℕ) : ℤ)) ≤ _ by norm_num)
  (by norm_num) (by norm_num) [.h 0, .cnot 0 1, .ry 0.4 1] (by simp [Instr.WF]) (by simp) 0 _ isCol_two

end QTN.Props
