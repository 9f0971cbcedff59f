import Verif.Lemmas.CdoSim

/-! # Property C79: the state that the circuit of test_CDO.py prepares -/

namespace QTN.Props

open QTN QTN.Spec QTN.Cdo Matrix

/-! ## The specification -/

/-- The amplitude of the value `x` of a qubit after a rotation of 0 by `θ` around Y. -/
noncomputable def yAmp (θ : ℝ) (x : Fin 2) : ℝ := if x = 0 then Real.cos (θ / 2) else Real.sin (θ / 2)

/-- The amplitude of the values `x` of the qubits 0 to 4: qubit 1 is uniform, qubit 0 depends on qubit 1, and the qubits
2, 3 and 4 (the assets) depend on the qubits 0 and 1. -/
noncomputable def assetAmp (x : Bits 5) : ℝ :=
  yAmp (Real.pi / 2) (x 1) * yAmp (Real.pi / 2 + if x 1 = 1 then -0.791 else 0.791) (x 0) *
    yAmp (0.98 - 0.25 * (x 0 : ℕ) - 0.502 * (x 1 : ℕ)) (x 2) * yAmp (1.45 - 0.382 * (x 0 : ℕ) - 0.766 * (x 1 : ℕ)) (x 3) *
    yAmp (1.5 - 0.232 * (x 0 : ℕ) - 0.462 * (x 1 : ℕ)) (x 4)

/-- The number of assets that default. -/
def defaults (x : Bits 5) : ℕ := (x 2 : ℕ) + (x 3 : ℕ) + (x 4 : ℕ)

/-- The rotation of qubit 5: every default after the first one adds `π/12`. -/
noncomputable def trancheAngle (k : ℕ) : ℝ := 3 * Real.pi / 8 + ((k - 1 : ℕ) : ℝ) * (Real.pi / 12)

/-- The qubits 0 to 4. -/
def firstFive (a : Bits 10) : Bits 5 := ![a 0, a 1, a 2, a 3, a 4]

/-- The amplitudes of the circuit. -/
noncomputable def cdoAmp (a : Bits 10) : ℝ :=
  if a 6 = 0 ∧ a 7 = 0 ∧ a 8 = 0 ∧ a 9 = 0 then
    assetAmp (firstFive a) * yAmp (trancheAngle (defaults (firstFive a))) (a 5)
  else 0

/-! ## C79 -/

theorem fin2_cases (x : Fin 2) : x = 0 ∨ x = 1 := by omega

theorem bitOf_if (a : Bits 10) (j : Fin 10) (c : ℝ) : (if bitOf a j then c else 0) = c * ((a j : ℕ) : ℝ) := by
  unfold bitOf
  rcases fin2_cases (a j) with h | h <;> simp [h]

theorem bitOf_nat (a : Bits 10) (j : Fin 10) : (bitOf a j).toNat = (a j : ℕ) := by
  unfold bitOf
  rcases fin2_cases (a j) with h | h <;> simp [h]

theorem endState_eval (a : Bits 10) : endState (bitOf a 0) (bitOf a 1) (bitOf a 2) (bitOf a 3) (bitOf a 4) a =
    if a 6 = 0 ∧ a 7 = 0 ∧ a 8 = 0 ∧ a 9 = 0 then (yAmp (trancheAngle (defaults (firstFive a))) (a 5) : ℂ) else 0 := by
  have h1 : ∀ j : Fin 10, basisVec (bitOf a j) (a j) = 1 := by
    intro j
    unfold bitOf basisVec
    rcases fin2_cases (a j) with h | h <;> simp [h]
  have h0 : ∀ j : Fin 10, basisVec false (a j) = if a j = 0 then 1 else 0 := fun j => rfl
  have e : endState (bitOf a 0) (bitOf a 1) (bitOf a 2) (bitOf a 3) (bitOf a 4) a =
      basisVec (bitOf a 0) (a 0) * (basisVec (bitOf a 1) (a 1) * (basisVec (bitOf a 2) (a 2) *
        (basisVec (bitOf a 3) (a 3) * (basisVec (bitOf a 4) (a 4) *
          ((ryAmp (lossAngle (bitOf a 2) (bitOf a 3) (bitOf a 4)) (a 5) : ℂ) * (basisVec false (a 6) *
            (basisVec false (a 7) * (basisVec false (a 8) * basisVec false (a 9))))))))) := by
    unfold endState stOf tens
    rw [Fin.prod_univ_succ, Fin.prod_univ_succ, Fin.prod_univ_succ, Fin.prod_univ_succ, Fin.prod_univ_succ,
      Fin.prod_univ_succ, Fin.prod_univ_succ, Fin.prod_univ_succ, Fin.prod_univ_succ, Fin.prod_univ_succ]
    simp only [Finset.univ_eq_empty, Finset.prod_empty, mul_one]
    rfl
  rw [e, h1, h1, h1, h1, h1, h0, h0, h0, h0]
  have hl : ryAmp (lossAngle (bitOf a 2) (bitOf a 3) (bitOf a 4)) (a 5) =
      yAmp (trancheAngle (defaults (firstFive a))) (a 5) := by
    unfold lossAngle trancheAngle defaults firstFive
    rw [bitOf_nat, bitOf_nat, bitOf_nat]
    rfl
  rw [hl]
  by_cases h6 : a 6 = 0 <;> by_cases h7 : a 7 = 0 <;> by_cases h8 : a 8 = 0 <;> by_cases h9 : a 9 = 0 <;>
    simp [h6, h7, h8, h9]

theorem ket0_stOf : ket0 10 = stOf 10 (List.replicate 10 (.bit false)) := by
  ext a
  have e : stOf 10 (List.replicate 10 (.bit false)) a = ∏ j : Fin 10, if a j = 0 then (1 : ℂ) else 0 := by
    unfold stOf tens
    refine Finset.prod_congr rfl fun j _ => ?_
    dsimp only
    rw [List.getD_replicate _ j.2]
    rfl
  rw [e]
  unfold ket0
  by_cases h : a = 0
  · subst h; simp
  · rw [if_neg h]
    obtain ⟨j, hj⟩ := Function.ne_iff.1 h
    exact (Finset.prod_eq_zero (Finset.mem_univ j) (if_neg hj)).symm

theorem qScript_state (a : Bits 10) : (qOp qScript *ᵥ ket0 10) a = (cdoAmp a : ℂ) := by
  have e : qOp qScript = sgOp sgAll := by
    unfold qOp sgOp
    rw [sgAll_op]
  rw [e, ket0_stOf, evalA, endState_eval]
  unfold cdoAmp
  by_cases h : a 6 = 0 ∧ a 7 = 0 ∧ a 8 = 0 ∧ a 9 = 0
  · rw [if_pos h, if_pos h]
    unfold assets
    rw [bitOf_if, bitOf_if, bitOf_if, bitOf_if, bitOf_if, bitOf_if]
    unfold assetAmp
    have hb : (if bitOf a 1 = true then (-0.791 : ℝ) else 0.791) = if firstFive a 1 = 1 then -0.791 else 0.791 := by
      have h1 : firstFive a 1 = a 1 := rfl
      simp only [bitOf, h1, decide_eq_true_eq]
    rw [hb]
    have h0 : firstFive a 0 = a 0 := rfl
    have h1 : firstFive a 1 = a 1 := rfl
    have h2 : firstFive a 2 = a 2 := rfl
    have h3 : firstFive a 3 = a 3 := rfl
    have h4 : firstFive a 4 = a 4 := rfl
    have hr : ryAmp = yAmp := rfl
    rw [h0, h1, h2, h3, h4, hr, show (0.98 - 0.125 + 0.125 : ℝ) = 0.98 by norm_num,
      show (1.45 - 0.191 + 0.191 : ℝ) = 1.45 by norm_num, show (1.5 - 0.116 + 0.116 : ℝ) = 1.5 by norm_num]
    push_cast
    ring
  · rw [if_neg h, if_neg h]
    simp

/-- C79: the amplitudes that the script computes, in closed form. -/
theorem C79_state {svd : SVDOracle} (hv : ValidSVD svd) (s : List (Tensor ℂ)) (hs : ∀ A ∈ s, Lossless A) :
    ∃ out s', dqState svd 10 (part1 ++ part2 ++ part3 ++ part4) (Cdo.psi 10) s = (.ok out, s') ∧
      out.shape = [1, 1024] ∧ ∀ a : Bits 10, out.get [0, enc a] = (cdoAmp a : ℂ) := by
  obtain ⟨out, s', e, ho⟩ := dqState_ok hv (by norm_num) qScript (fun c hc => qItem_wf c (qScript_valid c hc)) s hs
  refine ⟨out, s', by rw [C78_same_calls]; exact e, ho.1, fun a => ?_⟩
  rw [ho.2, circuitOp_qiskit _ qScript_valid, qScript_phase, ← qScript_state]
  simp

theorem yAmp_sq (θ : ℝ) : yAmp θ 0 ^ 2 + yAmp θ 1 ^ 2 = 1 := by
  simp only [yAmp, if_true, one_ne_zero, if_false]
  exact Real.cos_sq_add_sin_sq _

theorem sum_bits_cons {n : ℕ} (f : Bits (n + 1) → ℝ) :
    ∑ x, f x = ∑ b : Fin 2, ∑ x : Bits n, f (Fin.cons b x) := by
  rw [← (Fin.consEquiv (fun _ : Fin (n + 1) => Fin 2)).sum_comp, Fintype.sum_prod_type]
  rfl

theorem sum_bits5 (f : Fin 2 → Fin 2 → Fin 2 → Fin 2 → Fin 2 → ℝ) :
    ∑ x : Bits 5, f (x 0) (x 1) (x 2) (x 3) (x 4) = ∑ b0, ∑ b1, ∑ b2, ∑ b3, ∑ b4, f b0 b1 b2 b3 b4 := by
  rw [sum_bits_cons]
  refine Finset.sum_congr rfl fun b0 _ => ?_
  rw [sum_bits_cons]
  refine Finset.sum_congr rfl fun b1 _ => ?_
  rw [sum_bits_cons]
  refine Finset.sum_congr rfl fun b2 _ => ?_
  rw [sum_bits_cons]
  refine Finset.sum_congr rfl fun b3 _ => ?_
  rw [sum_bits_cons]
  refine Finset.sum_congr rfl fun b4 _ => ?_
  rw [Fintype.sum_unique]
  rfl

theorem assets_total : ∑ x : Bits 5, assetAmp x ^ 2 = 1 := by
  have e := sum_bits5 fun b0 b1 b2 b3 b4 =>
    (yAmp (Real.pi / 2) b1 * yAmp (Real.pi / 2 + if b1 = 1 then -0.791 else 0.791) b0 *
      yAmp (0.98 - 0.25 * (b0 : ℕ) - 0.502 * (b1 : ℕ)) b2 * yAmp (1.45 - 0.382 * (b0 : ℕ) - 0.766 * (b1 : ℕ)) b3 *
      yAmp (1.5 - 0.232 * (b0 : ℕ) - 0.462 * (b1 : ℕ)) b4) ^ 2
  refine (Finset.sum_congr rfl fun x _ => rfl).trans (e.trans ?_)
  have h : ∀ (c d : ℝ) (θ : ℝ), ∑ b : Fin 2, (c * yAmp θ b * d) ^ 2 = (c * d) ^ 2 := by
    intro c d θ
    rw [Fin.sum_univ_two]
    linear_combination (c * d) ^ 2 * yAmp_sq θ
  have h1 : ∀ (c : ℝ) (θ : ℝ), ∑ b : Fin 2, (c * yAmp θ b) ^ 2 = c ^ 2 := by
    intro c θ
    rw [Fin.sum_univ_two]
    linear_combination c ^ 2 * yAmp_sq θ
  simp only [h1]
  rw [Finset.sum_comm]
  simp only [h1]
  rw [Fin.sum_univ_two]
  exact yAmp_sq _

/-- The outcome with the values `x`, 1 on qubit 5 and 0 on the work qubits. -/
def withLoss (x : Bits 5) : Bits 10 := ![x 0, x 1, x 2, x 3, x 4, 1, 0, 0, 0, 0]

theorem firstFive_withLoss (x : Bits 5) : firstFive (withLoss x) = x := by
  funext j
  fin_cases j <;> rfl

theorem cdoAmp_withLoss (x : Bits 5) :
    cdoAmp (withLoss x) = assetAmp x * Real.sin (trancheAngle (defaults x) / 2) := by
  unfold cdoAmp
  rw [if_pos (by exact ⟨rfl, rfl, rfl, rfl⟩), firstFive_withLoss]
  rfl

theorem withLoss_firstFive (a : Bits 10) (h5 : a 5 = 1) (h : a 6 = 0 ∧ a 7 = 0 ∧ a 8 = 0 ∧ a 9 = 0) :
    withLoss (firstFive a) = a := by
  obtain ⟨h6, h7, h8, h9⟩ := h
  funext j
  fin_cases j
  · rfl
  · rfl
  · rfl
  · rfl
  · rfl
  · exact h5.symm
  · exact h6.symm
  · exact h7.symm
  · exact h8.symm
  · exact h9.symm

/-- C79: the probability of reading 1 from qubit 5 is the mean of `sin²` over the joint distribution of the assets, and
the work qubits 6 to 9 are never read as 1. -/
theorem C79_loss {svd : SVDOracle} (hv : ValidSVD svd) (s : List (Tensor ℂ)) (hs : ∀ A ∈ s, Lossless A) :
    ∃ out s', dqState svd 10 (part1 ++ part2 ++ part3 ++ part4) (Cdo.psi 10) s = (.ok out, s') ∧
      (∑ a : Bits 10 with a 5 = 1, ‖out.get [0, enc a]‖ ^ 2 =
        ∑ x : Bits 5, assetAmp x ^ 2 * Real.sin (trancheAngle (defaults x) / 2) ^ 2) ∧
      ∑ x : Bits 5, assetAmp x ^ 2 = 1 ∧
      ∀ a : Bits 10, (a 6 = 1 ∨ a 7 = 1 ∨ a 8 = 1 ∨ a 9 = 1) → out.get [0, enc a] = 0 := by
  obtain ⟨out, s', e, -, ho⟩ := C79_state hv s hs
  refine ⟨out, s', e, ?_, assets_total, fun a ha => ?_⟩
  · symm
    refine Finset.sum_of_injOn withLoss ?_ ?_ ?_ ?_
    · intro x _ y _ hxy
      have h := congrArg firstFive hxy
      rwa [firstFive_withLoss, firstFive_withLoss] at h
    · intro x _
      simp [withLoss]
    · intro a ha hn
      rw [ho]
      have h0 : cdoAmp a = 0 := by
        refine if_neg fun h => hn ⟨firstFive a, by simp, ?_⟩
        exact withLoss_firstFive a (by simpa using ha) h
      rw [h0]
      simp
    · intro x _
      rw [ho, cdoAmp_withLoss, Complex.norm_real, Real.norm_eq_abs, sq_abs, mul_pow]
  · rw [ho]
    have h0 : cdoAmp a = 0 := by
      refine if_neg fun h => ?_
      obtain ⟨h6, h7, h8, h9⟩ := h
      rcases ha with h | h | h | h <;> simp_all
    rw [h0]
    simp

/-- The state with the definite values `a`. -/
def basisKet {N : ℕ} (a : Bits N) : QState N := fun b => if b = a then 1 else 0

/-- `a` with the binary digits of `k` on the qubits 6 (low) and 7 (high). -/
def withCount (a : Bits 10) (k : ℕ) : Bits 10 :=
  Function.update (Function.update a 6 (Fin.ofNat 2 k)) 7 (Fin.ofNat 2 (k / 2))

theorem basisKet_stOf (a : Bits 10) : basisKet a = stOf 10 ((List.finRange 10).map fun j => .bit (bitOf a j)) := by
  ext b
  have e : stOf 10 ((List.finRange 10).map fun j => .bit (bitOf a j)) b =
      ∏ j : Fin 10, if b j = a j then (1 : ℂ) else 0 := by
    unfold stOf tens
    refine Finset.prod_congr rfl fun j _ => ?_
    dsimp only
    rw [List.getD_eq_getElem?_getD, List.getElem?_map, List.getElem?_eq_getElem (by simp), List.getElem_finRange]
    show basisVec (bitOf a j) (b j) = _
    unfold basisVec bitOf
    congr 1
    rcases fin2_cases (a j) with h | h <;> simp [h]
  rw [e]
  unfold basisKet
  by_cases h : b = a
  · subst h; simp
  · rw [if_neg h]
    obtain ⟨j, hj⟩ := Function.ne_iff.1 h
    exact (Finset.prod_eq_zero (Finset.mem_univ j) (if_neg hj)).symm

theorem part2_op : qpart2.map qCallOp = (sgAdd 2 ++ (sgAdd 3 ++ sgAdd 4)).map SG.op := by
  unfold qpart2 sgAdd
  simp only [List.cons_append, List.nil_append, List.map_cons, List.map_nil, qCallOp, SG.op, controlled_nil]

/-- C79: part 2 counts: on every basis state whose work qubits 6, 7 and 8 are 0, it writes the number of the qubits
2, 3 and 4 that are 1 into the qubits 6 and 7 and changes nothing else. -/
theorem C79_counter (a : Bits 10) (h6 : a 6 = 0) (h7 : a 7 = 0) (h8 : a 8 = 0) :
    qOp qpart2 *ᵥ basisKet a = basisKet (withCount a ((a 2 : ℕ) + (a 3 : ℕ) + (a 4 : ℕ))) := by
  have e : qOp qpart2 = sgOp (sgAdd 2 ++ (sgAdd 3 ++ sgAdd 4)) := by
    unfold qOp sgOp
    rw [part2_op]
  have l1 : ((List.finRange 10).map fun j => Q.bit (bitOf a j)) =
      [.bit (bitOf a 0), .bit (bitOf a 1), .bit (bitOf a 2), .bit (bitOf a 3), .bit (bitOf a 4), .bit (bitOf a 5),
        .bit false, .bit false, .bit false, .bit (bitOf a 9)] := by
    have g6 : bitOf a 6 = false := by simp [bitOf, h6]
    have g7 : bitOf a 7 = false := by simp [bitOf, h7]
    have g8 : bitOf a 8 = false := by simp [bitOf, h8]
    nth_rw 1 [← g6]
    nth_rw 1 [← g7]
    nth_rw 1 [← g8]
    rfl
  rw [e, basisKet_stOf, l1, sgOp_append _ _ rfl (sgAdd2_sim ..), sgOp_append _ _ rfl (sgAdd3_sim ..)]
  refine (simulate_sound (N := 10) (sgAdd 4) rfl (sgAdd4_sim ..)).2.trans ?_
  rw [basisKet_stOf]
  have l2 : ∀ c : Bits 10, ((List.finRange 10).map fun j => Q.bit (bitOf c j)) =
      [.bit (bitOf c 0), .bit (bitOf c 1), .bit (bitOf c 2), .bit (bitOf c 3), .bit (bitOf c 4), .bit (bitOf c 5),
        .bit (bitOf c 6), .bit (bitOf c 7), .bit (bitOf c 8), .bit (bitOf c 9)] := fun c => rfl
  have l3 : ∀ (k : ℕ) (j : Fin 10), j ≠ 6 → j ≠ 7 → bitOf (withCount a k) j = bitOf a j := by
    intro k j hj6 hj7
    unfold bitOf withCount
    rw [Function.update_of_ne hj7, Function.update_of_ne hj6]
  have l6 : ∀ k : ℕ, bitOf (withCount a k) 6 = decide (Fin.ofNat 2 k = 1) := fun k => by
    unfold bitOf withCount
    rw [Function.update_of_ne (by decide), Function.update_self]
  have l7 : ∀ k : ℕ, bitOf (withCount a k) 7 = decide (Fin.ofNat 2 (k / 2) = 1) := fun k => by
    unfold bitOf withCount
    rw [Function.update_self]
  rw [l2, l6, l7, l3 _ 0 (by decide) (by decide), l3 _ 1 (by decide) (by decide), l3 _ 2 (by decide) (by decide),
    l3 _ 3 (by decide) (by decide), l3 _ 4 (by decide) (by decide), l3 _ 5 (by decide) (by decide),
    l3 _ 8 (by decide) (by decide), l3 _ 9 (by decide) (by decide), show bitOf a 8 = false by simp [bitOf, h8],
    ← bitOf_nat a 2, ← bitOf_nat a 3, ← bitOf_nat a 4]
  generalize bitOf a 2 = b2, bitOf a 3 = b3, bitOf a 4 = b4
  cases b2 <;> cases b3 <;> cases b4 <;> rfl

/-- Two defaults with qubit 9 in use. -/
example : qOp qpart2 *ᵥ basisKet ![0, 0, 1, 0, 1, 0, 0, 0, 0, 1] = basisKet ![0, 0, 1, 0, 1, 0, 0, 1, 0, 1] := by
  rw [C79_counter _ rfl rfl rfl]
  congr 1
  decide

theorem timeOrdered_mirror {N : ℕ} (l : List (QOp N)) (h : ∀ u ∈ l, u * u = 1) : timeOrdered (l ++ l.reverse) = 1 := by
  induction l with
  | nil => rfl
  | cons u l ih =>
    rw [List.reverse_cons, List.cons_append, ← List.append_assoc, timeOrdered_cons, timeOrdered_append,
      ih fun v hv => h v (List.mem_cons_of_mem _ hv), mul_one, timeOrdered_singleton]
    exact h u List.mem_cons_self

theorem X_mul_X : Spec.X * Spec.X = (1 : Mat2) := by
  ext i j
  fin_cases i <;> fin_cases j <;> simp [Spec.X]

theorem cX_sq {N : ℕ} {cs : List (Fin N)} {t : Fin N} (ht : t ∉ cs) :
    controlled cs t Spec.X * controlled cs t Spec.X = 1 := by
  rw [controlled_mul ht, X_mul_X]
  have e := controlled_scalar cs t 1
  rw [one_smul] at e
  refine Matrix.ext_of_mulVec_single fun i => ?_
  funext a
  rw [e, one_mulVec]
  simp

/-- C79: part 4 undoes part 2, on every state and in both orders. -/
theorem C79_uncompute : qOp (qpart2 ++ qpart4) = 1 ∧ qOp (qpart4 ++ qpart2) = 1 := by
  have e : qpart4 = qpart2.reverse := rfl
  have h : ∀ u ∈ qpart2.map qCallOp, u * u = 1 := by
    unfold qpart2
    simp only [List.map_cons, List.map_nil, qCallOp, ← controlled_nil]
    simp only [List.forall_mem_cons, List.not_mem_nil, false_imp_iff, implies_true, and_true]
    refine ⟨?_, ?_, ?_, ?_, ?_, ?_, ?_, ?_, ?_, ?_, ?_, ?_, ?_, ?_, ?_, ?_, ?_, ?_⟩ <;> exact cX_sq (by decide)
  unfold qOp
  rw [List.map_append, List.map_append, e, List.map_reverse]
  refine ⟨timeOrdered_mirror _ h, ?_⟩
  have h' := timeOrdered_mirror (qpart2.map qCallOp).reverse fun u hu => h u (List.mem_reverse.1 hu)
  rwa [List.reverse_reverse] at h'

end QTN.Props
