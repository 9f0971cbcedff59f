import Verif.SpecExp
import Verif.Lemmas.MpsCircuit

/-! # Quadratic forms of state vectors -/

namespace QTN

open Finset Spec Matrix

variable {N : ℕ}

theorem squeeze11 {t : Tensor ℂ} (h : t.shape = [1, 1]) : t.squeeze.get [] = t.get [0, 0] := by
  unfold Tensor.squeeze
  rw [h, Tensor.get_ofFn (by simp)]
  simp [Tensor.unsqIdx]

theorem Spec.IsCol.ext {t t' : Tensor ℂ} {v : QState N} (h : IsCol t v) (h' : IsCol t' v) : t = t' := by
  apply Tensor.ext' (h.1.trans h'.1.symm)
  intro idx hi
  rw [h.1] at hi
  match idx, hi with
  | [], hi => simp [inB] at hi
  | [_], hi => simp [inB] at hi
  | _ :: _ :: _ :: _, hi => simp [inB] at hi
  | [i, j], hi =>
    simp only [inB_cons, inB_nil, Bool.and_eq_true, decide_eq_true_eq] at hi
    obtain ⟨hi, hj, -⟩ := hi
    obtain rfl : j = 0 := by omega
    obtain ⟨b, rfl⟩ := exists_enc hi
    rw [h.2, h'.2]

theorem col_view_col {t : Tensor ℂ} {v : QState N} (h : IsCol t v) : t.view [-1, 1] = .ok t := by
  have hn : t.numel = 2 ^ N := by simp [Tensor.numel, h.1]
  have e := Tensor.view_neg_first t (2 ^ N) [1] (by simp [hn]) (by simp)
  refine e.trans (congrArg _ ?_)
  refine Spec.IsCol.ext (v := v) ⟨rfl, fun a => ?_⟩ h
  rw [Tensor.reshapeN_get_eq (idx' := [enc a, 0]) (by simp [enc_lt]) (by rw [h.1]; simp [enc_lt])
    (by rw [h.1]), h.2]

theorem row_conj {t : Tensor ℂ} {v : QState N} (h : IsRow t v) : IsRow t.conj (star v) := by
  refine ⟨h.1, fun a => ?_⟩
  unfold Tensor.conj
  rw [Tensor.get_ofFn (by rw [h.1]; simp [enc_lt]), h.2]
  rfl

theorem Spec.IsRow.mulRep {t M : Tensor ℂ} {v : QState N} {O : QOp N} (h : IsRow t v)
    (hM : Represents M O) : ∃ w, t.matmul M = .ok w ∧ IsRow w (v ᵥ* O) := by
  refine ⟨_, Tensor.matmul2 h.1 hM.1, rfl, fun a => ?_⟩
  rw [Tensor.matmul2_get h.1 hM.1 (Tensor.matmul2 h.1 hM.1) (by omega) (enc_lt a), sum_enc]
  simp only [h.2, hM.2]
  rfl

theorem Spec.IsRow.mulCol {r c : Tensor ℂ} {v w : QState N} (h : IsRow r v) (hc : IsCol c w) :
    ∃ t, r.matmul c = .ok t ∧ t.shape = [1, 1] ∧ t.get [0, 0] = v ⬝ᵥ w := by
  refine ⟨_, Tensor.matmul2 h.1 hc.1, rfl, ?_⟩
  rw [Tensor.matmul2_get h.1 hc.1 (Tensor.matmul2 h.1 hc.1) (by omega) (by omega), sum_enc]
  simp only [h.2, hc.2]
  rfl

theorem braket_eq (O : QOp N) (v : QState N) : braket O v = (star v ᵥ* O) ⬝ᵥ v := by
  rw [← dotProduct_mulVec]
  simp only [braket, dotProduct, mulVec, Pi.star_apply, mul_sum]
  exact sum_congr rfl fun a _ => sum_congr rfl fun b _ => by ring

theorem braket_mul (O U : QOp N) (v : QState N) : braket O (U *ᵥ v) = braket (Uᴴ * O * U) v := by
  rw [braket_eq, braket_eq, star_mulVec, dotProduct_mulVec, vecMul_vecMul, vecMul_vecMul, Matrix.mul_assoc]

theorem quadForm_of {psi M r c : Tensor ℂ} {v : QState N} {O : QOp N} (hr : psi.view [1, -1] = .ok r)
    (hc : psi.view [-1, 1] = .ok c) (h : IsRow r v) (h' : IsCol c v) (hM : Represents M O) :
    Circuit.quadForm psi M = .ok (braket O v).re := by
  obtain ⟨l, hl, rl⟩ := (row_conj h).mulRep hM
  obtain ⟨t, ht, st, gt⟩ := rl.mulCol h'
  unfold Circuit.quadForm
  rw [hr, Py.ok_bind, hl, Py.ok_bind, hc, Py.ok_bind, ht, Py.ok_bind, squeeze11 st, gt, braket_eq]

theorem quadForm_row {psi M : Tensor ℂ} {v : QState N} {O : QOp N} (h : IsRow psi v)
    (hM : Represents M O) : Circuit.quadForm psi M = .ok (braket O v).re := by
  obtain ⟨c, hc, rc⟩ := row_view_col h
  exact quadForm_of (row_view_row h) hc h rc hM

theorem quadForm_col {psi M : Tensor ℂ} {v : QState N} {O : QOp N} (h : IsCol psi v)
    (hM : Represents M O) : Circuit.quadForm psi M = .ok (braket O v).re := by
  obtain ⟨r, hr, rr⟩ := col_view_row h
  exact quadForm_of hr (col_view_col h) rr h hM

theorem braket_im {O : QOp N} (hO : Hermitian O) (v : QState N) : (braket O v).im = 0 := by
  rw [← Complex.conj_eq_iff_im]
  unfold braket
  rw [map_sum, Finset.sum_comm]
  refine sum_congr rfl fun a _ => ?_
  rw [map_sum]
  refine sum_congr rfl fun b _ => ?_
  rw [hO b a]
  simp only [map_mul, Complex.star_def, Complex.conj_conj]
  ring

theorem sqNorm_unitary {M : QOp N} (h : IsUnitaryOp M) (v : QState N) : sqNorm (M *ᵥ v) = sqNorm v := by
  have := unitary_norm h v
  simp only [Complex.normSq_eq_norm_sq] at this
  exact this

theorem Z_entry (x y : Fin 2) : Spec.Z x y = if x = y then (if x = 0 then 1 else -1) else 0 := by
  fin_cases x <;> fin_cases y <;> simp [Spec.Z]

theorem onQubit_Z (i : Fin N) (a b : Bits N) :
    onQubit i Spec.Z a b = if a = b then (if a i = 0 then 1 else -1) else 0 := by
  unfold onQubit
  by_cases h : a = b
  · subst h
    simp [Z_entry]
  · rw [if_neg h]
    split
    · next h' =>
      rw [Z_entry, if_neg]
      intro he
      apply h
      funext j
      by_cases hj : j = i
      · rw [hj, he]
      · exact h' j hj
    · rfl

theorem hermitian_Z (i : Fin N) : Hermitian (onQubit i Spec.Z) := by
  intro a b
  rw [onQubit_Z, onQubit_Z]
  by_cases h : a = b
  · subst h
    split <;> simp [apply_ite star]
  · rw [if_neg h, if_neg (fun h' => h h'.symm), star_zero]

theorem braket_Z (i : Fin N) (v : QState N) :
    braket (onQubit i Spec.Z) v = ((∑ a, (if a i = 0 then 1 else -1) * ‖v a‖ ^ 2 : ℝ) : ℂ) := by
  unfold braket
  rw [Complex.ofReal_sum]
  refine sum_congr rfl fun a _ => ?_
  rw [Finset.sum_eq_single a]
  · rw [onQubit_Z, if_pos rfl]
    rw [Complex.ofReal_mul, ← Complex.normSq_eq_norm_sq, Complex.normSq_eq_conj_mul_self]
    split <;> simp
  · intro b _ hb
    rw [onQubit_Z, if_neg (fun h => hb h.symm)]; simp
  · simp

theorem braket_Z_le (i : Fin N) (v : QState N) : ‖braket (onQubit i Spec.Z) v‖ ≤ sqNorm v := by
  rw [braket_Z, Complex.norm_real, Real.norm_eq_abs]
  refine (abs_sum_le_sum_abs _ _).trans (sum_le_sum fun a _ => ?_)
  rw [abs_mul, abs_of_nonneg (by positivity : 0 ≤ ‖v a‖ ^ 2)]
  split <;> simp

/-! ## `cir_expectation` -/

/-- The checks at the start of `cir_expectation` pass. -/
theorem cir_expectation_checks (svd : SVDOracle) (c : Circuit) {init M : Tensor ℂ}
    (hi : init.shape = [1, 2 ^ c.nqubits]) {k : ℕ} (hM : M.shape = [k, k]) (tn : Bool) :
    c.cir_expectation svd init M tn = (if c.TN_check = true ∧ tn = true then do
      let v ← (init.view [1, -1] : Py _)
      let mps ← StateVec2MPS svd v c.nqubits
      let mps ← c.TN_evolution svd mps
      let psi ← (MPS2StateVec mps : Py _)
      TNM.lift (Circuit.quadForm psi M)
    else do
      let u ← (c.U : Py _)
      let v ← (init.view [-1, 1] : Py _)
      let psi ← (u.matmul v : Py _)
      TNM.lift (Circuit.quadForm psi M)) := by
  unfold Circuit.cir_expectation
  rw [show pyGet init.shape 0 = .ok 1 by rw [hi]; rfl, TNM.lift_ok_bind, raiseIf_false (by simp),
    TNM.lift_ok_bind, show pyGet init.shape 1 = .ok (2 ^ c.nqubits) by rw [hi]; rfl, TNM.lift_ok_bind,
    raiseIf_false (by simp), TNM.lift_ok_bind, show pyGet M.shape 0 = .ok k by rw [hM]; rfl,
    TNM.lift_ok_bind, show pyGet M.shape 1 = .ok k by rw [hM]; rfl, TNM.lift_ok_bind,
    raiseIf_false (by simp), TNM.lift_ok_bind]

theorem cir_expectation_matrix (svd : SVDOracle) (c : Circuit) (hn : c.nqubits = N) {U : QOp N}
    (hU : Computes c.U U) {init M : Tensor ℂ} {v : QState N} (hi : IsRow init v) {O : QOp N}
    (hM : Represents M O) (tn : Bool) (htn : ¬ (c.TN_check = true ∧ tn = true)) (s : List (Tensor ℂ)) :
    c.cir_expectation svd init M tn s = (.ok (braket O (U *ᵥ v)).re, s) := by
  rw [cir_expectation_checks svd c (by rw [hi.1, hn]) hM.1, if_neg htn]
  obtain ⟨u, hu, ru⟩ := hU
  obtain ⟨w, hw, rw'⟩ := row_view_col hi
  obtain ⟨p, hp, rp⟩ := ru.mulCol rw'
  rw [hu, TNM.lift_ok_bind, hw, TNM.lift_ok_bind, hp, TNM.lift_ok_bind, quadForm_col rp hM]
  rfl

theorem cir_expectation_tn {svd : SVDOracle} (hv : ValidSVD svd) (hN : 0 < N) (c : Circuit)
    (hn : c.nqubits = N) (Ms : List (QOp N))
    (h : List.Forall₂ (fun (o : Op) M => o.supportTN = true ∧ Acts (o.TN_operation svd) M) c.gate Ms)
    {init M : Tensor ℂ} {v : QState N} (hi : IsRow init v) (h0 : v ≠ 0) {O : QOp N}
    (hM : Represents M O) (s : List (Tensor ℂ))
    (hl : ∀ A ∈ (c.cir_expectation svd init M true s).2, Lossless A) :
    ∃ s', c.cir_expectation svd init M true s = (.ok (braket O (timeOrdered Ms *ᵥ v)).re, s') := by
  have hc : c.TN_check = true := by
    unfold Circuit.TN_check
    generalize c.gate = g at h
    induction h with
    | nil => rfl
    | cons ho _ ih => simp only [List.all_cons, ho.1, Bool.true_and]; exact ih
  obtain ⟨hmono, hne, hev⟩ := circuit_acts (svd := svd) c hn Ms h
  rw [cir_expectation_checks svd c (by rw [hi.1, hn]) hM.1, if_pos ⟨hc, rfl⟩, row_view_row hi,
    TNM.lift_ok_bind, hn] at hl ⊢
  have m3 : ∀ mps, TNM.Mono (do
      let psi ← (MPS2StateVec mps : Py _)
      TNM.lift (Circuit.quadForm psi M)) := fun mps =>
    (TNM.Mono.lift _).bind fun _ => TNM.Mono.lift' _
  have m2 : ∀ mps, TNM.Mono (do
      let mps ← c.TN_evolution svd mps
      let psi ← (MPS2StateVec mps : Py _)
      TNM.lift (Circuit.quadForm psi M)) := fun mps => (hmono mps).bind m3
  obtain ⟨mps, s1, e1, hm1⟩ := sv2mps_exact hv hN hi h0 (s := s) (TNM.logged_left m2 hl)
  rw [TNM.bind_ok e1] at hl ⊢
  rcases hev mps v s1 hm1 (TNM.logged_left m3 hl) with ⟨mps', s2, e2, hm2⟩ | ⟨hz, -⟩
  · obtain ⟨sv, esv, rsv⟩ := mps2sv_rep hm2 hN
    refine ⟨s2, ?_⟩
    rw [TNM.bind_ok e2, esv, TNM.lift_ok_bind, quadForm_row rsv hM]
    rfl
  · exact absurd hz h0

end QTN
