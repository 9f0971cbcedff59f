import Verif.Lemmas.RoundGrad

/-! # Expectation values in rounded arithmetic -/

namespace QTN

open Spec Matrix Complex Finset Props

namespace Arith

variable {N : ℕ} {A : Arith}

theorem good_unflagged {it : Item N} {o : Op} (h : Good A it o) (hu : Unflagged it) : o.supportTN = false := by
  rcases h with ⟨it', rfl, hw, h⟩ | ⟨θ, i, rfl, rfl⟩
  · cases it' with
    | gate ins =>
      obtain ⟨g, hg, h⟩ := py_bind_ok h
      cases h
      cases ins with
      | mcnot cs t =>
        obtain ⟨m, hm, h⟩ := py_bind_ok hg
        obtain ⟨m', hm', h⟩ := py_bind_ok h
        cases h; rfl
      | _ => exact hu.elim
    | ring2 ws =>
      obtain ⟨g, hg, h⟩ := py_bind_ok h
      obtain ⟨_, _, hg⟩ := py_bind_ok hg
      obtain ⟨_, _, hg⟩ := py_bind_ok hg
      cases h; cases hg; rfl
    | basic ws p r =>
      obtain ⟨g, hg, h⟩ := py_bind_ok h
      cases h; rfl
    | _ => exact hu.elim
  · exact hu.elim

/-- The sum of the absolute values of all terms of a quadratic form. -/
theorem abs_form {O : QOp N} {B : ℝ} (hB0 : 0 ≤ B) (hB : ∀ w : QState N, norm2 (O *ᵥ w) ≤ B * norm2 w) (w : QState N) :
    ∑ b, (∑ a, ‖w a‖ * ‖O a b‖) * ‖w b‖ ≤ B * Real.sqrt (2 ^ N) * norm2 w ^ 2 := by
  have hcol : ∀ b, norm2 (column (absOp O) b) ≤ B := fun b => by
    have h1 := hB (Pi.single b 1)
    have h2 : norm2 (Pi.single b 1 : QState N) = 1 := by
      have := norm2_col (isUnitaryOp_one (N := N)) b
      rw [← this]
      congr 1
      ext a
      simp [Matrix.one_apply, Pi.single_apply]
    rw [h2, mul_one, Matrix.mulVec_single_one] at h1
    refine le_trans (le_of_eq ?_) h1
    unfold norm2 column absOp
    simp [Matrix.col]
  have hb := bnd_cols hB0 hcol (fun a => ((‖w a‖ : ℝ) : ℂ))
  have hn : norm2 (fun a => ((‖w a‖ : ℝ) : ℂ)) = norm2 w := by
    unfold norm2; simp
  rw [hn] at hb
  have e : ∀ a, ‖(absOp O *ᵥ fun a => ((‖w a‖ : ℝ) : ℂ)) a‖ = ∑ b, ‖O a b‖ * ‖w b‖ := fun a => by
    have : (absOp O *ᵥ fun a => ((‖w a‖ : ℝ) : ℂ)) a = ((∑ b, ‖O a b‖ * ‖w b‖ : ℝ) : ℂ) := by
      simp [absOp, mulVec, dotProduct]
    rw [this, Complex.norm_real, Real.norm_of_nonneg (Finset.sum_nonneg fun _ _ => by positivity)]
  calc ∑ b, (∑ a, ‖w a‖ * ‖O a b‖) * ‖w b‖
      = ∑ a, ‖w a‖ * ∑ b, ‖O a b‖ * ‖w b‖ := by
        simp only [Finset.sum_mul, Finset.mul_sum]
        rw [Finset.sum_comm]
        exact sum_congr rfl fun a _ => sum_congr rfl fun b _ => by ring
    _ = ∑ a, ‖w a‖ * ‖(absOp O *ᵥ fun a => ((‖w a‖ : ℝ) : ℂ)) a‖ := by simp only [e]
    _ ≤ norm2 w * norm2 (absOp O *ᵥ fun a => ((‖w a‖ : ℝ) : ℂ)) := Real.sum_mul_le_sqrt_mul_sqrt _ _ _
    _ ≤ norm2 w * (Real.sqrt (2 ^ N) * B * norm2 w) := mul_le_mul_of_nonneg_left hb (norm2_nonneg w)
    _ = _ := by ring

theorem quadForm_round {psi M : Tensor ℂ} {w : QState N} {O : QOp N} (h : IsCol psi w) (hM : Represents M O) {B : ℝ}
    (hB0 : 0 ≤ B) (hB : ∀ w : QState N, norm2 (O *ᵥ w) ≤ B * norm2 w) :
    ∃ x, A.quadForm psi M = .ok x ∧ |x - (braket O w).re| ≤
      sumErr A.u (2 ^ N) * (2 + sumErr A.u (2 ^ N)) * (B * Real.sqrt (2 ^ N) * norm2 w ^ 2) := by
  obtain ⟨r, hr, rr⟩ := col_view_row h
  have hc := col_view_col h
  have rc := row_conj rr
  set γ := sumErr A.u (2 ^ N) with hγ
  have hγ0 : 0 ≤ γ := sumErr_nonneg A.u_nonneg _
  set y : ℕ → ℂ := fun b => A.dot (2 ^ N) (fun x => r.conj.get [0, x]) (fun x => M.get [x, b]) with hy
  have hl := matmul_shape (A := A) rc.1 hM.1
  set L : Tensor ℂ := Tensor.ofFn [1, 2 ^ N] (fun idx =>
      A.dot (2 ^ N) (fun x => r.conj.get [idx.getD 0 0, x]) (fun x => M.get [x, idx.getD 1 0])) with hL
  have gL : ∀ b, b < 2 ^ N → L.get [0, b] = y b := fun b hb => by
    rw [hL, Tensor.get_ofFn (by simp [hb])]
    simp [hy]
  have hx := matmul_shape (A := A) (s := L) (t := psi) (m := 1) (n := 2 ^ N) (p := 1) rfl h.1
  refine ⟨(A.dot (2 ^ N) (fun x => L.get [0, x]) (fun x => psi.get [x, 0])).re, ?_, ?_⟩
  · unfold quadForm
    rw [hr, Py.ok_bind, hl, Py.ok_bind, hc, Py.ok_bind, hx, Py.ok_bind, squeeze11 rfl, Tensor.get_ofFn (by simp)]
    simp
  have card : ∀ f : ℕ → ℂ, ((range (2 ^ N)).filter (fun k => f k ≠ 0)).card ≤ 2 ^ N := fun f =>
    (card_filter_le _ _).trans (by simp)
  have e1 : ∀ b : Bits N, ‖y (enc b) - ∑ a, star (w a) * O a b‖ ≤ γ * ∑ a, ‖w a‖ * ‖O a b‖ := fun b => by
    have := A.dot_err' (2 ^ N) (fun x => r.conj.get [0, x]) (fun x => M.get [x, enc b]) _ (card _)
    rw [sum_enc, sum_enc] at this
    simp only [rc.2, hM.2, Pi.star_apply, norm_star] at this
    exact this
  have e2 := A.dot_err' (2 ^ N) (fun x => L.get [0, x]) (fun x => psi.get [x, 0]) _ (card _)
  rw [sum_enc, sum_enc] at e2
  have gL' : ∀ b : Bits N, L.get [0, enc b] = y (enc b) := fun b => gL _ (enc_lt b)
  simp only [gL', h.2] at e2
  set S : ℝ := ∑ b, (∑ a, ‖w a‖ * ‖O a b‖) * ‖w b‖ with hS
  have e3 : ‖(∑ b : Bits N, y (enc b) * w b) - braket O w‖ ≤ γ * S := by
    have : braket O w = ∑ b : Bits N, (∑ a, star (w a) * O a b) * w b := by
      rw [braket_eq]
      rfl
    rw [this, ← Finset.sum_sub_distrib, hS, Finset.mul_sum]
    refine (norm_sum_le _ _).trans (Finset.sum_le_sum fun b _ => ?_)
    rw [← sub_mul, norm_mul, ← mul_assoc]
    exact mul_le_mul_of_nonneg_right (e1 b) (norm_nonneg _)
  have e4 : ∑ b : Bits N, ‖y (enc b)‖ * ‖w b‖ ≤ (1 + γ) * S := by
    rw [hS, Finset.mul_sum]
    refine Finset.sum_le_sum fun b _ => ?_
    rw [← mul_assoc]
    refine mul_le_mul_of_nonneg_right ?_ (norm_nonneg _)
    have k1 : ‖∑ a, star (w a) * O a b‖ ≤ ∑ a, ‖w a‖ * ‖O a b‖ := by
      refine (norm_sum_le _ _).trans (Finset.sum_le_sum fun a _ => ?_)
      rw [norm_mul, norm_star]
    have k2 := norm_sub_norm_le (y (enc b)) (∑ a, star (w a) * O a b)
    linarith [e1 b]
  have hSB := abs_form hB0 hB w
  have h5 : |(A.dot (2 ^ N) (fun x => L.get [0, x]) (fun x => psi.get [x, 0])).re - (braket O w).re| ≤
      γ * ((1 + γ) * S) + γ * S := by
    rw [← Complex.sub_re]
    refine (Complex.abs_re_le_norm _).trans ?_
    have := norm_sub_le_norm_sub_add_norm_sub (A.dot (2 ^ N) (fun x => L.get [0, x]) (fun x => psi.get [x, 0]))
      (∑ b : Bits N, y (enc b) * w b) (braket O w)
    have := mul_le_mul_of_nonneg_left e4 hγ0
    linarith
  calc _ ≤ _ := h5
    _ = γ * (2 + γ) * S := by ring
    _ ≤ _ := mul_le_mul_of_nonneg_left hSB (by positivity)

theorem prodErr_nonneg {u d : ℝ} (hu : 0 ≤ u) (hd : 0 ≤ d) (N : ℕ) : 0 ≤ prodErr u N d := by
  have := sumErr_nonneg hu (2 ^ N)
  unfold prodErr
  positivity

/-- The expectation value of a circuit that is evaluated by its matrix. -/
theorem expec_round {l : List (Item N)} {c : Circuit} (hn : c.nqubits = N) (hg : List.Forall₂ (Good A) l c.gate)
    (hw : ∀ it ∈ l, it.WF) (hu : ∃ it ∈ l, Unflagged it) {init M : Tensor ℂ} {v : QState N} (hi : IsRow init v)
    (hv : norm2 v = 1) {O : QOp N} (hM : Represents M O) {B : ℝ} (hB0 : 0 ≤ B)
    (hB : ∀ w : QState N, norm2 (O *ᵥ w) ≤ B * norm2 w) (tn : Circuit → Tensor ℂ → Tensor ℂ → Py ℝ) :
    ∃ e, A.cirExpectation tn c init M = .ok e ∧
      |e - energy O v l| ≤ expErr A.u N B (prodErr A.u N (itemBound A.u A.δ l)) := by
  have hck : c.TN_check = false := by
    obtain ⟨it, hit, hun⟩ := hu
    obtain ⟨o, ho, hb⟩ := forall₂_mem hg hit
    unfold Circuit.TN_check
    rw [List.all_eq_false]
    exact ⟨o, ho, by simp [good_unflagged hb hun]⟩
  obtain ⟨U, W, k1, k2, k3, k4⟩ := fold_eye (A := A) (N := N) (l.zip c.gate) (fun z => A.opU z.2) (fun z => z.1.op)
    (fun z => z.1.cost A.u A.δ) (fun z hz => by
      have hm := List.of_mem_zip (a := z.1) (b := z.2) hz
      exact ⟨(item_unitary z.1 (hw _ hm.1)), good_comp ((List.forall₂_iff_zip.1 hg).2 hz)⟩)
  have hlen := hg.length_eq
  have m1 : (l.zip c.gate).map (fun z => z.1.op) = l.map Item.op := by
    conv_rhs => rw [← List.map_fst_zip (l₁ := l) (l₂ := c.gate) hlen.le, List.map_map]
    rfl
  have m2 : (l.zip c.gate).map (fun z => 1 + z.1.cost A.u A.δ) = l.map (fun it => 1 + it.cost A.u A.δ) := by
    conv_rhs => rw [← List.map_fst_zip (l₁ := l) (l₂ := c.gate) hlen.le, List.map_map]
    rfl
  have m3 : A.itemsU N c.gate = .ok U := by
    rw [← k1]
    unfold itemsU
    conv_lhs => rw [← List.map_snd_zip (l₁ := l) (l₂ := c.gate) hlen.ge, List.foldlM_map]
  rw [m1, m2] at k4
  set d := itemBound A.u A.δ l with hd
  have hd0 : 0 ≤ d := (norm2_nonneg _).trans (k4 0)
  have hV := circuitOp_unitary l hw
  obtain ⟨cv, hcv, rcv⟩ := row_view_col hi
  obtain ⟨sv, w, j1, j2, j3, j4⟩ := matmul_col_err (A := A) k2 rcv hV (d := d) k4
  rw [hv, mul_one] at j4
  obtain ⟨x, q1, q2⟩ := quadForm_round (A := A) j2 hM hB0 hB
  refine ⟨x, ?_, ?_⟩
  · unfold cirExpectation
    have g : ∀ a b : ℕ, pyGet [a, b] 0 = .ok a ∧ pyGet [a, b] 1 = .ok b := fun a b => ⟨rfl, rfl⟩
    rw [hi.1, hM.1, hn, (g _ _).1, (g _ _).2, (g _ _).1, (g _ _).2]
    simp [hck, m3, hcv, j1, q1]
  · set D := prodErr A.u N d with hD
    have hD0 : 0 ≤ D := prodErr_nonneg A.u_nonneg hd0 N
    change dist2 w _ ≤ D at j4
    have hz : norm2 (circuitOp l *ᵥ v) = 1 := by rw [norm2_unitary hV, hv]
    have hwn : norm2 w ≤ 1 + D := by
      have := norm2_add_le (w - circuitOp l *ᵥ v) (circuitOp l *ᵥ v)
      rw [sub_add_cancel, hz] at this
      rw [dist2_eq] at j4
      linarith
    have hbr : |(braket O w).re - energy O v l| ≤ B * (D * (2 + D)) := by
      unfold energy
      rw [← Complex.sub_re]
      refine (Complex.abs_re_le_norm _).trans ((braket_diff hB w (circuitOp l *ᵥ v)).trans ?_)
      rw [hz]
      calc B * (norm2 w + 1) * dist2 w (circuitOp l *ᵥ v) ≤ B * (1 + D + 1) * D := by
            refine mul_le_mul (mul_le_mul_of_nonneg_left (by linarith) hB0) j4 (Real.sqrt_nonneg _) (by positivity)
        _ = _ := by ring
    have hγ0 := sumErr_nonneg A.u_nonneg (2 ^ N)
    have hsq : norm2 w ^ 2 ≤ (1 + D) ^ 2 := pow_le_pow_left₀ (norm2_nonneg w) hwn 2
    have hq : sumErr A.u (2 ^ N) * (2 + sumErr A.u (2 ^ N)) * (B * Real.sqrt (2 ^ N) * norm2 w ^ 2) ≤
        sumErr A.u (2 ^ N) * (2 + sumErr A.u (2 ^ N)) * (B * Real.sqrt (2 ^ N) * (1 + D) ^ 2) :=
      mul_le_mul_of_nonneg_left (mul_le_mul_of_nonneg_left hsq (by positivity)) (by positivity)
    have := abs_sub_le x (braket O w).re (energy O v l)
    calc |x - energy O v l| ≤ _ := this
      _ ≤ sumErr A.u (2 ^ N) * (2 + sumErr A.u (2 ^ N)) * (B * Real.sqrt (2 ^ N) * (1 + D) ^ 2) + B * (D * (2 + D)) :=
        add_le_add (q2.trans hq) hbr
      _ = expErr A.u N B D := by unfold expErr; ring

end Arith

end QTN
