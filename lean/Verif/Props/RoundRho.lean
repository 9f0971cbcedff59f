import Verif.Lemmas.RoundRho

/-! # C111: measured values of density matrices in rounded arithmetic -/

namespace QTN.Props

open QTN Spec Matrix Complex Finset Arith

variable {N : ℕ} {A : Arith}

theorem measureAny_list (R : TraceRoutines A) {state : Tensor ℂ} (hr : state.squeeze.rank = 2) (Z : Fin N → Tensor ℂ)
    (hZ : ∀ i, A.zObservable N (wire i) = .ok (Z i)) (ws : List (Fin N)) :
    (do (← (wires ws).mapM (A.zObservable N)).mapM (fun Mi =>
      if decide (state.squeeze.rank ≠ 1) = true then A.expvalRho R state.squeeze Mi else A.expval state.squeeze Mi)) =
      (ws.map Z).mapM (A.expvalRho R state.squeeze) := by
  have e1 : (wires ws).mapM (A.zObservable N) = .ok (ws.map Z) := by
    unfold wires
    induction ws with
    | nil => rfl
    | cons i ws ih => rw [List.map_cons, List.mapM_cons, hZ, Py.ok_bind, ih]; rfl
  rw [e1, Py.ok_bind, hr]
  simp

theorem measureAny_forms (R : TraceRoutines A) {state : Tensor ℂ} (hr : state.squeeze.rank = 2) (Z : Fin N → Tensor ℂ)
    (hZ : ∀ i, A.zObservable N (wire i) = .ok (Z i)) :
    A.measureAny R N state .none = ((List.finRange N).map Z).mapM (A.expvalRho R state.squeeze) ∧
    (∀ i : Fin N, (i : ℕ) ≠ 0 → A.measureAny R N state (.int (wire i)) = [Z i].mapM (A.expvalRho R state.squeeze)) ∧
    ∀ ws : List (Fin N), ws ≠ [] →
      A.measureAny R N state (.list (wires ws)) = (ws.map Z).mapM (A.expvalRho R state.squeeze) := by
  have hl := measureAny_list R hr Z hZ
  refine ⟨?_, fun i hi => ?_, fun ws hw => ?_⟩
  · have := hl (List.finRange N)
    rw [wires_finRange] at this
    exact this
  · have := hl [i]
    unfold Arith.measureAny Arith.Zmeasure
    rw [if_neg (by simp [MeasArg.falsy, wire, hi])]
    refine Eq.trans ?_ this
    simp only [wires, List.map_cons, List.map_nil, List.mapM_cons, List.mapM_nil]
    rcases A.zObservable N (wire i) with e | a <;> rfl
  · have := hl ws
    unfold Arith.measureAny Arith.Zmeasure
    rw [if_neg (by simp [MeasArg.falsy, wires, hw])]
    exact this

theorem squeeze_represents (hN : 0 < N) {state : Tensor ℂ} {ρ : QOp N} (h : Represents state ρ) :
    state.squeeze.rank = 2 ∧ Represents state.squeeze ρ := by
  have hd : 2 ^ N ≠ 1 := by
    have := Nat.one_lt_two_pow (n := N) (by omega)
    omega
  obtain ⟨h1, h2⟩ := squeeze_mat hd (rep_isMat h)
  exact ⟨h1, h2.1, fun a b => (h2.2 _ _ (enc_lt a) (enc_lt b)).trans (h.2 a b)⟩

/-- C111, values: if the trace is close enough to one, `measure` of a density matrix returns in all forms of the argument
the values of one list.  The only error is that of the sum over the diagonal. -/
theorem C111_measure (A : Arith) (R : TraceRoutines A) (hN : 0 < N) (state : Tensor ℂ) (ρ : QOp N)
    (h : Represents state ρ) (hr : ∀ a b, RepC A.fl (ρ a b))
    (ht : (1 + A.u) ^ 4 * (‖(∑ a, ρ a a) - 1‖ + ((1 + A.u) ^ (2 ^ N) - 1) * ∑ a, ‖ρ a a‖) ≤ (1 - A.u) * 1e-4) :
    ∃ f : Fin N → ℝ,
      A.measureAny R N state .none = .ok (List.ofFn f) ∧
      (∀ i : Fin N, (i : ℕ) ≠ 0 → A.measureAny R N state (.int (wire i)) = .ok [f i]) ∧
      (∀ ws : List (Fin N), ws ≠ [] → A.measureAny R N state (.list (wires ws)) = .ok (ws.map f)) ∧
      ∀ i, |f i - (prob (fun a => (ρ a a).re) i 0 - prob (fun a => (ρ a a).re) i 1)| ≤
        ((1 + A.u) ^ (2 ^ N) - 1) * ∑ a, ‖ρ a a‖ := by
  obtain ⟨h1, h2⟩ := squeeze_represents hN h
  have hz : ∀ i : Fin N, ∃ M x, A.zObservable N (wire i) = .ok M ∧ A.expvalRho R state.squeeze M = .ok x ∧
      |x - (prob (fun a => (ρ a a).re) i 0 - prob (fun a => (ρ a a).re) i 1)| ≤
        ((1 + A.u) ^ (2 ^ N) - 1) * ∑ a, ‖ρ a a‖ := fun i => by
    obtain ⟨M, h3, h4⟩ := zObservable_round (A := A) i
    obtain ⟨f, hf, e⟩ := expvalRho_form R h2 hr i h4
    rw [if_neg (gap_accept R h2 ht)] at e
    exact ⟨M, _, h3, e, sum_value R i hf⟩
  choose Z f hZ hf hb using hz
  have hl : ∀ ws : List (Fin N), (ws.map Z).mapM (A.expvalRho R state.squeeze) = .ok (ws.map f) := fun ws => by
    induction ws with
    | nil => rfl
    | cons i ws ih => rw [List.map_cons, List.mapM_cons, hf, Py.ok_bind, ih]; rfl
  obtain ⟨k1, k2, k3⟩ := measureAny_forms R h1 Z hZ
  refine ⟨f, ?_, fun i hi => ?_, fun ws hw => ?_, hb⟩
  · rw [k1, hl, List.ofFn_eq_map]
  · rw [k2 i hi]
    exact hl [i]
  · rw [k3 ws hw, hl]

/-- C111, check: if the trace is too far from one, `measure` raises a ValueError in all forms of the argument. -/
theorem C111_reject (A : Arith) (R : TraceRoutines A) (hN : 0 < N) (state : Tensor ℂ) (ρ : QOp N)
    (h : Represents state ρ) (hr : ∀ a b, RepC A.fl (ρ a b)) (hu : (1 + A.u) ^ 4 ≤ 2)
    (ht : (1 + A.u) * 1e-4 <
      (2 - (1 + A.u) ^ 4) * (‖(∑ a, ρ a a) - 1‖ - ((1 + A.u) ^ (2 ^ N) - 1) * ∑ a, ‖ρ a a‖)) :
    A.measureAny R N state .none = .error .valueError ∧
    (∀ i : Fin N, (i : ℕ) ≠ 0 → A.measureAny R N state (.int (wire i)) = .error .valueError) ∧
    ∀ ws : List (Fin N), ws ≠ [] → A.measureAny R N state (.list (wires ws)) = .error .valueError := by
  obtain ⟨h1, h2⟩ := squeeze_represents hN h
  have hz : ∀ i : Fin N, ∃ M, A.zObservable N (wire i) = .ok M ∧ A.expvalRho R state.squeeze M = .error .valueError :=
    fun i => by
      obtain ⟨M, h3, h4⟩ := zObservable_round (A := A) i
      obtain ⟨f, -, e⟩ := expvalRho_form R h2 hr i h4
      rw [if_pos (gap_reject R h2 hu ht)] at e
      exact ⟨M, h3, e⟩
  choose Z hZ hf using hz
  have hl : ∀ ws : List (Fin N), ws ≠ [] → (ws.map Z).mapM (A.expvalRho R state.squeeze) = .error .valueError :=
    fun ws hw => by
      obtain ⟨i, ws, rfl⟩ := List.exists_cons_of_ne_nil hw
      rw [List.map_cons, List.mapM_cons, hf, Py.error_bind]
  obtain ⟨k1, k2, k3⟩ := measureAny_forms R h1 Z hZ
  refine ⟨?_, fun i hi => ?_, fun ws hw => ?_⟩
  · rw [k1]
    exact hl _ fun e => by
      have := congrArg List.length e
      simp at this
      omega
  · rw [k2 i hi]
    exact hl [i] (by simp)
  · rw [k3 ws hw, hl ws hw]

/-- C111, state vectors: there the model of `measure` used here is the one of C104. -/
theorem C111_vector (A : Arith) (R : TraceRoutines A) (n : ℤ) (state : Tensor ℂ) (h : state.squeeze.rank = 1)
    (ith : MeasArg) : A.measureAny R n state ith = A.measure n state ith := by
  unfold Arith.measureAny Arith.measure
  simp [h]

/-! ## Single precision -/

theorem pow_1024 {u : ℝ} (hu0 : 0 ≤ u) (hu : u ≤ 2⁻¹ ^ 24) (hN : N ≤ 10) :
    0 ≤ (1 + u) ^ (2 ^ N) - 1 ∧ (1 + u) ^ (2 ^ N) - 1 ≤ 6.11e-5 := by
  have h0 : (1 : ℝ) ≤ 1 + u := by linarith
  have h6 : (1 + u) ^ (2 ^ 10) ≤ 1 + 6.11e-5 := by
    have h7 : (1 + u : ℝ) ≤ Real.exp (2⁻¹ ^ 24) := by
      have := Real.add_one_le_exp ((2⁻¹ : ℝ) ^ 24)
      linarith
    have h8 : (1 + u) ^ (2 ^ 10) ≤ Real.exp (2⁻¹ ^ 14) := by
      refine (pow_le_pow_left₀ (by linarith) h7 _).trans (le_of_eq ?_)
      rw [← Real.exp_nat_mul]; norm_num
    have h9 := Real.exp_bound' (x := 2⁻¹ ^ 14) (by norm_num) (by norm_num) (n := 2) (by norm_num)
    refine h8.trans (h9.trans ?_)
    norm_num [Finset.sum_range_succ, Nat.factorial]
  have h7 := pow_le_pow_right₀ h0 (Nat.pow_le_pow_right (n := 2) (by norm_num) hN)
  have h8 : 1 ≤ (1 + u) ^ (2 ^ N) := one_le_pow₀ h0
  exact ⟨sub_nonneg.2 h8, sub_le_iff_le_add'.2 (h7.trans h6)⟩

theorem pow_four {u : ℝ} (hu0 : 0 ≤ u) (hu : u ≤ 2⁻¹ ^ 24) : 1 ≤ (1 + u) ^ 4 ∧ (1 + u) ^ 4 ≤ 1 + 3e-7 := by
  have h0 : (1 : ℝ) ≤ 1 + u := by linarith
  refine ⟨one_le_pow₀ h0, (pow_le_pow_left₀ (by linarith) (by linarith : 1 + u ≤ 1 + 2⁻¹ ^ 24) 4).trans ?_⟩
  norm_num

/-- The diagonal of a matrix with real diagonal entries that are not negative. -/
theorem diag_sums {ρ : QOp N} (hp : ∀ a, 0 ≤ (ρ a a).re ∧ (ρ a a).im = 0) {t : ℝ} (ht : ∑ a, (ρ a a).re = t) :
    ∑ a, ‖ρ a a‖ = t ∧ ‖(∑ a, ρ a a) - 1‖ = |t - 1| := by
  have e : ∀ a, ρ a a = ((ρ a a).re : ℂ) := fun a => Complex.ext rfl (by simp [(hp a).2])
  constructor
  · rw [← ht]
    refine Finset.sum_congr rfl fun a _ => ?_
    rw [e a, Complex.norm_real, Complex.ofReal_re, Real.norm_of_nonneg (hp a).1]
  · have : (∑ a, ρ a a) - 1 = ((t - 1 : ℝ) : ℂ) := by
      rw [← ht]
      push_cast
      exact congrArg (· - 1) (Finset.sum_congr rfl fun a _ => e a)
    rw [this, Complex.norm_real, Real.norm_eq_abs]

/-- C111, single precision, up to 10 qubits, diagonal entries real and not negative: a trace within `3e-5` of one is
accepted and every value is within `6.2e-5` of `P(0) - P(1)`; a trace that is off by more than `1.7e-4` is rejected. -/
theorem C111_float32 (A : Arith) (R : TraceRoutines A) (hu : A.u ≤ 2⁻¹ ^ 24) (hN : 0 < N) (hN' : N ≤ 10)
    (state : Tensor ℂ) (ρ : QOp N) (h : Represents state ρ) (hr : ∀ a b, RepC A.fl (ρ a b))
    (hp : ∀ a, 0 ≤ (ρ a a).re ∧ (ρ a a).im = 0) (t : ℝ) (ht : ∑ a, (ρ a a).re = t) :
    (|t - 1| ≤ 3e-5 → ∃ f : Fin N → ℝ, A.measureAny R N state .none = .ok (List.ofFn f) ∧
      ∀ i, |f i - (prob (fun a => (ρ a a).re) i 0 - prob (fun a => (ρ a a).re) i 1)| ≤ 6.2e-5) ∧
    (1.7e-4 < |t - 1| → A.measureAny R N state .none = .error .valueError) := by
  obtain ⟨e1, e2⟩ := diag_sums hp ht
  obtain ⟨g0, g1⟩ := pow_1024 A.u_nonneg hu hN'
  obtain ⟨q0, q1⟩ := pow_four A.u_nonneg hu
  have ht0 : 0 ≤ t := by rw [← ht]; exact Finset.sum_nonneg fun a _ => (hp a).1
  have h0 := A.u_nonneg
  have hu' : A.u ≤ 6e-8 := hu.trans (by norm_num)
  have hγ : ((1 + A.u) ^ (2 ^ N) - 1) * t ≤ 6.11e-5 * t := mul_le_mul_of_nonneg_right g1 ht0
  constructor
  · intro h1
    have ht1 : t ≤ 1.00003 := by linarith [(abs_le.1 h1).2]
    obtain ⟨f, k1, -, -, k2⟩ := C111_measure A R hN state ρ h hr (by
      rw [e1, e2]
      have h2 : |t - 1| + ((1 + A.u) ^ (2 ^ N) - 1) * t ≤ 9.2e-5 := by linarith
      have h3 : (1 + A.u) ^ 4 * (|t - 1| + ((1 + A.u) ^ (2 ^ N) - 1) * t) ≤ (1 + 3e-7) * 9.2e-5 :=
        mul_le_mul q1 h2 (by positivity) (by norm_num)
      linarith)
    refine ⟨f, k1, fun i => (k2 i).trans ?_⟩
    rw [e1]
    linarith
  · intro h1
    refine (C111_reject A R hN state ρ h hr (by linarith) ?_).1
    rw [e1, e2]
    have h2 : t ≤ 1 + |t - 1| := by linarith [le_abs_self (t - 1)]
    have h3 : 1.0885e-4 ≤ |t - 1| - ((1 + A.u) ^ (2 ^ N) - 1) * t := by linarith
    have h4 : (1 - 3e-7) * 1.0885e-4 ≤ (2 - (1 + A.u) ^ 4) * (|t - 1| - ((1 + A.u) ^ (2 ^ N) - 1) * t) :=
      mul_le_mul (by linarith) h3 (by norm_num) (by linarith)
    linarith

/-- The completely mixed state of one qubit, whose entries need no rounding, meets the hypotheses, for any arithmetic and
for sums computed one term after the other. -/
example (A : Arith) (hu : A.u ≤ 2⁻¹ ^ 24) : ∃ f : Fin 1 → ℝ,
    A.measureAny A.seqTrace 1 (Tensor.ofRows [[1 / 2, 0], [0, 1 / 2]]) .none = .ok (List.ofFn f) ∧ |f 0| ≤ 6.2e-5 := by
  have hb : ∀ a : Bits 1, a = ![0] ∨ a = ![1] := by decide
  have hrep : Represents (N := 1) (Tensor.ofRows [[1 / 2, 0], [0, 1 / 2]]) (Matrix.of fun a b => if a = b then 1 / 2 else 0) :=
    ⟨rfl, fun a b => by
      rcases hb a with rfl | rfl <;> rcases hb b with rfl | rfl <;> simp [enc, Tensor.ofRows, Tensor.ofFn]⟩
  have hhalf : RepC A.fl (1 / 2 : ℂ) := by
    have h := A.fl_half 1 A.fl_one
    constructor
    · norm_num at h ⊢; exact h
    · have := fl_zero A; norm_num; exact this
  have hentry : ∀ a b : Bits 1, RepC A.fl ((Matrix.of fun a b : Bits 1 => if a = b then (1 / 2 : ℂ) else 0) a b) := fun a b => by
    rw [Matrix.of_apply]
    split
    · exact hhalf
    · exact rep_zero
  have hsum : ∀ F : Bits 1 → ℝ, ∑ a, F a = F ![0] + F ![1] := fun F => by
    rw [← (Equiv.funUnique (Fin 1) (Fin 2)).symm.sum_comp, Fin.sum_univ_two]
    congr 1 <;> congr 1 <;> decide
  obtain ⟨f, h1, h2⟩ := (C111_float32 A A.seqTrace hu (N := 1) (by norm_num) (by norm_num) _ _ hrep hentry
    (fun a => by simp) 1 (by rw [hsum]; norm_num)).1 (by norm_num)
  refine ⟨f, h1, ?_⟩
  have h3 := h2 0
  rw [← prob_diff, hsum] at h3
  simpa using h3

/-- The identity matrix of one qubit has trace 2 and is rejected. -/
example (A : Arith) (hu : A.u ≤ 2⁻¹ ^ 24) :
    A.measureAny A.seqTrace 1 (Tensor.ofRows [[1, 0], [0, 1]]) .none = .error .valueError := by
  have hb : ∀ a : Bits 1, a = ![0] ∨ a = ![1] := by decide
  have hrep : Represents (N := 1) (Tensor.ofRows [[1, 0], [0, 1]]) 1 :=
    ⟨rfl, fun a b => by
      rcases hb a with rfl | rfl <;> rcases hb b with rfl | rfl <;> simp [enc, Tensor.ofRows, Tensor.ofFn]⟩
  refine (C111_float32 A A.seqTrace hu (N := 1) (by norm_num) (by norm_num) _ _ hrep (fun a b => ?_)
    (fun a => by simp) 2 (by simp)).2 (by norm_num)
  rw [Matrix.one_apply]
  split
  · exact rep_one
  · exact rep_zero

end QTN.Props
