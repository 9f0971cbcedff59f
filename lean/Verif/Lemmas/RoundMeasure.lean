import Verif.Lemmas.RoundAngles
import Verif.Lemmas.MeasureL
import Verif.Model.RoundMeasure

/-! # Rounding errors of `measure` and of the product with a state -/

namespace QTN

open Spec Matrix Complex Finset

variable {N : ℕ}

/-- A matrix with short columns is a small operator. -/
theorem bnd_cols {M : QOp N} {c : ℝ} (hc : 0 ≤ c) (h : ∀ b, norm2 (column M b) ≤ c) :
    Bnd (Real.sqrt (2 ^ N) * c) M := fun v => by
  refine le_of_sq_le_sq ?_ (mul_nonneg (mul_nonneg (Real.sqrt_nonneg _) hc) (norm2_nonneg _))
  rw [mul_pow, mul_pow, Real.sq_sqrt (by positivity), norm2_sq]
  have h1 : ∀ a, ‖(M *ᵥ v) a‖ ^ 2 ≤ (∑ b, ‖M a b‖ ^ 2) * norm2 v ^ 2 := fun a => by
    have h2 : ‖(M *ᵥ v) a‖ ≤ ∑ b, ‖M a b‖ * ‖v b‖ := by
      refine (norm_sum_le _ _).trans (le_of_eq ?_)
      exact sum_congr rfl fun b _ => norm_mul _ _
    refine (pow_le_pow_left₀ (norm_nonneg _) h2 2).trans ?_
    rw [norm2_sq]
    exact Finset.sum_mul_sq_le_sq_mul_sq _ _ _
  refine (Finset.sum_le_sum fun a _ => h1 a).trans ?_
  rw [← Finset.sum_mul, Finset.sum_comm]
  refine mul_le_mul_of_nonneg_right ?_ (by positivity)
  have h3 : ∀ b, ∑ a, ‖M a b‖ ^ 2 ≤ c ^ 2 := fun b => by
    have := pow_le_pow_left₀ (norm2_nonneg _) (h b) 2
    rwa [norm2_sq] at this
  refine (Finset.sum_le_sum fun b _ => h3 b).trans ?_
  simp [Bits]

namespace Arith

variable {A : Arith}

theorem matmul_shape {s t : Tensor ℂ} {m n p : ℕ} (hs : s.shape = [m, n]) (ht : t.shape = [n, p]) :
    A.matmul s t = .ok (Tensor.ofFn [m, p] (fun idx =>
      A.dot n (fun x => s.get [idx.getD 0 0, x]) (fun x => t.get [x, idx.getD 1 0]))) := by
  unfold matmul
  rw [hs, ht]
  simp

theorem rep_star {z : ℂ} (h : RepC A.fl z) : RepC A.fl (star z) :=
  ⟨h.1, by show A.fl (-z.im) = -z.im; rw [A.fl_neg, h.2]⟩

theorem zObservable_round (i : Fin N) :
    ∃ M, A.zObservable N (wire i) = .ok M ∧ Represents M (onQubit i Spec.Z) :=
  single_rep (A := A) i (g := mkPauliZ N (.int (wire i))) rfl rfl pauliZMat_rep signM_Z.rep

/-- `expval` of Z: the products with the observable are exact, what remains is one sum of products. -/
theorem expval_form {state M : Tensor ℂ} {psi : ℕ → ℂ} (h : IsVec state (2 ^ N) psi)
    (hr : ∀ a : Bits N, RepC A.fl (psi (enc a))) (i : Fin N) (hM : Represents M (onQubit i Spec.Z)) :
    ∃ f g : ℕ → ℂ, A.expval state M = .ok (A.dot (2 ^ N) f g).re ∧
      (∀ b : Bits N, f (enc b) = star (psi (enc b)) * (if b i = 0 then 1 else -1)) ∧
      ∀ b : Bits N, g (enc b) = psi (enc b) := by
  obtain ⟨c, hv, hc, gc⟩ := isVec_col h
  obtain ⟨y, hy, sy, gy⟩ := dag_ok hc
  unfold expval
  rw [hv, Py.ok_bind, hy, Py.ok_bind, matmul_shape sy hM.1, Py.ok_bind, matmul_shape rfl hc, Py.ok_bind]
  refine ⟨fun x => (Tensor.ofFn [1, 2 ^ N] (fun idx => A.dot (2 ^ N) (fun x => y.get [idx.getD 0 0, x])
    (fun x => M.get [x, idx.getD 1 0]))).get [0, x], fun x => c.get [x, 0], ?_, fun b => ?_, fun b => gc _ (enc_lt b)⟩
  · unfold Tensor.diagVec
    rw [Tensor.get_ofFn (by simp), Tensor.get_ofFn (by simp)]
    simp only [List.getD_cons_zero, List.getD_cons_succ]
  · beta_reduce
    rw [Tensor.get_ofFn (by simp [enc_lt b])]
    simp only [List.getD_cons_zero, List.getD_cons_succ]
    have hz : M.get [enc b, enc b] = if b i = 0 then 1 else -1 := by rw [hM.2, onQubit_Z, if_pos rfl]
    have hy1 : y.get [0, enc b] = star (psi (enc b)) := by rw [gy 0 _ (by omega) (enc_lt b), gc _ (enc_lt b)]
    have := A.dot_exact (2 ^ N) (fun x => y.get [0, x]) (fun x => M.get [x, enc b]) (enc b) (enc_lt b)
      (fun j hj hne => by
        obtain ⟨d, rfl⟩ := exists_enc hj
        right
        rw [hM.2, onQubit_Z, if_neg]
        rintro rfl; exact hne rfl)
      (Or.inr ⟨by rw [hy1]; exact rep_star (hr b), by rw [hM.2]; exact signM_onQubit i signM_Z _ _⟩)
    rw [this, hz, hy1]

theorem star_mul_self_sign (z : ℂ) (s : Prop) [Decidable s] :
    star z * (if s then 1 else -1) * z = (((if s then 1 else -1) * ‖z‖ ^ 2 : ℝ) : ℂ) := by
  have h5 : star z * z = ((‖z‖ ^ 2 : ℝ) : ℂ) := by
    rw [Complex.star_def, mul_comm, Complex.mul_conj, Complex.normSq_eq_norm_sq]
  rw [mul_right_comm, h5]
  by_cases h0 : s <;> simp [h0]

/-- The error of the sum. -/
theorem expval_round {state M : Tensor ℂ} {psi : ℕ → ℂ} (h : IsVec state (2 ^ N) psi)
    (hr : ∀ a : Bits N, RepC A.fl (psi (enc a))) (i : Fin N) (hM : Represents M (onQubit i Spec.Z)) :
    ∃ x, A.expval state M = .ok x ∧
      |x - ∑ a : Bits N, (if a i = 0 then 1 else -1) * ‖psi (enc a)‖ ^ 2| ≤
        sumErr A.u (2 ^ N) * ∑ a : Bits N, ‖psi (enc a)‖ ^ 2 := by
  obtain ⟨f, g, h0, h1, hg⟩ := expval_form h hr i hM
  refine ⟨_, h0, ?_⟩
  have h2 := dot_err' (A := A) (2 ^ N) f g (2 ^ N) ((Finset.card_filter_le _ _).trans (by simp))
  rw [sum_enc, sum_enc] at h2
  have e1 : ∑ a : Bits N, f (enc a) * g (enc a) =
      ((∑ a : Bits N, (if a i = 0 then 1 else -1) * ‖psi (enc a)‖ ^ 2 : ℝ) : ℂ) := by
    rw [Complex.ofReal_sum]
    refine sum_congr rfl fun a _ => ?_
    rw [h1, hg, star_mul_self_sign]
  have e2 : ∑ a : Bits N, ‖f (enc a)‖ * ‖g (enc a)‖ = ∑ a : Bits N, ‖psi (enc a)‖ ^ 2 := by
    refine sum_congr rfl fun a _ => ?_
    rw [h1, hg, norm_mul, norm_star, sq]
    by_cases h0 : a i = 0 <;> simp [h0]
  rw [e1, e2] at h2
  refine le_trans ?_ h2
  refine le_trans (le_of_eq ?_) (Complex.abs_re_le_norm _)
  rw [Complex.sub_re, Complex.ofReal_re]

theorem IsSign.star {z : ℂ} (h : IsSign z) : IsSign (star z) := by
  rcases h with rfl | rfl | rfl | rfl | rfl
  · rw [star_zero]; exact .zero
  · rw [star_one]; exact .one
  · rw [star_neg, star_one]; exact .negOne
  · rw [Complex.star_def, Complex.conj_I]; exact .negI
  · rw [star_neg, Complex.star_def, Complex.conj_I, neg_neg]; exact .I

/-- A basis state up to a factor 1, -1, i, -i is measured without error. -/
theorem expval_exact {state M : Tensor ℂ} {psi : ℕ → ℂ} (h : IsVec state (2 ^ N) psi) (c : Bits N)
    (hc : ∀ a : Bits N, a ≠ c → psi (enc a) = 0) (hs : IsSign (psi (enc c))) (i : Fin N)
    (hM : Represents M (onQubit i Spec.Z)) :
    A.expval state M = .ok (∑ a : Bits N, (if a i = 0 then 1 else -1) * ‖psi (enc a)‖ ^ 2) := by
  have hr : ∀ a : Bits N, RepC A.fl (psi (enc a)) := fun a => by
    by_cases ha : a = c
    · rw [ha]; exact rep_sign hs
    · rw [hc a ha]; exact rep_zero
  obtain ⟨f, g, h0, h1, hg⟩ := expval_form h hr i hM
  have hd := A.dot_exact (2 ^ N) f g (enc c) (enc_lt c)
    (fun j hj hne => by
      obtain ⟨d, rfl⟩ := exists_enc hj
      right
      rw [hg]
      exact hc d fun e => hne (by rw [e]))
    (Or.inr ⟨by
      rw [h1]
      refine rep_mul_sign (rep_star (hr c)) ?_
      split
      · exact .one
      · exact .negOne, by rw [hg]; exact hs⟩)
  rw [h0, hd, h1, hg, star_mul_self_sign, Complex.ofReal_re, Finset.sum_eq_single c]
  · intro b _ hb
    rw [hc b hb]; simp
  · intro h; exact absurd (mem_univ _) h

/-- `measure` in all three forms of the argument, for any relation known of the single values. -/
theorem measure_forms (hN : 0 < N) {state : Tensor ℂ} {w : QState N} (h : IsCol state w) {R : Fin N → ℝ → Prop}
    (hR : ∀ s M i, IsVec s (2 ^ N) (fun k => state.get [k, 0]) → Represents M (onQubit i Spec.Z) →
      ∃ x, A.expval s M = .ok x ∧ R i x) :
    ∃ f : Fin N → ℝ,
      A.measure N state .none = .ok (List.ofFn f) ∧
      (∀ i : Fin N, (i : ℕ) ≠ 0 → A.measure N state (.int (wire i)) = .ok [f i]) ∧
      (∀ ws : List (Fin N), ws ≠ [] → A.measure N state (.list (wires ws)) = .ok (ws.map f)) ∧
      ∀ i, R i (f i) := by
  have hd : 2 ^ N ≠ 1 := by
    have := Nat.one_lt_two_pow (n := N) (by omega)
    omega
  have hv : IsVec state (2 ^ N) (fun k => state.get [k, 0]) := .inr (.inr ⟨h.1, fun _ _ => rfl⟩)
  obtain ⟨-, h2⟩ := squeeze_vec hd hv
  have hz : ∀ i : Fin N, ∃ M x, A.zObservable N (wire i) = .ok M ∧ A.expval state.squeeze M = .ok x ∧ R i x := fun i => by
    obtain ⟨M, h3, h4⟩ := zObservable_round (A := A) i
    obtain ⟨x, h5, h6⟩ := hR _ M i h2 h4
    exact ⟨M, x, h3, h5, h6⟩
  choose Z f hZ hf hb using hz
  have hl : ∀ ws : List (Fin N), (do (← (wires ws).mapM (A.zObservable N)).mapM (fun Mi =>
      A.expval state.squeeze Mi)) = .ok (ws.map f) := fun ws => by
    have e1 : (wires ws).mapM (A.zObservable N) = .ok (ws.map Z) := by
      unfold wires
      induction ws with
      | nil => rfl
      | cons i ws ih => rw [List.map_cons, List.mapM_cons, hZ, Py.ok_bind, ih]; rfl
    rw [e1, Py.ok_bind]
    clear e1
    induction ws with
    | nil => rfl
    | cons i ws ih => rw [List.map_cons, List.mapM_cons, hf, Py.ok_bind, ih]; rfl
  refine ⟨f, ?_, fun i hi => ?_, fun ws hw => ?_, hb⟩
  · have := hl (List.finRange N)
    rw [wires_finRange, ← List.ofFn_eq_map] at this
    exact this
  · have := hl [i]
    unfold measure Zmeasure
    rw [if_neg (by simp [MeasArg.falsy, wire, hi])]
    refine Eq.trans ?_ this
    simp only [wires, List.map_cons, List.map_nil, List.mapM_cons, List.mapM_nil]
    rcases A.zObservable N (wire i) with e | a <;> rfl
  · have := hl ws
    unfold measure Zmeasure
    rw [if_neg (by simp [MeasArg.falsy, wires, hw])]
    exact this

theorem measure_round (hN : 0 < N) {state : Tensor ℂ} {w : QState N} (h : IsCol state w)
    (hr : ∀ a, RepC A.fl (w a)) :
    ∃ f : Fin N → ℝ,
      A.measure N state .none = .ok (List.ofFn f) ∧
      (∀ i : Fin N, (i : ℕ) ≠ 0 → A.measure N state (.int (wire i)) = .ok [f i]) ∧
      (∀ ws : List (Fin N), ws ≠ [] → A.measure N state (.list (wires ws)) = .ok (ws.map f)) ∧
      ∀ i, |f i - ∑ a : Bits N, (if a i = 0 then 1 else -1) * ‖w a‖ ^ 2| ≤ sumErr A.u (2 ^ N) * norm2 w ^ 2 :=
  measure_forms hN h (R := fun i x => |x - ∑ a : Bits N, (if a i = 0 then 1 else -1) * ‖w a‖ ^ 2| ≤
      sumErr A.u (2 ^ N) * norm2 w ^ 2) fun s M i h2 h4 => by
    obtain ⟨x, h5, h6⟩ := expval_round h2 (fun a => by rw [h.2]; exact hr a) i h4
    refine ⟨x, h5, ?_⟩
    simp only [h.2] at h6
    rwa [norm2_sq]

theorem measure_exact (hN : 0 < N) {state : Tensor ℂ} {w : QState N} (h : IsCol state w) (c : Bits N)
    (hc : ∀ a, a ≠ c → w a = 0) (hs : IsSign (w c)) :
    ∃ f : Fin N → ℝ,
      A.measure N state .none = .ok (List.ofFn f) ∧
      (∀ i : Fin N, (i : ℕ) ≠ 0 → A.measure N state (.int (wire i)) = .ok [f i]) ∧
      (∀ ws : List (Fin N), ws ≠ [] → A.measure N state (.list (wires ws)) = .ok (ws.map f)) ∧
      ∀ i, f i = ∑ a : Bits N, (if a i = 0 then 1 else -1) * ‖w a‖ ^ 2 :=
  measure_forms hN h (R := fun i x => x = ∑ a : Bits N, (if a i = 0 then 1 else -1) * ‖w a‖ ^ 2) fun s M i h2 h4 =>
    ⟨_, expval_exact h2 c (fun a ha => by rw [h.2]; exact hc a ha) (by rw [h.2]; exact hs) i h4, by simp only [h.2]⟩

/-- The operators of the exact gates have entries 0, 1, -1, i, -i, one in every row. -/
theorem exact_op (A : Arith) (ins : Instr N) (hw : ins.WF) (hx : ins.exact = true) : SignM ins.op ∧ Mono ins.op := by
  obtain ⟨g, -, U, G, -, -, h⟩ := comp_ins A (ins.mapAngles A.fl) (wf_mapAngles _ ins hw) (fun θ hθ => by
    rw [angles_mapAngles] at hθ
    obtain ⟨x, -, rfl⟩ := List.mem_map.1 hθ
    exact A.fl_fl x)
  have e : ins.mapAngles A.fl = ins := mapAngles_of ins (by cases ins <;> simp_all [Instr.exact, Instr.angles])
  rw [e] at h
  rcases h with ⟨-, h1, h2, h3⟩ | ⟨h1, -⟩
  · rw [← h1]; exact ⟨h2, h3⟩
  · rw [hx] at h1; cases h1

theorem signM_gateSeq (A : Arith) (l : List (Instr N)) (hw : ∀ ins ∈ l, ins.WF) (hx : ∀ ins ∈ l, ins.exact = true) :
    SignM (gateSeqOp l) ∧ Mono (gateSeqOp l) := by
  unfold gateSeqOp
  induction l using List.reverseRecOn with
  | nil => exact ⟨signM_one, mono_one⟩
  | append_singleton l ins ih =>
    obtain ⟨i1, i2⟩ := ih (fun i hi => hw i (by simp [hi])) (fun i hi => hx i (by simp [hi]))
    obtain ⟨g1, g2⟩ := exact_op A ins (hw _ (by simp)) (hx _ (by simp))
    rw [List.map_append, List.map_singleton, timeOrdered_append, timeOrdered_singleton]
    have key : ∀ a c, (∀ d, d ≠ c → ins.op a d = 0) → ∀ b,
        (ins.op * timeOrdered (l.map Instr.op)) a b = ins.op a c * timeOrdered (l.map Instr.op) c b := fun a c hc b => by
      rw [Matrix.mul_apply, Finset.sum_eq_single c]
      · intro d _ hd; rw [hc d hd, zero_mul]
      · intro h; exact absurd (mem_univ _) h
    refine ⟨fun a b => ?_, fun a => ?_⟩
    · obtain ⟨c, hc⟩ := g2 a
      rw [key a c hc]
      exact (g1 _ _).mul (i1 _ _)
    · obtain ⟨c, hc⟩ := g2 a
      obtain ⟨d, hd⟩ := i2 c
      exact ⟨d, fun e he => by rw [key a c hc, hd e he, mul_zero]⟩

/-- Every column of a unitary matrix with such entries has one entry that is not zero. -/
theorem sign_column {V : QOp N} (hV : IsUnitaryOp V) (hs : SignM V) (b : Bits N) :
    ∃ c, ∀ a, a ≠ c → V a b = 0 := by
  have h1 : ∑ a, ‖V a b‖ ^ 2 = 1 := by
    have := norm2_col hV b
    rw [← norm2_sq, this, one_pow]
  have h2 : ∃ c, V c b ≠ 0 := by
    by_contra hc
    push Not at hc
    simp [hc] at h1
  obtain ⟨c, hc⟩ := h2
  have h3 : ∀ a, V a b ≠ 0 → ‖V a b‖ ^ 2 = 1 := fun a ha => by
    rcases hs a b with h | h | h | h | h
    · exact absurd h ha
    all_goals rw [h]; simp
  refine ⟨c, fun a ha => ?_⟩
  by_contra hne
  have h4 : ∑ x ∈ {a, c}, ‖V x b‖ ^ 2 ≤ ∑ x, ‖V x b‖ ^ 2 :=
    Finset.sum_le_sum_of_subset_of_nonneg (subset_univ _) fun _ _ _ => by positivity
  rw [Finset.sum_pair ha, h3 a hne, h3 c hc, h1] at h4
  norm_num at h4

/-- A product with a vector. -/
theorem matmul_col {U state : Tensor ℂ} {W : QOp N} {v : QState N} (hU : Represents U W) (hs : IsCol state v) :
    ∃ sv w, A.matmul U state = .ok sv ∧ IsCol sv w ∧ (∀ a, RepC A.fl (w a)) ∧
      ∀ a, ‖w a - (W *ᵥ v) a‖ ≤ sumErr A.u (2 ^ N) * ∑ b, ‖W a b‖ * ‖v b‖ := by
  refine ⟨_, fun a => A.dot (2 ^ N) (fun x => U.get [enc a, x]) (fun x => state.get [x, 0]),
    matmul_shape hU.1 hs.1, ⟨rfl, fun a => ?_⟩, fun a => A.dot_rep _ _ _, fun a => ?_⟩
  · rw [Tensor.get_ofFn (by simp [enc_lt a])]
    rfl
  · have h2 := dot_err' (A := A) (2 ^ N) (fun x => U.get [enc a, x]) (fun x => state.get [x, 0]) (2 ^ N)
      ((Finset.card_filter_le _ _).trans (by simp))
    rw [sum_enc, sum_enc] at h2
    simp only [hU.2, hs.2] at h2
    exact h2

/-- The error of a product with a vector, for a matrix whose columns are close to those of a unitary. -/
theorem matmul_col_err {U state : Tensor ℂ} {W V : QOp N} {v : QState N} (hU : Represents U W) (hs : IsCol state v)
    (hV : IsUnitaryOp V) {d : ℝ} (hd : ∀ b, dist2 (column W b) (column V b) ≤ d) :
    ∃ sv w, A.matmul U state = .ok sv ∧ IsCol sv w ∧ (∀ a, RepC A.fl (w a)) ∧
      dist2 w (V *ᵥ v) ≤ Real.sqrt (2 ^ N) * (d + sumErr A.u (2 ^ N) * (1 + d)) * norm2 v := by
  obtain ⟨sv, w, h1, h2, h3, h4⟩ := matmul_col (A := A) hU hs
  refine ⟨sv, w, h1, h2, h3, ?_⟩
  have hγ := sumErr_nonneg A.u_nonneg (2 ^ N)
  have hd0 : 0 ≤ d := (Real.sqrt_nonneg _).trans (hd 0)
  have b1 : Bnd (Real.sqrt (2 ^ N) * d) (W - V) := bnd_cols hd0 fun b => by
    refine le_trans (le_of_eq ?_) (hd b)
    rw [dist2_eq]; rfl
  have b2 : Bnd (Real.sqrt (2 ^ N) * (1 + d)) (absOp W) := bnd_cols (by linarith) fun b => by
    have e : norm2 (column (absOp W) b) = norm2 (column W b) := by unfold norm2 column absOp; simp
    rw [e]
    have := norm2_add_le (column V b) (column W b - column V b)
    rw [add_sub_cancel] at this
    have h5 : norm2 (column V b) = 1 := norm2_col hV b
    have h6 := hd b
    rw [dist2_eq] at h6
    linarith
  have h7 : norm2 (w - W *ᵥ v) ≤ sumErr A.u (2 ^ N) * (Real.sqrt (2 ^ N) * (1 + d) * norm2 v) := by
    have e1 : norm2 (fun c => ((‖v c‖ : ℝ) : ℂ)) = norm2 v := by unfold norm2; simp
    have h8 : ∀ a, ‖(w - W *ᵥ v) a‖ ≤
        ‖((((sumErr A.u (2 ^ N) : ℝ) : ℂ)) • (absOp W *ᵥ fun c => ((‖v c‖ : ℝ) : ℂ))) a‖ := fun a => by
      have e : ((((sumErr A.u (2 ^ N) : ℝ) : ℂ)) • (absOp W *ᵥ fun c => ((‖v c‖ : ℝ) : ℂ))) a =
          ((sumErr A.u (2 ^ N) * ∑ c, ‖W a c‖ * ‖v c‖ : ℝ) : ℂ) := by
        simp [Matrix.mulVec, dotProduct, absOp]
      rw [e, Complex.norm_real, Real.norm_of_nonneg (mul_nonneg hγ (Finset.sum_nonneg fun _ _ => by positivity))]
      exact h4 a
    refine (norm2_mono h8).trans ?_
    rw [norm2_smul, Complex.norm_real, Real.norm_of_nonneg hγ]
    refine mul_le_mul_of_nonneg_left ?_ hγ
    rw [← e1]
    exact b2 _
  have h9 := b1 v
  rw [Matrix.sub_mulVec] at h9
  rw [dist2_eq]
  have h10 := norm2_add_le (w - W *ᵥ v) (W *ᵥ v - V *ᵥ v)
  rw [sub_add_sub_cancel] at h10
  refine h10.trans ((add_le_add h7 h9).trans (le_of_eq ?_))
  ring

end Arith

end QTN
