import Verif.Model.Round
import Verif.Lemmas.Gates

/-! # Rounded arithmetic: the operations that make no error -/

namespace QTN

open Spec Matrix Complex

namespace Arith

variable {A : Arith}

/-! ## Numbers -/

theorem fl_zero (A : Arith) : A.fl 0 = 0 := by
  have := A.fl_err 0
  simpa using this

theorem rep_iff {z : ℂ} : RepC A.fl z ↔ A.fl z.re = z.re ∧ A.fl z.im = z.im := Iff.rfl

theorem rep_zero : RepC A.fl 0 := ⟨A.fl_zero, A.fl_zero⟩
theorem rep_one : RepC A.fl 1 := ⟨A.fl_one, A.fl_zero⟩
theorem rep_I : RepC A.fl I := ⟨A.fl_zero, A.fl_one⟩
theorem rep_neg {z : ℂ} (h : RepC A.fl z) : RepC A.fl (-z) :=
  ⟨by rw [neg_re, A.fl_neg, h.1], by rw [neg_im, A.fl_neg, h.2]⟩

theorem rep_sign {z : ℂ} (h : IsSign z) : RepC A.fl z := by
  rcases h with rfl | rfl | rfl | rfl | rfl
  exacts [rep_zero, rep_one, rep_neg rep_one, rep_I, rep_neg rep_I]

theorem rep_real {x : ℝ} (h : A.fl x = x) : RepC A.fl (real x) := by
  simp [RepC, real, h, A.fl_zero]

theorem add_rep (z w : ℂ) : RepC A.fl (A.add z w) := ⟨A.fl_fl _, A.fl_fl _⟩
theorem sub_rep (z w : ℂ) : RepC A.fl (A.sub z w) := ⟨A.fl_fl _, A.fl_fl _⟩
theorem mul_rep (z w : ℂ) : RepC A.fl (A.mul z w) := ⟨A.fl_fl _, A.fl_fl _⟩

theorem add_exact {z w : ℂ} (h : RepC A.fl (z + w)) : A.add z w = z + w :=
  Complex.ext h.1 h.2
theorem sub_exact {z w : ℂ} (h : RepC A.fl (z - w)) : A.sub z w = z - w :=
  Complex.ext h.1 h.2

theorem mul_comm' (z w : ℂ) : A.mul z w = A.mul w z := by
  apply Complex.ext
  · simp only [mul]; rw [mul_comm z.re, mul_comm z.im]
  · simp only [mul]; rw [mul_comm z.re, mul_comm z.im, add_comm]

theorem mul_sign {z w : ℂ} (hz : RepC A.fl z) (hw : IsSign w) : A.mul z w = z * w := by
  obtain ⟨h1, h2⟩ := hz
  rcases hw with rfl | rfl | rfl | rfl | rfl <;> apply Complex.ext <;>
    simp [mul, A.fl_zero, h1, h2, A.fl_neg]

theorem sign_mul {z w : ℂ} (hz : IsSign z) (hw : RepC A.fl w) : A.mul z w = z * w := by
  rw [mul_comm', mul_sign hw hz, mul_comm]

theorem rep_mul_sign {z w : ℂ} (hz : RepC A.fl z) (hw : IsSign w) : RepC A.fl (z * w) := by
  rw [← mul_sign hz hw]; exact mul_rep _ _

theorem rep_sign_mul {z w : ℂ} (hz : IsSign z) (hw : RepC A.fl w) : RepC A.fl (z * w) := by
  rw [mul_comm]; exact rep_mul_sign hw hz

end Arith

theorem IsSign.zero : IsSign 0 := Or.inl rfl
theorem IsSign.one : IsSign 1 := Or.inr (Or.inl rfl)
theorem IsSign.negOne : IsSign (-1) := Or.inr (Or.inr (Or.inl rfl))
theorem IsSign.I : IsSign I := Or.inr (Or.inr (Or.inr (Or.inl rfl)))
theorem IsSign.negI : IsSign (-Complex.I) := Or.inr (Or.inr (Or.inr (Or.inr rfl)))

theorem IsSign.neg {z : ℂ} (h : IsSign z) : IsSign (-z) := by
  rcases h with rfl | rfl | rfl | rfl | rfl
  · rw [neg_zero]; exact .zero
  · exact .negOne
  · rw [neg_neg]; exact .one
  · exact .negI
  · rw [neg_neg]; exact .I

theorem IsSign.mul {z w : ℂ} (hz : IsSign z) (hw : IsSign w) : IsSign (z * w) := by
  have key : ∀ w, IsSign w → IsSign (Complex.I * w) := by
    rintro w (rfl | rfl | rfl | rfl | rfl)
    · simpa using IsSign.zero
    · simpa using IsSign.I
    · simpa using IsSign.negI
    · simpa using IsSign.negOne
    · simpa using IsSign.one
  rcases hz with rfl | rfl | rfl | rfl | rfl
  · rw [zero_mul]; exact .zero
  · rwa [one_mul]
  · rw [neg_one_mul]; exact hw.neg
  · exact key w hw
  · rw [neg_mul]; exact (key w hw).neg

/-- All entries are 0, 1, -1, i or -i. -/
def SignT (t : Tensor ℂ) : Prop := ∀ idx, IsSign (t.get idx)
/-- All entries are unchanged by rounding. -/
def RepT (A : Arith) (t : Tensor ℂ) : Prop := ∀ idx, RepC A.fl (t.get idx)
/-- The same for operators and 2×2 matrices. -/
def SignM {n : Type} (M : Matrix n n ℂ) : Prop := ∀ a b, IsSign (M a b)
/-- The same for operators and 2×2 matrices. -/
def RepM {n : Type} (A : Arith) (M : Matrix n n ℂ) : Prop := ∀ a b, RepC A.fl (M a b)

theorem SignT.rep {A : Arith} {t : Tensor ℂ} (h : SignT t) : RepT A t := fun idx => Arith.rep_sign (h idx)
theorem SignM.rep {n : Type} {A : Arith} {M : Matrix n n ℂ} (h : SignM M) : RepM A M :=
  fun a b => Arith.rep_sign (h a b)

theorem get_ofFn_or {α : Type} [Zero α] (s : List ℕ) (f : List ℕ → α) (idx : List ℕ) :
    (Tensor.ofFn s f).get idx = f idx ∨ (Tensor.ofFn s f).get idx = 0 := by
  by_cases h : inB s idx = true
  · exact Or.inl (Tensor.get_ofFn h)
  · exact Or.inr (Tensor.get_out (by simpa using h))

theorem ofFn_congr {s : List ℕ} {f g : List ℕ → ℂ} (h : ∀ idx, f idx = g idx) :
    Tensor.ofFn s f = Tensor.ofFn s g := by rw [funext h]

namespace Arith

variable {A : Arith}

/-! ## Kronecker products -/

theorem kron_exact {a b : Tensor ℂ} (hr : a.rank = b.rank) (ha : RepT A a) (hb : RepT A b)
    (h : SignT a ∨ SignT b) : A.kron a b = Tensor.kron a b := by
  rw [Tensor.kron_eq hr]
  refine ofFn_congr fun idx => ?_
  rcases h with h | h
  · exact sign_mul (h _) (hb _)
  · exact mul_sign (ha _) (h _)

theorem kron_repT (a b : Tensor ℂ) : RepT A (A.kron a b) := fun idx => by
  unfold kron
  rcases get_ofFn_or (List.zipWith (· * ·) a.shape b.shape) (fun idx =>
    A.mul (a.get (List.zipWith (fun i d => i / d) idx b.shape))
      (b.get (List.zipWith (fun i d => i % d) idx b.shape))) idx with h | h
  · rw [h]; exact mul_rep _ _
  · rw [h]; exact rep_zero

theorem kron_signT {a b : Tensor ℂ} (hr : a.rank = b.rank) (ha : SignT a) (hb : SignT b) :
    SignT (Tensor.kron a b) := fun idx => by
  rw [Tensor.kron_eq hr]
  unfold Tensor.kronEq
  rcases get_ofFn_or (List.zipWith (· * ·) a.shape b.shape) (fun idx =>
    a.get (List.zipWith (fun i d => i / d) idx b.shape) *
    b.get (List.zipWith (fun i d => i % d) idx b.shape)) idx with h | h
  · rw [h]; exact (ha _).mul (hb _)
  · rw [h]; exact .zero

theorem kron_rank {a b : Tensor ℂ} (ha : a.rank = 2) (hb : b.rank = 2) : (A.kron a b).rank = 2 := by
  simp only [Tensor.rank] at *
  simp [kron, Tensor.ofFn, ha, hb]

theorem foldl_kron_exact : ∀ (ms : List (Tensor ℂ)) (m : Tensor ℂ), m.rank = 2 → RepT A m →
    (∀ x ∈ ms, x.rank = 2 ∧ RepT A x) → (m :: ms).Pairwise (fun a b => SignT a ∨ SignT b) →
    ms.foldl A.kron m = ms.foldl Tensor.kron m ∧ RepT A (ms.foldl Tensor.kron m) ∧
      (SignT m → (∀ x ∈ ms, SignT x) → SignT (ms.foldl Tensor.kron m)) := by
  intro ms
  induction ms with
  | nil => exact fun m _ hr _ _ => ⟨rfl, hr, fun h _ => h⟩
  | cons x ms ih =>
    intro m hm hr hx hp
    obtain ⟨hx2, hxr⟩ := hx x (by simp)
    have hmx : SignT m ∨ SignT x := (List.pairwise_cons.1 hp).1 x (by simp)
    have e := kron_exact (A := A) (hm.trans hx2.symm) hr hxr hmx
    have hp' : (A.kron m x :: ms).Pairwise (fun a b => SignT a ∨ SignT b) := by
      rw [List.pairwise_cons] at hp ⊢
      rw [List.pairwise_cons] at hp
      refine ⟨fun y hy => ?_, hp.2.2⟩
      by_cases hs : SignT y
      · exact Or.inr hs
      · rw [e]
        exact Or.inl (kron_signT (hm.trans hx2.symm) ((hp.1 y (by simp [hy])).resolve_right hs)
          ((hp.2.1 y hy).resolve_right hs))
    obtain ⟨h1, h2, h3⟩ := ih (A.kron m x) (kron_rank hm hx2) (kron_repT _ _)
      (fun y hy => hx y (by simp [hy])) hp'
    simp only [List.foldl_cons]
    rw [e] at h1 h2 h3
    rw [e]
    exact ⟨h1, h2, fun hs hss => h3 (kron_signT (hm.trans hx2.symm) hs (hss x (by simp)))
      (fun y hy => hss y (by simp [hy]))⟩

variable {N : ℕ}

theorem signT_of {t : Tensor ℂ} {m : Mat2} (h : Represents2 t m) (hs : SignM m) : SignT t := fun idx => by
  by_cases hi : inB t.shape idx = true
  · rw [h.1] at hi
    match idx, hi with
    | [i, j], hi =>
      simp at hi
      have := h.2 ⟨i, by omega⟩ ⟨j, by omega⟩
      simp only at this
      rw [this]; exact hs _ _
    | [], hi => simp at hi
    | [_], hi => simp at hi
    | _ :: _ :: _ :: _, hi => simp at hi
  · rw [Tensor.get_out (by simpa using hi)]; exact .zero

theorem repT_of {t : Tensor ℂ} {m : Mat2} (h : Represents2 t m) (hs : RepM A m) : RepT A t := fun idx => by
  by_cases hi : inB t.shape idx = true
  · rw [h.1] at hi
    match idx, hi with
    | [i, j], hi =>
      simp at hi
      have := h.2 ⟨i, by omega⟩ ⟨j, by omega⟩
      simp only at this
      rw [this]; exact hs _ _
    | [], hi => simp at hi
    | [_], hi => simp at hi
    | _ :: _ :: _ :: _, hi => simp at hi
  · rw [Tensor.get_out (by simpa using hi)]; exact rep_zero

/-- `multi_kron` of 2×2 matrices with representable entries, all but one of them with entries 0, ±1, ±i. -/
theorem multi_kron_rep (hN : 0 < N) (f : Fin N → Tensor ℂ) (g : Fin N → Mat2)
    (h : ∀ i, Represents2 (f i) (g i)) (hr : ∀ i, RepM A (g i))
    (hs : ∀ i j, i ≠ j → SignM (g i) ∨ SignM (g j)) :
    ∃ t, A.multi_kron (List.ofFn f) = .ok t ∧ Represents t (onEach g) := by
  obtain ⟨t, ht, hrep⟩ := multi_kron_rep' hN f g h
  refine ⟨t, ?_, hrep⟩
  obtain ⟨n, rfl⟩ : ∃ n, N = n + 1 := ⟨N - 1, by omega⟩
  rw [List.ofFn_succ] at ht ⊢
  simp only [QTN.multi_kron, Except.ok.injEq] at ht
  simp only [multi_kron, Except.ok.injEq]
  rw [← ht]
  refine (foldl_kron_exact _ _ (by simp [Tensor.rank, (h 0).1]) (repT_of (h 0) (hr 0)) ?_ ?_).1
  · intro x hx
    rw [List.mem_ofFn] at hx
    obtain ⟨i, rfl⟩ := hx
    exact ⟨by simp [Tensor.rank, (h i.succ).1], repT_of (h _) (hr _)⟩
  · have : (f 0 :: List.ofFn fun i : Fin n => f i.succ) = List.ofFn f := by rw [List.ofFn_succ]
    rw [this, List.pairwise_ofFn]
    intro i j hij
    exact (hs i j (ne_of_lt hij)).imp (signT_of (h i)) (signT_of (h j))

/-! ## Sums, differences, multiples -/

theorem addT_rep {s t : Tensor ℂ} {M M' : QOp N} (hs : Represents s M) (ht : Represents t M')
    (h : RepM A (M + M')) : ∃ r, A.addT s t = .ok r ∧ Represents r (M + M') := by
  refine ⟨Tensor.ofFn s.shape (fun idx => A.add (s.get idx) (t.get idx)),
    by rw [addT, if_pos (hs.1.trans ht.1.symm)], hs.1, fun a b => ?_⟩
  rw [Tensor.get_ofFn (by rw [hs.1]; simp [enc_lt]), hs.2, ht.2, Matrix.add_apply]
  exact add_exact (h a b)

theorem subT_rep {s t : Tensor ℂ} {M M' : QOp N} (hs : Represents s M) (ht : Represents t M')
    (h : RepM A (M - M')) : ∃ r, A.subT s t = .ok r ∧ Represents r (M - M') := by
  refine ⟨Tensor.ofFn s.shape (fun idx => A.sub (s.get idx) (t.get idx)),
    by rw [subT, if_pos (hs.1.trans ht.1.symm)], hs.1, fun a b => ?_⟩
  rw [Tensor.get_ofFn (by rw [hs.1]; simp [enc_lt]), hs.2, ht.2, Matrix.sub_apply]
  exact sub_exact (h a b)

theorem smulT_rep {s : Tensor ℂ} {M : QOp N} {c : ℂ} (hs : Represents s M) (hc : RepC A.fl c)
    (h : SignM M) : Represents (A.smulT c s) (c • M) := by
  refine ⟨hs.1, fun a b => ?_⟩
  unfold smulT
  rw [Tensor.get_ofFn (by rw [hs.1]; simp [enc_lt]), hs.2, Matrix.smul_apply, mul_sign hc (h a b),
    smul_eq_mul]

theorem inB2 (x y : Fin 2) : inB [2, 2] [(x : ℕ), (y : ℕ)] = true := by
  have := x.2; have := y.2; simp [inB, *]

theorem subT_rep2 {s t : Tensor ℂ} {M M' : Mat2} (hs : Represents2 s M) (ht : Represents2 t M')
    (h : RepM A (M - M')) : ∃ r, A.subT s t = .ok r ∧ Represents2 r (M - M') := by
  refine ⟨Tensor.ofFn s.shape (fun idx => A.sub (s.get idx) (t.get idx)),
    by rw [subT, if_pos (hs.1.trans ht.1.symm)], hs.1, fun a b => ?_⟩
  rw [Tensor.get_ofFn (by rw [hs.1]; exact inB2 a b), hs.2, ht.2, Matrix.sub_apply]
  exact sub_exact (h a b)

theorem smulT_rep2 {s : Tensor ℂ} {M : Mat2} {c : ℂ} (hs : Represents2 s M) (hc : RepC A.fl c)
    (h : SignM M) : Represents2 (A.smulT c s) (c • M) := by
  refine ⟨hs.1, fun a b => ?_⟩
  unfold smulT
  rw [Tensor.get_ofFn (by rw [hs.1]; exact inB2 a b), hs.2, Matrix.smul_apply, mul_sign hc (h a b),
    smul_eq_mul]

/-! ## Expanded gates -/

theorem signM_one {n : Type} [DecidableEq n] : SignM (1 : Matrix n n ℂ) := fun a b => by
  rw [Matrix.one_apply]; split_ifs
  exacts [.one, .zero]

theorem signM_four {a b c d : ℂ} (ha : IsSign a) (hb : IsSign b) (hc : IsSign c) (hd : IsSign d) :
    SignM !![a, b; c, d] := fun x y => by
  fin_cases x <;> fin_cases y <;> assumption

theorem signM_X : SignM Spec.X := signM_four .zero .one .one .zero
theorem signM_Y : SignM Spec.Y := signM_four .zero .negI .I .zero
theorem signM_Z : SignM Spec.Z := signM_four .one .zero .zero .negOne

theorem signM_update {f : Fin N → Mat2} (h : ∀ i, SignM (f i)) (i : Fin N) {m : Mat2} (hm : SignM m) :
    ∀ j, SignM (Function.update f i m j) := fun j => by
  by_cases hj : j = i
  · subst hj; simpa using hm
  · simpa [Function.update_of_ne hj] using h j

theorem repM_update {f : Fin N → Mat2} (h : ∀ i, SignM (f i)) (i : Fin N) {m : Mat2} (hm : RepM A m) :
    ∀ j, RepM A (Function.update f i m j) := fun j => by
  by_cases hj : j = i
  · subst hj; simpa using hm
  · simpa [Function.update_of_ne hj] using (h j).rep

theorem pair_update {f : Fin N → Mat2} (h : ∀ i, SignM (f i)) (i : Fin N) (m : Mat2) :
    ∀ j k, j ≠ k → SignM (Function.update f i m j) ∨ SignM (Function.update f i m k) := fun j k hjk => by
  by_cases hj : j = i
  · right
    rw [Function.update_of_ne (fun hk => hjk (hj.trans hk.symm))]; exact h k
  · left
    rw [Function.update_of_ne hj]; exact h j

theorem signM_const : ∀ i : Fin N, SignM ((fun _ => 1 : Fin N → Mat2) i) := fun _ => signM_one

theorem signM_onEach {f : Fin N → Mat2} (h : ∀ i, SignM (f i)) : SignM (onEach f) := fun a b => by
  unfold onEach
  exact Finset.prod_induction _ IsSign (fun _ _ => IsSign.mul) .one (fun i _ => h i _ _)

theorem gate_expand_rep (i : Fin N) {t : Tensor ℂ} {m : Mat2} (ht : Represents2 t m) (hm : RepM A m) :
    ∃ U, A.gate_expand_1toN t N ((i : ℕ) : ℤ) = .ok U ∧ Represents U (onQubit i m) := by
  have hi := Fin.castInt_le i
  have hN := i.pos
  obtain ⟨U, hU, hr⟩ := multi_kron_rep hN _ _ (rep2_update rep2_const i ht) (repM_update signM_const i hm)
    (pair_update signM_const i m)
  refine ⟨U, ?_, hr.congr (onEach_update_one i m)⟩
  unfold gate_expand_1toN
  rw [raiseIf_false (by omega), raiseIf_false (by omega), pyRep_nat]
  simp only [Py.ok_bind, pySet_ofFn]
  exact hU

theorem repM_onQubit (i : Fin N) {m : Mat2} (hm : RepM A m) : RepM A (onQubit i m) := fun a b => by
  unfold onQubit; split_ifs
  exacts [hm _ _, rep_zero]

theorem signM_onQubit (i : Fin N) {m : Mat2} (hm : SignM m) : SignM (onQubit i m) := fun a b => by
  unfold onQubit; split_ifs
  exacts [hm _ _, .zero]

theorem repM_controlled (cs : List (Fin N)) (t : Fin N) {m : Mat2} (hm : RepM A m) :
    RepM A (controlled cs t m) := fun a b => by
  unfold controlled; split_ifs
  exacts [repM_onQubit t hm a b, (signM_one (n := Bits N)).rep a b]

theorem signM_controlled (cs : List (Fin N)) (t : Fin N) {m : Mat2} (hm : SignM m) :
    SignM (controlled cs t m) := fun a b => by
  unfold controlled; split_ifs
  exacts [signM_onQubit t hm a b, signM_one a b]

theorem two_qubit_control_rep {c t : Fin N} (hct : c ≠ t) {u : Tensor ℂ} {m : Mat2}
    (hu : Represents2 u m) (hm : RepM A m) :
    ∃ U, A.two_qubit_control_gate u N ((c : ℕ) : ℤ) ((t : ℕ) : ℤ) = .ok U ∧
      Represents U (controlled [c] t m) := by
  have hN : 0 < N := c.pos
  have hc := Fin.castInt_le c
  have ht := Fin.castInt_le t
  have hne : ((c : ℕ) : ℤ) ≠ ((t : ℕ) : ℤ) := by
    intro h; exact hct (Fin.ext (by exact_mod_cast h))
  have s0 := signM_update signM_const c (signM_four .one .zero .zero .zero)
  have s1 := signM_update signM_const c (signM_four .zero .zero .zero .one)
  obtain ⟨U1, hU1, hr1⟩ := multi_kron_rep (A := A) hN _ _
    (rep2_update rep2_const c (represents2_ofRows 1 0 0 0)) (fun i => (s0 i).rep) (fun i _ _ => Or.inl (s0 i))
  obtain ⟨U2, hU2, hr2⟩ := multi_kron_rep (A := A) hN _ _
    (rep2_update (rep2_update rep2_const c (represents2_ofRows 0 0 0 1)) t hu) (repM_update s1 t hm)
    (pair_update s1 t m)
  obtain ⟨U, hU, hr⟩ := addT_rep (A := A) hr1 hr2 (by
    have e := controlled_eq hct m
    unfold P0 P1 at e
    rw [← e]; exact repM_controlled _ _ hm)
  refine ⟨U, ?_, hr.congr (controlled_eq hct m).symm⟩
  unfold two_qubit_control_gate zero_zero one_one
  rw [raiseIf_false (by omega), raiseIf_false (by omega), raiseIf_false (by omega),
    raiseIf_false hne, pyRep_nat]
  simp only [Py.ok_bind, pySet_ofFn, hU1, hU2]
  exact hU

theorem multi_control_rep {cs : List (Fin N)} {t : Fin N} (hcs : cs ≠ []) (ht : t ∉ cs)
    {u : Tensor ℂ} {m : Mat2} (hu : Represents2 u m) (hm : RepM A m) :
    ∃ U, A.multi_control_gate u N (wireList cs) ((t : ℕ) : ℤ) = .ok U ∧
      Represents U (controlled cs t m) := by
  have hN : 0 < N := t.pos
  have ht' := Fin.castInt_le t
  obtain ⟨mx, hmx, hmx'⟩ := pyMax_wires hcs
  obtain ⟨mn, hmn, hmn'⟩ := pyMin_wires hcs
  have hmem : ¬ ∃ each ∈ wireList cs, each = ((t : ℕ) : ℤ) := by
    rintro ⟨e, he, rfl⟩
    obtain ⟨d, hd, hde⟩ := List.mem_map.1 he
    have : d = t := Fin.ext (by exact_mod_cast hde)
    exact ht (this ▸ hd)
  have hp : ∀ j, Represents2 ((fun j => if j ∈ cs then one_one else Tensor.eye 2 :
      Fin N → Tensor ℂ) j) (ctrlProj cs j) := by
    intro j
    by_cases hj : j ∈ cs
    · simpa [ctrlProj, hj, one_one, P1] using represents2_ofRows 0 0 0 1
    · simpa [ctrlProj, hj] using represents2_eye
  have sp : ∀ j, SignM (ctrlProj cs j) := by
    intro j
    unfold ctrlProj
    split_ifs
    exacts [signM_four .zero .zero .zero .one, signM_one]
  obtain ⟨U2, hU2, hr2⟩ := multi_kron_rep (A := A) hN _ _ (rep2_const (N := N))
    (fun i => (signM_const i).rep) (fun i _ _ => Or.inl (signM_const i))
  obtain ⟨U3, hU3, hr3⟩ := multi_kron_rep (A := A) hN _ _ hp (fun i => (sp i).rep) (fun i _ _ => Or.inl (sp i))
  obtain ⟨U1, hU1, hr1⟩ := multi_kron_rep (A := A) hN _ _ (rep2_update hp t hu) (repM_update sp t hm)
    (pair_update sp t m)
  obtain ⟨S, hS, hrS⟩ := subT_rep (A := A) (hr2.congr onEach_one) hr3 (by
    refine SignM.rep fun a b => ?_
    rw [Matrix.sub_apply, onEach_ctrlProj, Matrix.one_apply]
    by_cases h1 : a = b
    · by_cases h2 : ∀ c ∈ cs, b c = 1
      · rw [if_pos h1, if_pos ⟨h1, h2⟩, sub_self]; exact .zero
      · rw [if_pos h1, if_neg (fun h => h2 h.2), sub_zero]; exact .one
    · rw [if_neg h1, if_neg (fun h => h1 h.1), sub_self]; exact .zero)
  obtain ⟨U, hU, hr⟩ := addT_rep (A := A) hrS hr1 (by
    rw [← controlled_multi_eq cs ht]; exact repM_controlled _ _ hm)
  refine ⟨U, ?_, hr.congr (controlled_multi_eq cs ht m).symm⟩
  unfold multi_control_gate
  rw [raiseIf_false (by omega), hmx, hmn]
  simp only [Py.ok_bind]
  rw [raiseIf_false (by omega), raiseIf_false (by omega), raiseIf_false hmem, pyRep_nat,
    foldlM_pySet]
  simp only [Py.ok_bind, pySet_ofFn, hU1, hU2, hU3, hS]
  exact hU

theorem single_rep {g : Gate} (i : Fin N) {m : Mat2} (hn : g.nqubits = (N : ℤ))
    (hw : g.wires = .int ((i : ℕ) : ℤ)) (hm : Represents2 g.matrix m) (hr : RepM A m) :
    ∃ U, A.single_U_expand g = .ok U ∧ Represents U (onQubit i m) := by
  obtain ⟨U, hU, hr⟩ := gate_expand_rep i hm hr
  refine ⟨U, ?_, hr⟩
  unfold single_U_expand
  rw [guard_ok hn hw, hw, hn]
  simpa [Wires.asInt] using hU

theorem ctrl_rep {g : Gate} {c t : Fin N} (hct : c ≠ t) {u : Tensor ℂ} {m : Mat2}
    (hn : g.nqubits = (N : ℤ)) (hw : g.wires = .list [((c : ℕ) : ℤ), ((t : ℕ) : ℤ)])
    (hm : Represents2 u m) (hr : RepM A m) :
    ∃ U, A.ctrl_U_expand g u = .ok U ∧ Represents U (controlled [c] t m) := by
  obtain ⟨U, hU, hr⟩ := two_qubit_control_rep hct hm hr
  refine ⟨U, ?_, hr⟩
  unfold ctrl_U_expand
  rw [guard_list hn hw, hw, hn]
  have h0 : pyGet [((c : ℕ) : ℤ), ((t : ℕ) : ℤ)] 0 = .ok ((c : ℕ) : ℤ) := rfl
  have h1 : pyGet [((c : ℕ) : ℤ), ((t : ℕ) : ℤ)] 1 = .ok ((t : ℕ) : ℤ) := rfl
  simpa [Wires.asList, h0, h1] using hU

theorem mc_rep {g : Gate} {cs : List (Fin N)} {t : Fin N} (hcs : cs ≠ []) (ht : t ∉ cs)
    (hn : g.nqubits = (N : ℤ)) (hw : g.wires = .list (wireList (cs ++ [t]))) :
    ∃ U, A.mc_U_expand g = .ok U ∧ Represents U (controlled cs t Spec.X) := by
  obtain ⟨U, hU, hr⟩ := multi_control_rep (A := A) hcs ht pauliXMat_rep signM_X.rep
  refine ⟨U, ?_, hr⟩
  have e : wireList (cs ++ [t]) = wireList cs ++ [((t : ℕ) : ℤ)] := by simp [wireList]
  unfold mc_U_expand
  rw [guard_list hn hw, hw, hn, e]
  simpa [Wires.asList, pyGet_last] using hU

/-- A Pauli matrix as the code uses them: entries 0, ±1, ±i, and real on the diagonal. -/
def PauliLike (P : Mat2) : Prop := SignM P ∧ ∀ x, (P x x).im = 0

theorem pauli_X : PauliLike Spec.X := ⟨signM_X, fun x => by fin_cases x <;> simp [Spec.X]⟩
theorem pauli_Y : PauliLike Spec.Y := ⟨signM_Y, fun x => by fin_cases x <;> simp [Spec.Y]⟩
theorem pauli_Z : PauliLike Spec.Z := ⟨signM_Z, fun x => by fin_cases x <;> simp [Spec.Z]⟩

theorem rep_cos_sin {n : Type} [DecidableEq n] {c s : ℝ} (hc : A.fl c = c) (hs : A.fl s = s)
    {P : Matrix n n ℂ} (h : SignM P) (hd : ∀ a, (P a a).im = 0) :
    RepM A ((real c) • (1 : Matrix n n ℂ) - (I * real s) • P) := by
  intro a b
  rw [Matrix.sub_apply, Matrix.smul_apply, Matrix.smul_apply, smul_eq_mul, smul_eq_mul, Matrix.one_apply]
  by_cases hab : a = b
  · subst hab
    rw [if_pos rfl, mul_one]
    have hre : (P a a).re = 0 ∨ (P a a).re = 1 ∨ (P a a).re = -1 := by
      rcases h a a with e | e | e | e | e <;> simp [e]
    constructor
    · simp [real, hd a, hc]
    · rcases hre with e | e | e <;> simp [real, hd a, e, hs, A.fl_neg, A.fl_zero]
  · rw [if_neg hab, mul_zero, zero_sub]
    exact rep_neg (rep_mul_sign (rep_sign_mul .I (rep_real hs)) (h a b))

theorem mul_I {s : ℝ} (hs : A.fl s = s) : A.mul I (real s) = I * real s := sign_mul .I (rep_real hs)

/-- The 2×2 matrix computed for a rotation about `P` with the computed values `c`, `s` of cosine and
sine. -/
def rotHat (P : Mat2) (c s : ℝ) : Mat2 := (real c) • (1 : Mat2) - (I * real s) • P

theorem rotMat_rep {P : Tensor ℂ} {m : Mat2} (h : Represents2 P m) (hp : PauliLike m) (θ : ℝ) :
    ∃ t, A.rotMat P θ = .ok t ∧
      Represents2 t (rotHat m (A.cosR (A.fl (A.fl θ / 2))) (A.sinR (A.fl (A.fl θ / 2)))) := by
  have hc := A.cos_fl (A.fl (A.fl θ / 2))
  have hs := A.sin_fl (A.fl (A.fl θ / 2))
  unfold rotMat
  simp only
  rw [mul_I hs]
  exact subT_rep2 (smulT_rep2 represents2_eye (rep_real hc) signM_one)
    (smulT_rep2 h (rep_sign_mul .I (rep_real hs)) hp.1) (rep_cos_sin hc hs hp.1 hp.2)

theorem rotHat_rep {m : Mat2} (hp : PauliLike m) (x : ℝ) : RepM A (rotHat m (A.cosR x) (A.sinR x)) :=
  rep_cos_sin (A.cos_fl _) (A.sin_fl _) hp.1 hp.2

/-- The operator computed for a two-qubit rotation. -/
def rot2Hat (P : Mat2) (c s : ℝ) (p q : Fin N) : QOp N :=
  (real c) • (1 : QOp N) - (I * real s) • (onQubit p P * onQubit q P)

theorem sign_two {p q : Fin N} (hpq : p ≠ q) {P : Mat2} (hp : PauliLike P) :
    SignM (onQubit p P * onQubit q P) ∧ ∀ a, ((onQubit p P * onQubit q P : QOp N) a a).im = 0 := by
  rw [onQubit_mul_onQubit hpq]
  refine ⟨signM_onEach (signM_update (signM_update signM_const p hp.1) q hp.1), fun a => ?_⟩
  rw [onEach_two hpq]
  split_ifs
  · rw [mul_im, hp.2, hp.2]; simp
  · rfl

theorem rot2_rep {g : Gate} {p q : Fin N} (hpq : p ≠ q) {P : Tensor ℂ} {m : Mat2} {θ : ℝ}
    (hn : g.nqubits = (N : ℤ)) (hw : g.wires = .list [((p : ℕ) : ℤ), ((q : ℕ) : ℤ)])
    (hg : g.params = [θ]) (hP : Represents2 P m) (hp : PauliLike m) :
    ∃ U, A.rot2_U_expand g P = .ok U ∧
      Represents U (rot2Hat m (A.cosR (A.fl (θ / 2))) (A.sinR (A.fl (θ / 2))) p q) := by
  have hN : 0 < N := p.pos
  have hp' := Fin.castInt_le p
  have hne : ((p : ℕ) : ℤ) ≠ ((q : ℕ) : ℤ) := by
    intro h; exact hpq (Fin.ext (by exact_mod_cast h))
  have hc := A.cos_fl (A.fl (θ / 2))
  have hs := A.sin_fl (A.fl (θ / 2))
  have s2 := signM_update (signM_update signM_const p hp.1) q hp.1
  obtain ⟨st1, st2⟩ := sign_two hpq hp
  obtain ⟨U1, hU1, hr1⟩ := multi_kron_rep (A := A) hN _ _ (rep2_const (N := N))
    (fun i => (signM_const i).rep) (fun i _ _ => Or.inl (signM_const i))
  obtain ⟨U2, hU2, hr2⟩ := multi_kron_rep (A := A) hN _ _ (rep2_update (rep2_update rep2_const p hP) q hP)
    (fun i => (s2 i).rep) (fun i _ _ => Or.inl (s2 i))
  obtain ⟨U, hU, hr⟩ := subT_rep (smulT_rep (hr1.congr onEach_one) (rep_real hc) signM_one)
    (smulT_rep (hr2.congr (onQubit_mul_onQubit hpq m m).symm) (rep_sign_mul .I (rep_real hs)) st1)
    (rep_cos_sin hc hs st1 st2)
  refine ⟨U, ?_, hr⟩
  unfold rot2_U_expand
  rw [guard_list hn hw, hw, hn, hg]
  have h0 : pyGet [((p : ℕ) : ℤ), ((q : ℕ) : ℤ)] 0 = .ok ((p : ℕ) : ℤ) := rfl
  have h1 : pyGet [((p : ℕ) : ℤ), ((q : ℕ) : ℤ)] 1 = .ok ((q : ℕ) : ℤ) := rfl
  have h2 : pyGet [θ] 0 = .ok θ := rfl
  rw [raiseIf_false (by omega)]
  simp only [Wires.asList, h0, h1, h2, Py.ok_bind]
  rw [raiseIf_false (by omega), raiseIf_false hne, pyRep_nat]
  simp only [Py.ok_bind, pySet_ofFn, hU1, hU2, mul_I hs]
  exact hU

theorem swap_rep {g : Gate} {p q : Fin N} (hpq : p ≠ q)
    (hn : g.nqubits = (N : ℤ)) (hw : g.wires = .list [((p : ℕ) : ℤ), ((q : ℕ) : ℤ)]) :
    ∃ U, A.swap_U_expand g = .ok U ∧ Represents U (Spec.swap p q) := by
  have hN : 0 < N := p.pos
  have H : ∀ {a b c d a' b' c' d' : ℂ}, SignM !![a, b; c, d] → SignM !![a', b'; c', d'] → _ :=
    fun {a b c d a' b' c' d'} h h' => multi_kron_rep (A := A) hN _ _ (rep2_update
      (rep2_update rep2_const p (represents2_ofRows a b c d)) q (represents2_ofRows a' b' c' d'))
      (fun i => (signM_update (signM_update signM_const p h) q h' i).rep)
      (fun i _ _ => Or.inl (signM_update (signM_update signM_const p h) q h' i))
  obtain ⟨U1, hU1, hr1⟩ := H (signM_four .one .zero .zero .zero) (signM_four .one .zero .zero .zero)
  obtain ⟨U2, hU2, hr2⟩ := H (signM_four .zero .zero .one .zero) (signM_four .zero .one .zero .zero)
  obtain ⟨U3, hU3, hr3⟩ := H (signM_four .zero .one .zero .zero) (signM_four .zero .zero .one .zero)
  obtain ⟨U4, hU4, hr4⟩ := H (signM_four .zero .zero .zero .one) (signM_four .zero .zero .zero .one)
  have key : ∀ x : Fin 2, x = 0 ∨ x = 1 := by decide
  obtain ⟨V1, hV1, hs1⟩ := addT_rep (A := A) hr1 hr2 (SignM.rep fun a b => by
    simp only [Matrix.add_apply, onEach_two hpq]
    split_ifs
    · rcases key (a p) with h1 | h1 <;> rcases key (b p) with h2 | h2 <;>
        rcases key (a q) with h3 | h3 <;> rcases key (b q) with h4 | h4 <;>
        rw [h1, h2, h3, h4] <;> simp [IsSign]
    · simp [IsSign])
  obtain ⟨V2, hV2, hs2⟩ := addT_rep (A := A) hs1 hr3 (SignM.rep fun a b => by
    simp only [Matrix.add_apply, onEach_two hpq]
    split_ifs
    · rcases key (a p) with h1 | h1 <;> rcases key (b p) with h2 | h2 <;>
        rcases key (a q) with h3 | h3 <;> rcases key (b q) with h4 | h4 <;>
        rw [h1, h2, h3, h4] <;> simp [IsSign]
    · simp [IsSign])
  obtain ⟨V3, hV3, hs3⟩ := addT_rep (A := A) hs2 hr4 (by
    rw [← swap_eq hpq]
    refine SignM.rep fun a b => ?_
    unfold Spec.swap; split_ifs
    exacts [.one, .zero])
  refine ⟨V3, ?_, hs3.congr (swap_eq hpq).symm⟩
  unfold swap_U_expand
  rw [guard_list hn hw, hw, hn]
  have h0 : pyGet [((p : ℕ) : ℤ), ((q : ℕ) : ℤ)] 0 = .ok ((p : ℕ) : ℤ) := rfl
  have h1 : pyGet [((p : ℕ) : ℤ), ((q : ℕ) : ℤ)] 1 = .ok ((q : ℕ) : ℤ) := rfl
  simp only [Wires.asList, h0, h1, Py.ok_bind, pyRep_nat, pySet_ofFn, zero_zero, one_one, zero_one,
    one_zero, hU1, hU2, hU3, hU4, hV1, hV2]
  exact hV3

end Arith

end QTN
