import Verif.Lemmas.RoundGate

/-! # Rounding errors accumulate over the gates of a circuit -/

namespace QTN

open Spec Matrix Complex Finset

variable {N : ℕ}

/-- Rows with at most one entry. -/
def Mono {n : Type} (M : Matrix n n ℂ) : Prop := ∀ a, ∃ c, ∀ d, d ≠ c → M a d = 0

theorem mono_X : Mono Spec.X := fun x => ⟨1 - x, fun y h => by
  fin_cases x <;> fin_cases y <;> simp_all [Spec.X]⟩
theorem mono_Y : Mono Spec.Y := fun x => ⟨1 - x, fun y h => by
  fin_cases x <;> fin_cases y <;> simp_all [Spec.Y]⟩
theorem mono_Z : Mono Spec.Z := fun x => ⟨x, fun y h => by
  fin_cases x <;> fin_cases y <;> simp_all [Spec.Z]⟩
theorem mono_one {n : Type} [DecidableEq n] : Mono (1 : Matrix n n ℂ) := fun x => ⟨x, fun y h => by
  rw [Matrix.one_apply, if_neg (Ne.symm h)]⟩

theorem mono_onQubit (t : Fin N) {M : Mat2} (h : Mono M) : Mono (onQubit t M) := fun a => by
  obtain ⟨y, hy⟩ := h (a t)
  refine ⟨Function.update a t y, fun d hd => ?_⟩
  unfold onQubit
  split_ifs with hc
  · refine hy _ fun e => hd ?_
    funext j
    by_cases hj : j = t
    · subst hj; simp [e]
    · rw [Function.update_of_ne hj, hc j hj]
  · rfl

theorem mono_controlled {cs : List (Fin N)} {t : Fin N} (ht : t ∉ cs) {M : Mat2} (h : Mono M) :
    Mono (controlled cs t M) := fun a => by
  by_cases hk : ∀ k ∈ cs, a k = 1
  · obtain ⟨c, hc⟩ := mono_onQubit t h a
    refine ⟨c, fun d hd => ?_⟩
    unfold controlled
    split_ifs with h'
    · exact hc d hd
    · rw [Matrix.one_apply, if_neg]
      rintro rfl
      exact h' hk
  · refine ⟨a, fun d hd => ?_⟩
    unfold controlled
    split_ifs with h'
    · unfold onQubit
      rw [if_neg]
      intro hc
      refine hk fun k hkc => ?_
      rw [hc k (fun e => ht (e ▸ hkc)), h' k hkc]
    · rw [Matrix.one_apply, if_neg (Ne.symm hd)]

theorem mono_swapOp (p q : Fin N) : Mono (Spec.swap p q) := fun a => by
  refine ⟨a ∘ Equiv.swap p q, fun d hd => ?_⟩
  unfold Spec.swap
  rw [if_neg]
  intro e
  apply hd
  funext j
  simp [e]

theorem signM_swapOp (p q : Fin N) : SignM (Spec.swap p q) := fun a b => by
  unfold Spec.swap
  split_ifs
  exacts [.one, .zero]

/-- A bound for entrywise absolute values. -/
theorem bnd_absOp_of_le {M : QOp N} {k : Bits N → Bits N → ℝ} (h : ∀ a b, ‖M a b‖ ≤ k a b) {c : ℝ}
    (hk : Bnd c (fun a b => ((k a b : ℝ) : ℂ) : QOp N)) : Bnd c (absOp M) := fun v => by
  have hk0 : ∀ a b, 0 ≤ k a b := fun a b => (norm_nonneg _).trans (h a b)
  have h1 := hk (fun a => ((‖v a‖ : ℝ) : ℂ))
  have h2 : norm2 (fun a => ((‖v a‖ : ℝ) : ℂ)) = norm2 v := by unfold norm2; simp
  rw [h2] at h1
  refine (norm2_mono fun a => ?_).trans h1
  have e : ((fun a b => ((k a b : ℝ) : ℂ) : QOp N) *ᵥ fun a => ((‖v a‖ : ℝ) : ℂ)) a =
      ((∑ b, k a b * ‖v b‖ : ℝ) : ℂ) := by
    simp [Matrix.mulVec, dotProduct]
  rw [e, Complex.norm_real, Real.norm_of_nonneg (Finset.sum_nonneg fun b _ => mul_nonneg (hk0 a b) (norm_nonneg _))]
  refine (norm_sum_le _ _).trans (Finset.sum_le_sum fun b _ => ?_)
  rw [norm_mul]
  refine mul_le_mul_of_nonneg_right ?_ (norm_nonneg _)
  unfold absOp
  rw [Complex.norm_real, Real.norm_of_nonneg (norm_nonneg _)]
  exact h a b

namespace Arith

variable {A : Arith}

/-! ## One multiplication -/

/-- The product computed by the routine of `A`. -/
noncomputable def dotOp (A : Arith) (s t : Tensor ℂ) : QOp N :=
  fun a b => A.dot (2 ^ N) (fun x => s.get [enc a, x]) (fun x => t.get [x, enc b])

theorem matmul_rep {s t : Tensor ℂ} {G V : QOp N} (hs : Represents s G) (ht : Represents t V) :
    ∃ r, A.matmul s t = .ok r ∧ Represents r (dotOp A s t : QOp N) := by
  refine ⟨Tensor.ofFn [2 ^ N, 2 ^ N] (fun idx => A.dot (2 ^ N) (fun x => s.get [idx.getD 0 0, x])
    (fun x => t.get [x, idx.getD 1 0])), ?_, rfl, fun a b => ?_⟩
  · unfold matmul
    rw [hs.1, ht.1]
    simp
  · rw [Tensor.get_ofFn (by simp [enc_lt a, enc_lt b])]
    rfl

theorem dotOp_rep (s t : Tensor ℂ) : RepM A (dotOp A s t : QOp N) := fun _ _ => A.dot_rep _ _ _

theorem dotOp_exact {s t : Tensor ℂ} {G V : QOp N} (hs : Represents s G) (ht : Represents t V)
    (hG : SignM G) (hm : Mono G) (hV : RepM A V) : (dotOp A s t : QOp N) = G * V := by
  ext a b
  obtain ⟨c, hc⟩ := hm a
  have h := A.dot_exact (2 ^ N) (fun x => s.get [enc a, x]) (fun x => t.get [x, enc b]) (enc c) (enc_lt c)
    (fun j hj hne => by
      obtain ⟨d, rfl⟩ := exists_enc hj
      left
      rw [hs.2]
      exact hc d fun e => hne (by rw [e]))
    (Or.inl ⟨by rw [hs.2]; exact hG _ _, by rw [ht.2]; exact hV _ _⟩)
  unfold dotOp
  rw [h, hs.2, ht.2, Matrix.mul_apply, Finset.sum_eq_single c]
  · intro d _ hd; rw [hc d hd, zero_mul]
  · intro h; exact absurd (mem_univ _) h

theorem dotOp_err {s t : Tensor ℂ} {G V : QOp N} (hs : Represents s G) (ht : Represents t V)
    (hG : TwoRow G) {B : ℝ} (hB : Bnd B (absOp G)) (b : Bits N) :
    norm2 (fun a => (dotOp A s t : QOp N) a b - (G *ᵥ fun c => V c b) a) ≤
      sumErr A.u 2 * (B * norm2 (fun c => V c b)) := by
  have hγ := sumErr_nonneg A.u_nonneg 2
  have h2 : norm2 (fun c => ((‖V c b‖ : ℝ) : ℂ)) = norm2 (fun c => V c b) := by unfold norm2; simp
  have h3 : ∀ a, ‖(dotOp A s t : QOp N) a b - (G *ᵥ fun c => V c b) a‖ ≤
      ‖((((sumErr A.u 2 : ℝ) : ℂ)) • (absOp G *ᵥ fun c => ((‖V c b‖ : ℝ) : ℂ))) a‖ := by
    intro a
    have hcard : ((range (2 ^ N)).filter (fun k => s.get [enc a, k] ≠ 0)).card ≤ 2 := by
      refine le_trans ?_ (hG a)
      refine le_trans (Finset.card_le_card (t := (univ.filter (fun c => G a c ≠ 0)).image enc) ?_) card_image_le
      intro k hk
      obtain ⟨hk1, hk2⟩ := mem_filter.1 hk
      obtain ⟨c, rfl⟩ := exists_enc (mem_range.1 hk1)
      rw [hs.2] at hk2
      exact mem_image.2 ⟨c, by simpa using hk2, rfl⟩
    have h := dot_err' (A := A) (2 ^ N) (fun x => s.get [enc a, x]) (fun x => t.get [x, enc b]) 2 hcard
    rw [sum_enc, sum_enc] at h
    simp only [hs.2, ht.2] at h
    have e : ((((sumErr A.u 2 : ℝ) : ℂ)) • (absOp G *ᵥ fun c => ((‖V c b‖ : ℝ) : ℂ))) a =
        ((sumErr A.u 2 * ∑ c, ‖G a c‖ * ‖V c b‖ : ℝ) : ℂ) := by
      simp [Matrix.mulVec, dotProduct, absOp]
    rw [e, Complex.norm_real, Real.norm_of_nonneg (mul_nonneg hγ (Finset.sum_nonneg fun _ _ => by positivity))]
    exact h
  refine (norm2_mono h3).trans ?_
  rw [norm2_smul, Complex.norm_real, Real.norm_of_nonneg hγ]
  refine mul_le_mul_of_nonneg_left ?_ hγ
  rw [← h2]
  exact hB _

/-! ## What is known of an expanded gate -/

/-- The computed operator of an instruction: exact, or with the error and size that enter the bound. -/
def Comp (A : Arith) (g : Gate) (ins : Instr N) : Prop :=
  ∃ U G, A.U_expand g = .ok U ∧ Represents U G ∧
    ((ins.exact = true ∧ G = ins.op ∧ SignM G ∧ Mono G) ∨
     (ins.exact = false ∧ TwoRow G ∧ Bnd (Real.sqrt 2 + ins.eps A.u A.δ) (absOp G) ∧
      Bnd (ins.eps A.u A.δ) (G - ins.op)))

theorem onQubit_sub (i : Fin N) (g h : Mat2) : onQubit i g - onQubit i h = onQubit i (g - h) := by
  ext a b; rw [Matrix.sub_apply]; unfold onQubit; split_ifs <;> simp

theorem comp_single {g : Gate} {ins : Instr N} {i : Fin N} {m M : Mat2} (hn : g.nqubits = (N : ℤ))
    (hw : g.wires = .int ((i : ℕ) : ℤ)) (hm : Represents2 g.matrix m) (hr : RepM A m)
    (hU : A.U_expand g = A.single_U_expand g) (hx : ins.exact = false) (hop : ins.op = onQubit i M)
    (hM : IsU2 M) (he : frob (m - M) ≤ ins.eps A.u A.δ) : Comp A g ins := by
  obtain ⟨U, hU', hR⟩ := single_rep (A := A) i hn hw hm hr
  refine ⟨U, _, hU.trans hU', hR, Or.inr ⟨hx, twoRow_onQubit i m, ?_, ?_⟩⟩
  · rw [absOp_onQubit]
    refine (bnd_onQubit i _).mono ?_
    rw [frob_absOp]
    exact (frob_near hM).trans (by linarith)
  · rw [hop, onQubit_sub]
    exact (bnd_onQubit i _).mono he

theorem comp_ctrl {g : Gate} {ins : Instr N} {c t : Fin N} (hct : c ≠ t) {u : Tensor ℂ} {m M : Mat2}
    (hn : g.nqubits = (N : ℤ)) (hw : g.wires = .list [((c : ℕ) : ℤ), ((t : ℕ) : ℤ)])
    (hm : Represents2 u m) (hr : RepM A m)
    (hU : A.U_expand g = A.ctrl_U_expand g u) (hx : ins.exact = false) (hop : ins.op = controlled [c] t M)
    (hM : IsU2 M) (he : frob (m - M) ≤ ins.eps A.u A.δ) : Comp A g ins := by
  obtain ⟨U, hU', hR⟩ := ctrl_rep (A := A) hct hn hw hm hr
  have ht : t ∉ [c] := by simpa using Ne.symm hct
  have h0 := frob_nonneg (m - M)
  have h1 : 1 ≤ Real.sqrt 2 := by rw [Real.one_le_sqrt]; norm_num
  refine ⟨U, _, hU.trans hU', hR, Or.inr ⟨hx, twoRow_controlled _ _ _, ?_, ?_⟩⟩
  · rw [absOp_controlled]
    refine bnd_controlled ht _ (by linarith) ?_
    rw [frob_absOp]
    exact (frob_near hM).trans (by linarith)
  · rw [hop]
    exact (bnd_controlled_sub ht _ _).mono he

theorem absOp_two {p q : Fin N} (hpq : p ≠ q) (P : Mat2) :
    absOp (onQubit p P * onQubit q P) = onQubit p (absOp P) * onQubit q (absOp P) := by
  rw [onQubit_mul_onQubit hpq, onQubit_mul_onQubit hpq]
  ext a b
  rw [onEach_two hpq]
  unfold absOp
  rw [onEach_two hpq]
  split_ifs <;> simp

theorem absOp_X : absOp Spec.X = Spec.X := by
  ext x y; fin_cases x <;> fin_cases y <;> simp [absOp, Spec.X]
theorem absOp_Y : absOp Spec.Y = Spec.X := by
  ext x y; fin_cases x <;> fin_cases y <;> simp [absOp, Spec.X, Spec.Y]
theorem absOp_Z : absOp Spec.Z = 1 := by
  ext x y; fin_cases x <;> fin_cases y <;> simp [absOp, Spec.Z]

theorem comp_rot2 {g : Gate} {ins : Instr N} {p q : Fin N} (hpq : p ≠ q) {P : Tensor ℂ} {m : Mat2} {θ : ℝ}
    (hn : g.nqubits = (N : ℤ)) (hw : g.wires = .list [((p : ℕ) : ℤ), ((q : ℕ) : ℤ)])
    (hg : g.params = [A.fl θ]) (hθ : A.fl θ = θ) (hP : Represents2 P m) (hp : PauliLike m) (hmono : Mono m)
    (hc : mᴴ = m) (h2 : m * m = 1) (habs : IsU2 (absOp m))
    (hU : A.U_expand g = A.rot2_U_expand g P) (hx : ins.exact = false) (hop : ins.op = rot2 m θ p q)
    (he : ins.eps A.u A.δ = 3 * A.δ) : Comp A g ins := by
  obtain ⟨U, hU', hR⟩ := rot2_rep (A := A) hpq hn hw hg hP hp
  obtain ⟨hce, hse⟩ := half_err_rep A hθ
  set c := A.cosR (A.fl (A.fl θ / 2)) with hcd
  set s := A.sinR (A.fl (A.fl θ / 2)) with hsd
  set PP : QOp N := onQubit p m * onQubit q m with hPP
  have hδ := A.δ_nonneg
  have hPPu : IsUnitaryOp PP := isUnitaryOp_of_left (by rw [pp_conj hc hpq, pp_sq h2 hpq])
  have hmonoPP : Mono PP := by
    intro a
    obtain ⟨x, hx⟩ := mono_onQubit p hmono a
    obtain ⟨y, hy⟩ := mono_onQubit q hmono x
    refine ⟨y, fun d hd => ?_⟩
    rw [hPP, Matrix.mul_apply]
    refine Finset.sum_eq_zero fun z _ => ?_
    by_cases hz : z = x
    · rw [hz, hy d hd, mul_zero]
    · rw [hx z hz, zero_mul]
  have hrot : rot2 m θ p q = (real (Real.cos (θ / 2))) • (1 : QOp N) - (I * real (Real.sin (θ / 2))) • PP := rfl
  refine ⟨U, _, hU.trans hU', hR, Or.inr ⟨hx, ?_, ?_, ?_⟩⟩
  · refine twoRow_of fun a => ?_
    obtain ⟨y, hy⟩ := hmonoPP a
    refine ⟨a, y, fun d hd => ?_⟩
    by_contra hne
    push Not at hne
    apply hd
    unfold rot2Hat
    rw [Matrix.sub_apply, Matrix.smul_apply, Matrix.smul_apply, ← hPP, hy d hne.2, Matrix.one_apply,
      if_neg (Ne.symm hne.1)]
    simp
  · have hle : ∀ a b, ‖(rot2Hat m c s p q : QOp N) a b‖ ≤ |c| * (if a = b then 1 else 0) + |s| * ‖PP a b‖ := by
      intro a b
      unfold rot2Hat
      rw [Matrix.sub_apply, Matrix.smul_apply, Matrix.smul_apply, ← hPP]
      refine (norm_sub_le _ _).trans (add_le_add (le_of_eq ?_) (le_of_eq ?_))
      · rw [smul_eq_mul, norm_mul, Matrix.one_apply]
        unfold real
        rw [Complex.norm_real, Real.norm_eq_abs]
        split_ifs <;> simp
      · rw [smul_eq_mul, norm_mul, norm_mul, Complex.norm_I, one_mul]
        unfold real
        rw [Complex.norm_real, Real.norm_eq_abs]
    have hb1 : Bnd (‖((|c| : ℝ) : ℂ)‖ * 1 + ‖((|s| : ℝ) : ℂ)‖ * 1)
        (((|c| : ℝ) : ℂ) • (1 : QOp N) + ((|s| : ℝ) : ℂ) • absOp PP) := by
      refine ((Bnd.unitary isUnitaryOp_one).smul _).add ((Bnd.unitary ?_).smul _)
      rw [hPP, absOp_two hpq]
      exact (onQubit_unitary habs p).mul (onQubit_unitary habs q)
    have e1 : (((|c| : ℝ) : ℂ) • (1 : QOp N) + ((|s| : ℝ) : ℂ) • absOp PP) =
        (fun a b => ((|c| * (if a = b then 1 else 0) + |s| * ‖PP a b‖ : ℝ) : ℂ)) := by
      ext a b
      rw [Matrix.add_apply, Matrix.smul_apply, Matrix.smul_apply, Matrix.one_apply]
      unfold absOp
      by_cases hab : a = b <;> simp [hab]
    rw [e1] at hb1
    refine (bnd_absOp_of_le hle hb1).mono ?_
    rw [Complex.norm_real, Complex.norm_real, Real.norm_of_nonneg (abs_nonneg _),
      Real.norm_of_nonneg (abs_nonneg _), he]
    have h3 : |Real.cos (θ / 2)| + |Real.sin (θ / 2)| ≤ Real.sqrt 2 := by
      apply Real.le_sqrt_of_sq_le
      have := Real.cos_sq_add_sin_sq (θ / 2)
      rw [← sq_abs (Real.cos _), ← sq_abs (Real.sin _)] at this
      nlinarith [sq_nonneg (|Real.cos (θ / 2)| - |Real.sin (θ / 2)|)]
    have h4 := abs_sub_abs_le_abs_sub c (Real.cos (θ / 2))
    have h5 := abs_sub_abs_le_abs_sub s (Real.sin (θ / 2))
    linarith
  · have e1 : rot2Hat m c s p q - ins.op = ((c - Real.cos (θ / 2) : ℝ) : ℂ) • (1 : QOp N) -
        (I * ((s - Real.sin (θ / 2) : ℝ) : ℂ)) • PP := by
      rw [hop, hrot]
      unfold rot2Hat real
      rw [← hPP, Complex.ofReal_sub, Complex.ofReal_sub]
      module
    rw [e1, he]
    refine (((Bnd.unitary isUnitaryOp_one).smul _).sub ((Bnd.unitary hPPu).smul _)).mono ?_
    rw [norm_mul, Complex.norm_I, one_mul, Complex.norm_real, Complex.norm_real, Real.norm_eq_abs, Real.norm_eq_abs]
    linarith

theorem comp_ins (A : Arith) (ins : Instr N) (hw : ins.WF) (hθ : ∀ θ ∈ ins.angles, A.fl θ = θ) :
    ∃ g, A.build ins = .ok g ∧ Comp A g ins := by
  have ex1 : ∀ {P : Tensor ℂ} {m : Mat2} {i : Fin N} {g : Gate} {ins : Instr N}, g.nqubits = (N : ℤ) →
      g.wires = .int ((i : ℕ) : ℤ) → g.matrix = P → A.U_expand g = A.single_U_expand g → Represents2 P m →
      SignM m → Mono m → ins.exact = true → ins.op = onQubit i m → Comp A g ins := by
    intro P m i g ins hn hw hm hU hP hs hmo hx hop
    obtain ⟨U, hU', hR⟩ := single_rep (A := A) i hn hw (by rw [hm]; exact hP) hs.rep
    exact ⟨U, _, hU.trans hU', hR, Or.inl ⟨hx, hop.symm, signM_onQubit i hs, mono_onQubit i hmo⟩⟩
  have ex2 : ∀ {P : Tensor ℂ} {m : Mat2} {c t : Fin N} {g : Gate} {ins : Instr N}, c ≠ t → g.nqubits = (N : ℤ) →
      g.wires = .list [((c : ℕ) : ℤ), ((t : ℕ) : ℤ)] → A.U_expand g = A.ctrl_U_expand g P → Represents2 P m →
      SignM m → Mono m → ins.exact = true → ins.op = controlled [c] t m → Comp A g ins := by
    intro P m c t g ins hct hn hw hU hP hs hmo hx hop
    obtain ⟨U, hU', hR⟩ := ctrl_rep (A := A) hct hn hw hP hs.rep
    exact ⟨U, _, hU.trans hU', hR, Or.inl ⟨hx, hop.symm, signM_controlled _ _ hs, mono_controlled (by simpa using Ne.symm hct) hmo⟩⟩
  cases ins with
  | h i =>
    obtain ⟨t, m, ht, hm, hr, hu, he⟩ := near_h (A := A)
    injection ht with ht
    refine ⟨_, rfl, comp_single (M := Spec.H) rfl rfl (by rw [ht]; exact hm) hr rfl rfl rfl hu ?_⟩
    show _ ≤ 2 * A.u
    linarith
  | x i => exact ⟨_, rfl, ex1 rfl rfl rfl rfl pauliXMat_rep signM_X mono_X rfl rfl⟩
  | y i => exact ⟨_, rfl, ex1 rfl rfl rfl rfl pauliYMat_rep signM_Y mono_Y rfl rfl⟩
  | z i => exact ⟨_, rfl, ex1 rfl rfl rfl rfl pauliZMat_rep signM_Z mono_Z rfl rfl⟩
  | rx θ i =>
    obtain ⟨t, m, ht, hm, hr, hu, he⟩ := near_rot_rep (A := A) pauliXMat_rep pauli_X X_conj X_sq (hθ θ (by simp [Instr.angles]))
    refine ⟨_, by simp only [build, ht, Py.ok_bind]; rfl, comp_single rfl rfl hm hr rfl rfl rfl hu ?_⟩
    show _ ≤ 3 * A.δ
    linarith
  | ry θ i =>
    obtain ⟨t, m, ht, hm, hr, hu, he⟩ := near_rot_rep (A := A) pauliYMat_rep pauli_Y Y_conj Y_sq (hθ θ (by simp [Instr.angles]))
    refine ⟨_, by simp only [build, ht, Py.ok_bind]; rfl, comp_single rfl rfl hm hr rfl rfl rfl hu ?_⟩
    show _ ≤ 3 * A.δ
    linarith
  | rz θ i =>
    obtain ⟨t, m, ht, hm, hr, hu, he⟩ := near_rot_rep (A := A) pauliZMat_rep pauli_Z Z_conj Z_sq (hθ θ (by simp [Instr.angles]))
    refine ⟨_, by simp only [build, ht, Py.ok_bind]; rfl, comp_single rfl rfl hm hr rfl rfl rfl hu ?_⟩
    show _ ≤ 3 * A.δ
    linarith
  | u1 θ i =>
    obtain ⟨t, m, ht, hm, hr, hu, he⟩ := near_u1 (A := A) (hθ θ (by simp [Instr.angles]))
    refine ⟨_, by simp only [build, ht, Py.ok_bind]; rfl, comp_single rfl rfl hm hr rfl rfl rfl hu ?_⟩
    show _ ≤ 2 * ((1 + mulErr A.u) * (1 + 2 * A.δ) ^ 2 - 1)
    linarith
  | u3 θ φ l i =>
    obtain ⟨t, m, ht, hm, hr, hu, he⟩ := near_u3 (A := A) (hθ θ (by simp [Instr.angles]))
      (hθ φ (by simp [Instr.angles])) (hθ l (by simp [Instr.angles]))
    refine ⟨_, by simp only [build, ht, Py.ok_bind]; rfl, comp_single rfl rfl hm hr rfl rfl rfl hu ?_⟩
    show _ ≤ _ - (1 : ℝ)
    linarith
  | rxx θ p q => exact ⟨_, rfl, comp_rot2 hw rfl rfl rfl (hθ θ (by simp [Instr.angles])) pauliXMat_rep pauli_X mono_X
      X_conj X_sq (by rw [absOp_X]; exact X_u2) rfl rfl rfl rfl⟩
  | ryy θ p q => exact ⟨_, rfl, comp_rot2 hw rfl rfl rfl (hθ θ (by simp [Instr.angles])) pauliYMat_rep pauli_Y mono_Y
      Y_conj Y_sq (by rw [absOp_Y]; exact X_u2) rfl rfl rfl rfl⟩
  | rzz θ p q => exact ⟨_, rfl, comp_rot2 hw rfl rfl rfl (hθ θ (by simp [Instr.angles])) pauliZMat_rep pauli_Z mono_Z
      Z_conj Z_sq (by rw [absOp_Z]; exact IsU2.of_left (by simp)) rfl rfl rfl rfl⟩
  | cnot c t => exact ⟨_, rfl, ex2 hw rfl rfl rfl pauliXMat_rep signM_X mono_X rfl rfl⟩
  | cz c t => exact ⟨_, rfl, ex2 hw rfl rfl rfl pauliZMat_rep signM_Z mono_Z rfl rfl⟩
  | cphase θ c t =>
    have hθ' := hθ θ (by simp [Instr.angles])
    obtain ⟨T, m, ht, hm, hr, hu, he⟩ := near_phase (A := A) (θ := θ)
    injection ht with ht
    refine ⟨⟨.cphase, N, .list [wire c, wire t], [A.fl θ], noMat, noMat⟩, rfl,
      comp_ctrl (u := T) hw rfl rfl hm hr ?_ rfl rfl hu ?_⟩
    · rw [← ht]
      unfold U_expand
      simp only
      rw [guard_list (N := N) rfl rfl]
      simp only [Py.ok_bind]
      rw [show pyGet [A.fl θ] 0 = .ok (A.fl θ) from rfl, hθ']
      rfl
    · show _ ≤ 3 * A.δ
      linarith
  | cu3 θ φ l c t =>
    obtain ⟨T, m, ht, hm, hr, hu, he⟩ := near_u3 (A := A) (hθ θ (by simp [Instr.angles]))
      (hθ φ (by simp [Instr.angles])) (hθ l (by simp [Instr.angles]))
    refine ⟨_, by simp only [build, ht, Py.ok_bind]; rfl, comp_ctrl (u := T) hw rfl rfl hm hr rfl rfl rfl hu ?_⟩
    show _ ≤ _ - (1 : ℝ)
    linarith
  | swap p q =>
    obtain ⟨U, hU, hR⟩ := swap_rep (A := A) (g := ⟨.swap, N, .list [wire p, wire q], [], noMat, noMat⟩) hw rfl rfl
    exact ⟨_, rfl, U, _, hU, hR, Or.inl ⟨rfl, rfl, signM_swapOp p q, mono_swapOp p q⟩⟩
  | toffoli a b t =>
    have ht : t ∉ [a, b] := by simp [Ne.symm hw.2.1, Ne.symm hw.2.2]
    obtain ⟨g, hg, hn, hw', hc⟩ : ∃ g, A.build (.toffoli a b t) = .ok g ∧ g.nqubits = (N : ℤ) ∧
        g.wires = .list (wireList ([a, b] ++ [t])) ∧ g.cls = .toffoli := ⟨_, rfl, rfl, rfl, rfl⟩
    obtain ⟨U, hU, hR⟩ := mc_rep (A := A) (by simp) ht hn hw'
    refine ⟨g, hg, U, _, ?_, hR, Or.inl ⟨rfl, rfl, signM_controlled _ _ signM_X, mono_controlled ht mono_X⟩⟩
    unfold U_expand
    rw [hc]
    exact hU
  | mcnot cs t =>
    obtain ⟨g, hg, hn, hw', hc⟩ : ∃ g, A.build (.mcnot cs t) = .ok g ∧ g.nqubits = (N : ℤ) ∧
        g.wires = .list (wireList (cs ++ [t])) ∧ g.cls = .mcnot := by
      refine ⟨⟨.mcnot, N, .list (cs.map wire ++ [wire t]), [], noMat, noMat⟩, ?_, rfl, ?_, rfl⟩
      · simp only [build, mkMcnot, Wires.asList, Py.ok_bind, pyGet_last]
      · simp [wireList, wire]
    obtain ⟨U, hU, hR⟩ := mc_rep (A := A) hw.1 hw.2 hn hw'
    refine ⟨g, hg, U, _, ?_, hR, Or.inl ⟨rfl, rfl, signM_controlled _ _ signM_X, mono_controlled hw.2 mono_X⟩⟩
    unfold U_expand
    rw [hc]
    exact hU

/-! ## Circuits -/

theorem norm2_col {V : QOp N} (hV : IsUnitaryOp V) (b : Bits N) : norm2 (fun a => V a b) = 1 := by
  have e : (fun a => V a b) = V *ᵥ Pi.single b 1 := by
    funext a; simp
  rw [e, norm2_unitary hV, norm2, Finset.sum_eq_single b]
  · simp
  · intro c _ hc; simp [Pi.single_eq_of_ne hc]
  · intro h; exact absurd (mem_univ _) h

theorem step_round {g : Gate} {ins : Instr N} (hw : ins.WF) (hc : Comp A g ins) {acc : Tensor ℂ} {W V : QOp N}
    (hacc : Represents acc W) (hW : RepM A W) (hV : IsUnitaryOp V) {e : ℝ}
    (he : ∀ b, 1 + norm2 (fun a => W a b - V a b) ≤ e) :
    ∃ acc' W', (do A.matmul (← A.U_expand g) acc) = .ok acc' ∧ Represents acc' W' ∧ RepM A W' ∧
      ∀ b, 1 + norm2 (fun a => W' a b - (ins.op * V) a b) ≤ e * (1 + ins.cost A.u A.δ) := by
  obtain ⟨U, G, hU, hR, hG⟩ := hc
  obtain ⟨r, hr, hrep⟩ := matmul_rep (A := A) hR hacc
  refine ⟨r, _, by rw [hU]; exact hr, hrep, dotOp_rep _ _, fun b => ?_⟩
  have hop := instr_unitary ins hw
  have hcol : ∀ M : QOp N, (fun a => (ins.op * M) a b) = ins.op *ᵥ fun c => M c b := by
    intro M; funext a; simp [Matrix.mul_apply, Matrix.mulVec, dotProduct]
  rcases hG with ⟨hx, rfl, hs, hm⟩ | ⟨hx, h2, hB, hE⟩
  · rw [dotOp_exact hR hacc hs hm hW]
    have e1 : (fun a => (ins.op * W) a b - (ins.op * V) a b) = ins.op *ᵥ (fun c => W c b - V c b) := by
      have : (fun a => (ins.op * W) a b - (ins.op * V) a b) =
          (fun a => (ins.op * W) a b) - (fun a => (ins.op * V) a b) := rfl
      rw [this, hcol, hcol, ← Matrix.mulVec_sub]
      rfl
    rw [e1, norm2_unitary hop]
    unfold Instr.cost
    rw [if_pos hx, add_zero, mul_one]
    exact he b
  · have d1 := dotOp_err (A := A) hR hacc h2 hB b
    have d2 := hE (fun c => W c b)
    have d3 : norm2 (ins.op *ᵥ (fun c => W c b - V c b)) = norm2 (fun c => W c b - V c b) := norm2_unitary hop _
    have hn : norm2 (fun c => W c b) ≤ 1 + norm2 (fun c => W c b - V c b) := by
      have := norm2_add_le (fun c => V c b) (fun c => W c b - V c b)
      rw [norm2_col hV] at this
      refine le_trans (le_of_eq ?_) this
      congr 1
      funext c
      simp
    have e1 : (fun a => (dotOp A U acc : QOp N) a b - (ins.op * V) a b) =
        (fun a => (dotOp A U acc : QOp N) a b - (G *ᵥ fun c => W c b) a) +
        (((G - ins.op) *ᵥ fun c => W c b) + ins.op *ᵥ (fun c => W c b - V c b)) := by
      have h3 : (fun a => (dotOp A U acc : QOp N) a b - (ins.op * V) a b) =
          (fun a => (dotOp A U acc : QOp N) a b) - (fun a => (ins.op * V) a b) := rfl
      have h4 : (fun a => (dotOp A U acc : QOp N) a b - (G *ᵥ fun c => W c b) a) =
          (fun a => (dotOp A U acc : QOp N) a b) - (G *ᵥ fun c => W c b) := rfl
      have h5 : (fun c => W c b - V c b) = (fun c => W c b) - (fun c => V c b) := rfl
      rw [h3, h4, h5, hcol, Matrix.mulVec_sub, Matrix.sub_mulVec]
      abel
    have d4 := norm2_add_le (fun a => (dotOp A U acc : QOp N) a b - (G *ᵥ fun c => W c b) a)
      (((G - ins.op) *ᵥ fun c => W c b) + ins.op *ᵥ (fun c => W c b - V c b))
    have d5 := norm2_add_le ((G - ins.op) *ᵥ fun c => W c b) (ins.op *ᵥ (fun c => W c b - V c b))
    rw [← e1] at d4
    have hγ := sumErr_nonneg A.u_nonneg 2
    have hk : ins.cost A.u A.δ = ins.eps A.u A.δ + sumErr A.u 2 * (Real.sqrt 2 + ins.eps A.u A.δ) := by
      unfold Instr.cost
      rw [if_neg (by rw [hx]; simp)]
    set d := norm2 (fun c => W c b - V c b) with hd
    set n := norm2 (fun c => W c b) with hn'
    have hd0 : 0 ≤ d := norm2_nonneg _
    have hk0 : 0 ≤ ins.cost A.u A.δ := by
      have h6 := hE (Pi.single b 1)
      have h7 : norm2 (Pi.single b 1 : QState N) = 1 := by
        have := norm2_col (isUnitaryOp_one (N := N)) b
        rw [← this]; congr 1; funext a
        rw [Matrix.one_apply]
        by_cases hab : a = b
        · subst hab; simp
        · simp [hab]
      rw [h7, mul_one] at h6
      have h8 := (norm2_nonneg _).trans h6
      rw [hk]
      have := Real.sqrt_nonneg 2
      positivity
    have d6 : norm2 (fun a => (dotOp A U acc : QOp N) a b - (ins.op * V) a b) ≤ ins.cost A.u A.δ * n + d := by
      rw [hk]; nlinarith
    have d7 : ins.cost A.u A.δ * n ≤ ins.cost A.u A.δ * (1 + d) := mul_le_mul_of_nonneg_left hn hk0
    have d8 : (1 + d) * (1 + ins.cost A.u A.δ) ≤ e * (1 + ins.cost A.u A.δ) :=
      mul_le_mul_of_nonneg_right (he b) (by linarith)
    nlinarith

theorem circuit_round (A : Arith) (l : List (Instr N)) (hw : ∀ ins ∈ l, ins.WF)
    (hθ : ∀ ins ∈ l, ∀ θ ∈ ins.angles, A.fl θ = θ) {acc : Tensor ℂ} {W V : QOp N}
    (hacc : Represents acc W) (hW : RepM A W) (hV : IsUnitaryOp V) {e : ℝ}
    (he : ∀ b, 1 + norm2 (fun a => W a b - V a b) ≤ e) :
    ∃ gates U W', l.mapM A.build = .ok gates ∧
      gates.foldlM (fun acc g => do A.matmul (← A.U_expand g) acc) acc = .ok U ∧ Represents U W' ∧ RepM A W' ∧
      ∀ b, 1 + norm2 (fun a => W' a b - (timeOrdered (l.map Instr.op) * V) a b) ≤
        e * (l.map (fun ins => 1 + ins.cost A.u A.δ)).prod := by
  induction l generalizing acc W V e with
  | nil => exact ⟨[], acc, W, rfl, rfl, hacc, hW, by simpa using he⟩
  | cons ins l ih =>
    obtain ⟨g, hg, hc⟩ := comp_ins A ins (hw _ (by simp)) (hθ _ (by simp))
    obtain ⟨acc', W', h1, h2, h3, h4⟩ := step_round (hw ins (by simp)) hc hacc hW hV he
    obtain ⟨gates, U, W'', k1, k2, k3, k4, k5⟩ := ih (fun i hi => hw i (by simp [hi]))
      (fun i hi => hθ i (by simp [hi])) h2 h3 ((instr_unitary ins (hw _ (by simp))).mul hV) h4
    refine ⟨g :: gates, U, W'', ?_, ?_, k3, k4, fun b => ?_⟩
    · rw [List.mapM_cons, hg, Py.ok_bind, k1]; rfl
    · rw [List.foldlM_cons, h1]; exact k2
    · have k6 := k5 b
      rw [mul_assoc e] at k6
      rw [List.map_cons, timeOrdered_cons, Matrix.mul_assoc, List.map_cons, List.prod_cons]
      exact k6

end Arith

end QTN
