import Verif.Lemmas.DecompRun
import Verif.SpecAccuracy

/-! # Contracting matrix product states and the effect of a truncation -/

namespace QTN

open Finset Spec Matrix

/-! ## Orthonormal columns -/

section columns
variable {ι : Type} {P : Finset ι} {u : ι → ℕ → ℂ} {D : ℕ}

theorem normSq_ofReal (z : ℂ) : ((‖z‖ ^ 2 : ℝ) : ℂ) = star z * z := by
  rw [show star z = (starRingEnd ℂ) z from rfl, Complex.conj_mul']
  push_cast
  rfl

/-- Orthonormal columns keep the length of a vector. -/
theorem cols_iso (h : ∀ k < D, ∀ q < D, ∑ p ∈ P, star (u p k) * u p q = if k = q then 1 else 0)
    (c : ℕ → ℂ) :
    ∑ p ∈ P, ‖∑ k ∈ range D, u p k * c k‖ ^ 2 = ∑ k ∈ range D, ‖c k‖ ^ 2 := by
  apply Complex.ofReal_injective
  push_cast [Complex.ofReal_sum]
  have e : ∀ p ∈ P, ((‖∑ k ∈ range D, u p k * c k‖ : ℂ)) ^ 2 =
      ∑ k ∈ range D, ∑ q ∈ range D, star (c k) * c q * (star (u p k) * u p q) := by
    intro p _
    rw [← Complex.ofReal_pow, normSq_ofReal, star_sum, Finset.sum_mul_sum]
    refine Finset.sum_congr rfl (fun k _ => Finset.sum_congr rfl (fun q _ => ?_))
    rw [star_mul']
    ring
  rw [Finset.sum_congr rfl e, Finset.sum_comm]
  refine Finset.sum_congr rfl (fun k hk => ?_)
  rw [Finset.sum_comm]
  rw [Finset.sum_congr rfl (fun q hq => by
    rw [← Finset.mul_sum, h k (Finset.mem_range.1 hk) q (Finset.mem_range.1 hq)])]
  rw [Finset.sum_eq_single k]
  · rw [if_pos rfl, mul_one, ← normSq_ofReal]; push_cast; rfl
  · intro q _ hq; rw [if_neg (Ne.symm hq), mul_zero]
  · intro hk'; exact absurd hk hk'

/-- Coefficients along orthonormal columns are no longer than the vector. -/
theorem cols_bessel (h : ∀ k < D, ∀ q < D, ∑ p ∈ P, star (u p k) * u p q = if k = q then 1 else 0)
    (w : ι → ℂ) :
    ∑ k ∈ range D, ‖∑ p ∈ P, star (u p k) * w p‖ ^ 2 ≤ ∑ p ∈ P, ‖w p‖ ^ 2 := by
  set b : ℕ → ℂ := fun k => ∑ p ∈ P, star (u p k) * w p with hb
  have h1 := cols_iso h b
  have h2 : ∑ p ∈ P, star (∑ k ∈ range D, u p k * b k) * w p = ((∑ k ∈ range D, ‖b k‖ ^ 2 : ℝ) : ℂ) := by
    push_cast [Complex.ofReal_sum]
    have : ∀ k ∈ range D, ((‖b k‖ : ℂ)) ^ 2 = ∑ p ∈ P, star (u p k * b k) * w p := by
      intro k _
      rw [← Complex.ofReal_pow, normSq_ofReal]
      conv_lhs => rw [show b k = ∑ p ∈ P, star (u p k) * w p from rfl, Finset.mul_sum]
      refine Finset.sum_congr rfl (fun p _ => ?_)
      rw [star_mul']
      simp only [hb]
      ring
    rw [Finset.sum_congr rfl this, Finset.sum_comm]
    refine Finset.sum_congr rfl (fun p _ => ?_)
    rw [star_sum, Finset.sum_mul]
  have h3 : ∀ p ∈ P, ‖w p - ∑ k ∈ range D, u p k * b k‖ ^ 2 =
      ‖w p‖ ^ 2 + ‖∑ k ∈ range D, u p k * b k‖ ^ 2 -
        2 * (star (∑ k ∈ range D, u p k * b k) * w p).re := by
    intro p _
    generalize ∑ k ∈ range D, u p k * b k = y
    generalize w p = z
    rw [← Complex.normSq_eq_norm_sq, ← Complex.normSq_eq_norm_sq, ← Complex.normSq_eq_norm_sq,
      Complex.normSq_sub]
    simp [Complex.mul_re]
    ring
  have h4 : 0 ≤ ∑ p ∈ P, ‖w p - ∑ k ∈ range D, u p k * b k‖ ^ 2 :=
    Finset.sum_nonneg (fun _ _ => by positivity)
  rw [Finset.sum_congr rfl h3, Finset.sum_sub_distrib, Finset.sum_add_distrib, h1, ← Finset.mul_sum,
    ← Complex.re_sum, h2, Complex.ofReal_re] at h4
  linarith

end columns

/-- A unitary keeps the length of a vector. -/
theorem unitary_iso {k : ℕ} {M : QOp k} (hU : IsUnitaryOp M) (v : Bits k → ℂ) :
    ∑ x, ‖∑ y, M x y * v y‖ ^ 2 = ∑ y, ‖v y‖ ^ 2 := by
  apply Complex.ofReal_injective
  push_cast [Complex.ofReal_sum]
  have e : ∀ x : Bits k, ((‖∑ y, M x y * v y‖ : ℂ)) ^ 2 =
      ∑ y, ∑ z, star (v y) * v z * (star (M x y) * M x z) := by
    intro x
    rw [← Complex.ofReal_pow, normSq_ofReal, star_sum, Finset.sum_mul_sum]
    refine Finset.sum_congr rfl (fun k _ => Finset.sum_congr rfl (fun q _ => ?_))
    rw [star_mul']
    ring
  rw [Finset.sum_congr rfl (fun x _ => e x), Finset.sum_comm]
  refine Finset.sum_congr rfl (fun y _ => ?_)
  rw [Finset.sum_comm]
  have ho : ∀ z, ∑ x, star (M x y) * M x z = if y = z then 1 else 0 := by
    intro z
    have := congrFun (congrFun hU.2 y) z
    rw [Matrix.mul_apply, Matrix.one_apply] at this
    rw [← this]
    rfl
  rw [Finset.sum_congr rfl (fun q _ => by rw [← Finset.mul_sum, ho])]
  rw [Finset.sum_eq_single y]
  · rw [if_pos rfl, mul_one, ← normSq_ofReal]; push_cast; rfl
  · intro q _ hq; rw [if_neg (Ne.symm hq), mul_zero]
  · simp

/-! ## Sums over bit strings -/

/-- Sum over the lists of `n` bits. -/
noncomputable def sumB : ℕ → (List ℕ → ℝ) → ℝ
  | 0, F => F []
  | n + 1, F => ∑ x ∈ range 2, sumB n (fun l => F (x :: l))

theorem sumB_eq (n : ℕ) (F : List ℕ → ℝ) : ∑ a : Bits n, F (bl a) = sumB n F := by
  induction n generalizing F with
  | zero =>
    rw [Fintype.sum_unique]
    rfl
  | succ n ih =>
    rw [← (Fin.consEquiv (fun _ : Fin (n + 1) => Fin 2)).sum_comp, Fintype.sum_prod_type, sumB,
      Finset.sum_range]
    refine Finset.sum_congr rfl (fun x _ => ?_)
    rw [← ih]
    refine Finset.sum_congr rfl (fun y _ => ?_)
    rw [bl_succ]
    rfl

theorem sumB_congr {n : ℕ} {F G : List ℕ → ℝ} (h : ∀ l, l.length = n → F l = G l) :
    sumB n F = sumB n G := by
  induction n generalizing F G with
  | zero => exact h [] rfl
  | succ n ih =>
    exact Finset.sum_congr rfl (fun x _ => ih (fun l hl => h (x :: l) (by simp [hl])))

theorem sumB_mono {n : ℕ} {F G : List ℕ → ℝ} (h : ∀ l, l.length = n → F l ≤ G l) :
    sumB n F ≤ sumB n G := by
  induction n generalizing F G with
  | zero => exact h [] rfl
  | succ n ih =>
    exact Finset.sum_le_sum (fun x _ => ih (fun l hl => h (x :: l) (by simp [hl])))

theorem sumB_add (m n : ℕ) (F : List ℕ → ℝ) :
    sumB (m + n) F = sumB m (fun l => sumB n (fun l' => F (l ++ l'))) := by
  induction m generalizing F with
  | zero => simp [sumB]
  | succ m ih =>
    rw [Nat.succ_add, sumB, sumB]
    exact Finset.sum_congr rfl (fun x _ => ih _)

theorem sumB_sum {α : Type} (n : ℕ) (s : Finset α) (F : α → List ℕ → ℝ) :
    sumB n (fun l => ∑ i ∈ s, F i l) = ∑ i ∈ s, sumB n (F i) := by
  induction n generalizing F with
  | zero => rfl
  | succ n ih =>
    rw [sumB, Finset.sum_congr rfl (fun x _ => ih _), Finset.sum_comm]
    rfl

theorem sumB_comm (m n : ℕ) (F : List ℕ → List ℕ → ℝ) :
    sumB m (fun l => sumB n (F l)) = sumB n (fun l' => sumB m (fun l => F l l')) := by
  induction m generalizing F with
  | zero => rfl
  | succ m ih =>
    rw [sumB, Finset.sum_congr rfl (fun x _ => ih _), ← sumB_sum]
    rfl

theorem sumB_mul (n : ℕ) (a : ℝ) (F : List ℕ → ℝ) : sumB n (fun l => a * F l) = a * sumB n F := by
  induction n generalizing F with
  | zero => rfl
  | succ n ih => rw [sumB, sumB, Finset.mul_sum]; exact Finset.sum_congr rfl (fun x _ => ih _)

theorem sumB_one (F : List ℕ → ℝ) : sumB 1 F = ∑ x ∈ range 2, F [x] := rfl
theorem sumB_two (F : List ℕ → ℝ) : sumB 2 F = ∑ x ∈ range 2, ∑ y ∈ range 2, F [x, y] := rfl
theorem sumB_three (F : List ℕ → ℝ) :
    sumB 3 F = ∑ x ∈ range 2, ∑ y ∈ range 2, ∑ z ∈ range 2, F [x, y, z] := rfl

/-! ## Contracting sites -/

/-- The site is a contraction from its right bond to its physical and left bond. -/
def Contr (t : Tensor ℂ) : Prop :=
  ∀ c : ℕ → ℂ, ∑ x ∈ range 2, ∑ i ∈ range (t.shape.getD 1 0),
    ‖∑ k ∈ range (t.shape.getD 2 0), t.get [x, i, k] * c k‖ ^ 2 ≤
      ∑ k ∈ range (t.shape.getD 2 0), ‖c k‖ ^ 2

theorem Contr.apply {t : Tensor ℂ} (h : Contr t) {l m : ℕ} (hs : t.shape = [2, l, m]) (c : ℕ → ℂ) :
    ∑ x ∈ range 2, ∑ i ∈ range l, ‖∑ k ∈ range m, t.get [x, i, k] * c k‖ ^ 2 ≤
      ∑ k ∈ range m, ‖c k‖ ^ 2 := by
  have := h c
  rw [hs] at this
  exact this

theorem Contr.of {t : Tensor ℂ} {l m : ℕ} (hs : t.shape = [2, l, m])
    (h : ∀ c : ℕ → ℂ, ∑ x ∈ range 2, ∑ i ∈ range l, ‖∑ k ∈ range m, t.get [x, i, k] * c k‖ ^ 2 ≤
      ∑ k ∈ range m, ‖c k‖ ^ 2) : Contr t := by
  intro c
  rw [hs]
  exact h c

theorem chain_contr {ts : List (Tensor ℂ)} {l r : ℕ} (hc : Chain l ts r) (h : ∀ t ∈ ts, Contr t)
    (c : ℕ → ℂ) :
    sumB ts.length (fun xs => ∑ i ∈ range l, ‖∑ k ∈ range r, amp ts xs i k * c k‖ ^ 2) ≤
      ∑ k ∈ range r, ‖c k‖ ^ 2 := by
  induction ts generalizing l with
  | nil =>
    cases hc
    refine le_of_eq (Finset.sum_congr rfl (fun i hi => ?_))
    simp only [amp]
    simp only [ite_mul, one_mul, zero_mul]
    rw [Finset.sum_ite_eq, if_pos hi]
  | cons t ts ih =>
    obtain ⟨-, m, hs, hc'⟩ := hc
    refine le_trans ?_ (ih hc' (fun t ht => h t (by simp [ht])))
    rw [List.length_cons, sumB, ← sumB_sum]
    refine sumB_mono (fun xs _ => ?_)
    refine le_trans (le_of_eq ?_) ((h t (by simp)).apply hs (fun q => ∑ k ∈ range r, amp ts xs q k * c k))
    refine Finset.sum_congr rfl (fun x _ => Finset.sum_congr rfl (fun i _ => ?_))
    congr 2
    simp only [amp_cons hs, Finset.sum_mul, Finset.mul_sum]
    rw [Finset.sum_comm]
    exact Finset.sum_congr rfl (fun _ _ => Finset.sum_congr rfl (fun _ _ => by ring))

theorem sq_sum_le (n : ℕ) (f g : ℕ → ℂ) :
    ‖∑ j ∈ range n, f j * g j‖ ^ 2 ≤ (∑ j ∈ range n, ‖f j‖ ^ 2) * ∑ j ∈ range n, ‖g j‖ ^ 2 := by
  refine le_trans ?_ (Finset.sum_mul_sq_le_sq_mul_sq (range n) (fun j => ‖f j‖) (fun j => ‖g j‖))
  refine pow_le_pow_left₀ (norm_nonneg _) ((norm_sum_le _ _).trans (le_of_eq ?_)) 2
  exact Finset.sum_congr rfl (fun j _ => norm_mul _ _)

theorem chain_contr_one {ts : List (Tensor ℂ)} {l : ℕ} (hc : Chain l ts 1) (h : ∀ t ∈ ts, Contr t) :
    sumB ts.length (fun xs => ∑ i ∈ range l, ‖amp ts xs i 0‖ ^ 2) ≤ 1 := by
  have := chain_contr hc h (fun _ => 1)
  simpa using this

/-- Between contracting sites, numbers at the ends of bonds are not amplified. -/
theorem sandwich_le {pre post : List (Tensor ℂ)} {l r k : ℕ} (hpre : Chain 1 pre l)
    (h1 : ∀ t ∈ pre, Contr t) (hpost : Chain r post 1) (h2 : ∀ t ∈ post, Contr t)
    (E : List ℕ → ℕ → ℕ → ℂ) :
    sumB pre.length (fun xs => sumB k (fun ys => sumB post.length (fun zs =>
      ‖∑ i ∈ range l, ∑ j ∈ range r, amp pre xs 0 i * (E ys i j * amp post zs j 0)‖ ^ 2))) ≤
    sumB k (fun ys => ∑ i ∈ range l, ∑ j ∈ range r, ‖E ys i j‖ ^ 2) := by
  rw [sumB_comm]
  refine sumB_mono (fun ys _ => ?_)
  rw [sumB_comm]
  have hq := chain_contr_one hpost h2
  calc sumB post.length (fun zs => sumB pre.length (fun xs =>
        ‖∑ i ∈ range l, ∑ j ∈ range r, amp pre xs 0 i * (E ys i j * amp post zs j 0)‖ ^ 2))
      ≤ sumB post.length (fun zs => ∑ i ∈ range l, ‖∑ j ∈ range r, E ys i j * amp post zs j 0‖ ^ 2) := by
        refine sumB_mono (fun zs _ => ?_)
        refine le_trans (le_of_eq (sumB_congr (fun xs _ => ?_)))
          (chain_contr hpre h1 (fun i => ∑ j ∈ range r, E ys i j * amp post zs j 0))
        rw [Finset.sum_range_one]
        congr 2
        exact Finset.sum_congr rfl (fun i _ => by rw [Finset.mul_sum])
    _ ≤ sumB post.length (fun zs => (∑ i ∈ range l, ∑ j ∈ range r, ‖E ys i j‖ ^ 2) *
          ∑ j ∈ range r, ‖amp post zs j 0‖ ^ 2) := by
        refine sumB_mono (fun zs _ => ?_)
        rw [Finset.sum_mul]
        exact Finset.sum_le_sum (fun i _ => sq_sum_le r _ _)
    _ = (∑ i ∈ range l, ∑ j ∈ range r, ‖E ys i j‖ ^ 2) *
          sumB post.length (fun zs => ∑ j ∈ range r, ‖amp post zs j 0‖ ^ 2) := sumB_mul _ _ _
    _ ≤ (∑ i ∈ range l, ∑ j ∈ range r, ‖E ys i j‖ ^ 2) * 1 := by
        refine mul_le_mul_of_nonneg_left hq ?_
        exact Finset.sum_nonneg (fun _ _ => Finset.sum_nonneg (fun _ _ => by positivity))
    _ = _ := mul_one _

/-- The bits of a list. -/
def unbl (k : ℕ) (l : List ℕ) : Bits k := fun i => if l.getD i 0 = 0 then 0 else 1

theorem unbl_bl {k : ℕ} (x : Bits k) : unbl k (bl x) = x := by
  funext i
  unfold unbl
  have hl : (i : ℕ) < (bl x).length := by simp
  rw [List.getD_eq_getElem?_getD, List.getElem?_eq_getElem hl, Option.getD_some, bl_getElem]
  have := (x i).isLt
  apply Fin.ext
  split
  · next h => simpa using h.symm
  · next h =>
    have h : ((x ⟨(i : ℕ), by simp⟩ : Fin 2) : ℕ) ≠ 0 := h
    simp only [Fin.val_one]
    show 1 = ((x i : Fin 2) : ℕ)
    change ((x i : Fin 2) : ℕ) ≠ 0 at h
    omega

theorem sandwich_norm {N k l r : ℕ} {pre post : List (Tensor ℂ)} {w : QState N} (hpre : Chain 1 pre l)
    (h1 : ∀ t ∈ pre, Contr t) (hpost : Chain r post 1) (h2 : ∀ t ∈ post, Contr t)
    (hlen : pre.length + (k + post.length) = N) {f : Fin k → Fin N}
    (hf : ∀ i, (f i : ℕ) = pre.length + i) {E : Bits k → ℕ → ℕ → ℂ}
    (hw : ∀ a, w a = ∑ i ∈ range l, ∑ j ∈ range r, amp pre ((bl a).take pre.length) 0 i *
      (E (a ∘ f) i j * amp post ((bl a).drop (pre.length + k)) j 0)) :
    ∑ a, ‖w a‖ ^ 2 ≤ ∑ x : Bits k, ∑ i ∈ range l, ∑ j ∈ range r, ‖E x i j‖ ^ 2 := by
  have hinj := inj_of_val hf
  set G : List ℕ → ℝ := fun xs => ‖∑ i ∈ range l, ∑ j ∈ range r, amp pre (xs.take pre.length) 0 i *
      (E (unbl k ((xs.drop pre.length).take k)) i j * amp post (xs.drop (pre.length + k)) j 0)‖ ^ 2 with hG
  have e1 : ∀ a, ‖w a‖ ^ 2 = G (bl a) := by
    intro a
    rw [hw a, hG]
    have e : bl a = (bl a).take pre.length ++ bl (a ∘ f) ++ (bl a).drop (pre.length + k) := by
      rw [← bl_extend hf, extend_self hinj (fun _ _ => rfl)]
    have e2 : ((bl a).drop pre.length).take k = bl (a ∘ f) := by
      conv_lhs => rw [e]
      rw [List.append_assoc, List.drop_append_of_le_length (by simp; omega),
        List.drop_eq_nil_of_le (by simp), List.nil_append, List.take_append_of_le_length (by simp),
        List.take_of_length_le (by simp)]
    beta_reduce
    rw [e2, unbl_bl]
  rw [Finset.sum_congr rfl (fun a _ => e1 a), sumB_eq, ← hlen, sumB_add]
  have e2 : ∑ x : Bits k, ∑ i ∈ range l, ∑ j ∈ range r, ‖E x i j‖ ^ 2 =
      sumB k (fun ys => ∑ i ∈ range l, ∑ j ∈ range r, ‖E (unbl k ys) i j‖ ^ 2) := by
    rw [← sumB_eq]
    exact Finset.sum_congr rfl (fun x _ => by rw [unbl_bl])
  rw [e2]
  refine le_trans (le_of_eq ?_) (sandwich_le hpre h1 hpost h2 (fun ys => E (unbl k ys)))
  refine sumB_congr (fun xs hx => ?_)
  rw [sumB_add]
  refine sumB_congr (fun ys hy => sumB_congr (fun zs hz => ?_))
  rw [hG]
  beta_reduce
  rw [List.take_append_of_le_length (by omega), List.take_of_length_le (by omega),
    List.drop_append_of_le_length (by omega), List.drop_eq_nil_of_le (by omega), List.nil_append,
    List.take_append_of_le_length (by omega), List.take_of_length_le (by omega)]
  have : (xs ++ (ys ++ zs)).drop (pre.length + k) = zs := by
    rw [← List.append_assoc, List.drop_append_of_le_length (by simp; omega),
      List.drop_eq_nil_of_le (by simp; omega), List.nil_append]
  rw [this]

/-- The amplitudes of a matrix product state after an operator on neighbouring sites. -/
theorem embed_amp {N k l r : ℕ} {pre mid post : List (Tensor ℂ)} {v : QState N}
    (h : IsMPS (pre ++ (mid ++ post)) v) (hpre : Chain 1 pre l) (hmid : Chain l mid r)
    (hk : mid.length = k) {f : Fin k → Fin N} (hf : ∀ i, (f i : ℕ) = pre.length + i) (M : QOp k)
    (a : Bits N) :
    (embed f M *ᵥ v) a = ∑ i ∈ range l, ∑ j ∈ range r, amp pre ((bl a).take pre.length) 0 i *
      ((∑ y : Bits k, M (a ∘ f) y * amp mid (bl y) i j) *
        amp post ((bl a).drop (pre.length + k)) j 0) := by
  have hinj := inj_of_val hf
  have hlen : pre.length + (k + post.length) = N := by
    have := h.1; simp [hk] at this; exact this
  rw [embed_mulVec hinj]
  have key : ∀ x : Bits k,
      amp (pre ++ (mid ++ post)) (bl (Function.extend f x a)) 0 0 =
        ∑ i ∈ range l, ∑ j ∈ range r, amp pre ((bl a).take pre.length) 0 i *
          (amp mid (bl x) i j * amp post ((bl a).drop (pre.length + k)) j 0) := by
    intro x
    rw [bl_extend hf, List.append_assoc, amp_append hpre _ (by simp; omega) _ (by omega)]
    apply Finset.sum_congr rfl
    intro i hi
    rw [amp_append hmid _ (by simp [hk]) _ (Finset.mem_range.1 hi), Finset.mul_sum]
  simp only [← h.2.2, key]
  have e1 : ∀ i ∈ range l, ∀ j ∈ range r, amp pre ((bl a).take pre.length) 0 i *
      ((∑ y : Bits k, M (a ∘ f) y * amp mid (bl y) i j) * amp post ((bl a).drop (pre.length + k)) j 0) =
      ∑ y : Bits k, M (a ∘ f) y * (amp pre ((bl a).take pre.length) 0 i *
      (amp mid (bl y) i j * amp post ((bl a).drop (pre.length + k)) j 0)) := by
    intro i _ j _
    rw [Finset.sum_mul, Finset.mul_sum]
    apply Finset.sum_congr rfl
    intro y _
    ring
  rw [Finset.sum_congr rfl (fun i hi => Finset.sum_congr rfl (fun j hj => e1 i hi j hj))]
  simp only [Finset.mul_sum]
  rw [Finset.sum_comm]
  exact Finset.sum_congr rfl (fun i _ => Finset.sum_comm)

theorem norm2_sq {N : ℕ} (v : QState N) : norm2 v ^ 2 = ∑ a, ‖v a‖ ^ 2 :=
  Real.sq_sqrt (Finset.sum_nonneg (fun _ _ => by positivity))

/-- Replacing neighbouring contracting sites: the state moves by no more than the numbers replaced. -/
theorem replace_err {N k l r : ℕ} {pre mid mid' post : List (Tensor ℂ)} {v : QState N}
    (h : IsMPS (pre ++ (mid ++ post)) v) (hpre : Chain 1 pre l) (hmid : Chain l mid r)
    (hpost : Chain r post 1) (h1 : ∀ t ∈ pre, Contr t) (h2 : ∀ t ∈ post, Contr t)
    (hmid' : Chain l mid' r) (hk : mid.length = k) (hk' : mid'.length = k)
    {f : Fin k → Fin N} (hf : ∀ i, (f i : ℕ) = pre.length + i) {M : QOp k} :
    ∃ v', IsMPS (pre ++ (mid' ++ post)) v' ∧ dist2 v' (embed f M *ᵥ v) ≤
      Real.sqrt (∑ x : Bits k, ∑ i ∈ range l, ∑ j ∈ range r,
        ‖amp mid' (bl x) i j - ∑ y : Bits k, M x y * amp mid (bl y) i j‖ ^ 2) := by
  have hlen : pre.length + (k + post.length) = N := by
    have := h.1; simp [hk] at this; exact this
  have hm' : IsMPS (pre ++ (mid' ++ post)) (fun a : Bits N => amp (pre ++ (mid' ++ post)) (bl a) 0 0) :=
    ⟨by simp [hk']; exact hlen, chain_append hpre (chain_append hmid' hpost), fun _ => rfl⟩
  refine ⟨_, hm', Real.sqrt_le_sqrt ?_⟩
  refine sandwich_norm (w := fun a => amp (pre ++ (mid' ++ post)) (bl a) 0 0 - (embed f M *ᵥ v) a)
    hpre h1 hpost h2 hlen hf (E := fun x i j => amp mid' (bl x) i j -
      ∑ y : Bits k, M x y * amp mid (bl y) i j) (fun a => ?_)
  have e := embed_amp hm' hpre hmid' hk' hf 1 a
  rw [embed_one, Matrix.one_mulVec] at e
  rw [e, embed_amp h hpre hmid hk hf M a, ← Finset.sum_sub_distrib]
  refine Finset.sum_congr rfl (fun i _ => ?_)
  rw [← Finset.sum_sub_distrib]
  refine Finset.sum_congr rfl (fun j _ => ?_)
  have : ∑ y : Bits k, (1 : QOp k) (a ∘ f) y * amp mid' (bl y) i j = amp mid' (bl (a ∘ f)) i j := by
    rw [Finset.sum_eq_single (a ∘ f)]
    · simp
    · intro b _ hb; rw [Matrix.one_apply_ne (Ne.symm hb), zero_mul]
    · simp
  rw [this]
  ring

/-- A state is no longer than the numbers at neighbouring contracting sites. -/
theorem norm_le_merged {N k l r : ℕ} {pre mid post : List (Tensor ℂ)} {v : QState N}
    (h : IsMPS (pre ++ (mid ++ post)) v) (hpre : Chain 1 pre l) (hmid : Chain l mid r)
    (hpost : Chain r post 1) (h1 : ∀ t ∈ pre, Contr t) (h2 : ∀ t ∈ post, Contr t)
    (hk : mid.length = k) {f : Fin k → Fin N} (hf : ∀ i, (f i : ℕ) = pre.length + i) {M : QOp k} :
    norm2 (embed f M *ᵥ v) ≤ Real.sqrt (∑ x : Bits k, ∑ i ∈ range l, ∑ j ∈ range r,
        ‖∑ y : Bits k, M x y * amp mid (bl y) i j‖ ^ 2) := by
  have hlen : pre.length + (k + post.length) = N := by
    have := h.1; simp [hk] at this; exact this
  exact Real.sqrt_le_sqrt (sandwich_norm hpre h1 hpost h2 hlen hf (fun a => embed_amp h hpre hmid hk hf M a))

/-- The merged numbers of contracting sites contract. -/
theorem merged_contr {k l r : ℕ} {mid : List (Tensor ℂ)} (hmid : Chain l mid r) (hc : ∀ t ∈ mid, Contr t)
    (hk : mid.length = k) {M : QOp k} (hU : IsUnitaryOp M) (c : ℕ → ℂ) :
    ∑ x : Bits k, ∑ i ∈ range l, ‖∑ j ∈ range r, (∑ y, M x y * amp mid (bl y) i j) * c j‖ ^ 2 ≤
      ∑ j ∈ range r, ‖c j‖ ^ 2 := by
  subst hk
  refine le_trans (le_of_eq ?_) (chain_contr hmid hc c)
  rw [← sumB_eq, Finset.sum_comm, Finset.sum_comm (t := range l)]
  refine Finset.sum_congr rfl (fun i _ => ?_)
  refine Eq.trans (Finset.sum_congr rfl (fun x _ => ?_))
    (unitary_iso hU (fun y => ∑ j ∈ range r, amp mid (bl y) i j * c j))
  congr 2
  simp only [Finset.sum_mul, Finset.mul_sum]
  rw [Finset.sum_comm]
  exact Finset.sum_congr rfl (fun _ _ => Finset.sum_congr rfl (fun _ _ => by ring))

/-- The state of contracting sites has norm at most one. -/
theorem contr_norm {N : ℕ} {mps : List (Tensor ℂ)} {v : QState N} (h : IsMPS mps v)
    (hc : ∀ t ∈ mps, Contr t) : norm2 v ≤ 1 := by
  unfold norm2
  refine Real.sqrt_le_one.2 ?_
  have := chain_contr_one h.2.1 hc
  rw [h.1, ← sumB_eq] at this
  refine le_trans (le_of_eq (Finset.sum_congr rfl (fun a _ => ?_))) this
  rw [Finset.sum_range_one, h.2.2]

end QTN
