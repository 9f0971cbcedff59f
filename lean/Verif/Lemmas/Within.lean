import Verif.Lemmas.Contr
import Verif.Lemmas.MpsCircuit

/-! # Evolution of contracting matrix product states with truncation -/

namespace QTN

open Finset Spec Matrix

variable {N : ℕ}

/-! ## Distances -/

theorem norm2_eq (v : QState N) : norm2 v = ‖(WithLp.toLp 2 v : EuclideanSpace ℂ (Bits N))‖ := by
  rw [EuclideanSpace.norm_eq]; rfl

theorem dist2_eq (v w : QState N) : dist2 v w = norm2 (v - w) := rfl

theorem norm2_nonneg (v : QState N) : 0 ≤ norm2 v := Real.sqrt_nonneg _

theorem norm2_add_le (v w : QState N) : norm2 (v + w) ≤ norm2 v + norm2 w := by
  simp only [norm2_eq]
  exact norm_add_le (WithLp.toLp 2 v : EuclideanSpace ℂ (Bits N)) (WithLp.toLp 2 w)

theorem dist2_triangle (u v w : QState N) : dist2 u w ≤ dist2 u v + dist2 v w := by
  simp only [dist2_eq]
  have := norm2_add_le (u - v) (v - w)
  rwa [sub_add_sub_cancel] at this

theorem dist2_comm (v w : QState N) : dist2 v w = dist2 w v := by
  unfold dist2
  congr 1
  exact Finset.sum_congr rfl (fun a _ => by rw [norm_sub_rev])

theorem norm2_unitary {M : QOp N} (hU : IsUnitaryOp M) (v : QState N) : norm2 (M *ᵥ v) = norm2 v := by
  unfold norm2
  rw [← unitary_iso hU v]
  rfl

theorem dist2_unitary {M : QOp N} (hU : IsUnitaryOp M) (v w : QState N) :
    dist2 (M *ᵥ v) (M *ᵥ w) = dist2 v w := by
  rw [dist2_eq, dist2_eq, ← Matrix.mulVec_sub, norm2_unitary hU]

theorem norm2_le_dist (v w : QState N) : norm2 v ≤ norm2 w + dist2 w v := by
  rw [dist2_comm, dist2_eq]
  have := norm2_add_le w (v - w)
  rwa [add_sub_cancel] at this

theorem truncLoss_append (svd : SVDOracle) (s As Bs : List (Tensor ℂ)) :
    truncLoss svd s (As ++ Bs) = truncLoss svd s As + truncLoss svd (s ++ As) Bs := by
  induction As generalizing s with
  | nil => simp [truncLoss]
  | cons A As ih =>
    rw [List.cons_append, truncLoss, truncLoss, ih, List.append_assoc, List.singleton_append]
    ring

theorem truncLoss_one (svd : SVDOracle) (s : List (Tensor ℂ)) (A : Tensor ℂ) :
    truncLoss svd s [A] = cutLoss (svd s A).S := by simp [truncLoss]

theorem truncLoss_two (svd : SVDOracle) (s : List (Tensor ℂ)) (A B : Tensor ℂ) :
    truncLoss svd s [A, B] = cutLoss (svd s A).S + cutLoss (svd (s ++ [A]) B).S := by simp [truncLoss]

theorem embed_unitary {k : ℕ} {f : Fin k → Fin N} (hf : Function.Injective f) {M : QOp k}
    (hU : IsUnitaryOp M) : IsUnitaryOp (embed f M) := by
  have e : (embed f M)ᴴ = embed f Mᴴ := by
    ext a b
    simp only [Matrix.conjTranspose_apply, embed]
    by_cases h : ∀ j, (∀ i, f i ≠ j) → b j = a j
    · rw [if_pos h, if_pos (fun j hj => (h j hj).symm)]
    · rw [if_neg h, if_neg (fun h' => h (fun j hj => (h' j hj).symm)), star_zero]
  constructor
  · rw [e, embed_mul hf, hU.1, embed_one]
  · rw [e, embed_mul hf, hU.2, embed_one]

/-! ## The predicate -/

/-- `f` acts as `M` up to what its decompositions discard, on contracting matrix product states; if it
raises, the whole state has been discarded. -/
def Within (svd : SVDOracle) (f : List (Tensor ℂ) → TNM (List (Tensor ℂ))) (M : QOp N) (c : ℕ) : Prop :=
  IsUnitaryOp M ∧ ∀ mps v s, IsMPS mps v → (∀ t ∈ mps, Contr t) →
    (∃ mps' As v', f mps s = (.ok mps', s ++ As) ∧ As.length = c ∧ IsMPS mps' v' ∧
      (∀ t ∈ mps', Contr t) ∧ dist2 v' (M *ᵥ v) ≤ truncLoss svd s As) ∨
    (∃ As, f mps s = (.error .runtimeError, s ++ As) ∧ As.length ≤ c ∧ norm2 v ≤ truncLoss svd s As)

theorem dist2_self (v : QState N) : dist2 v v = 0 := by simp [dist2]

theorem within_nop (svd : SVDOracle) : Within (N := N) svd (fun mps => pure mps) 1 0 := by
  refine ⟨⟨by simp, by simp⟩, fun mps v s h hc => .inl ⟨mps, [], v, ?_, rfl, h, hc, ?_⟩⟩
  · rw [List.append_nil]; rfl
  · rw [Matrix.one_mulVec, dist2_self]; exact le_refl _

theorem within_comp {svd : SVDOracle} {f g : List (Tensor ℂ) → TNM (List (Tensor ℂ))} {M M' : QOp N}
    {c c' : ℕ} (hf : Within svd f M c) (hg : Within svd g M' c') :
    Within svd (fun mps => f mps >>= g) (M' * M) (c + c') := by
  refine ⟨?_, fun mps v s h hc => ?_⟩
  · obtain ⟨⟨a, b⟩, -⟩ := hf
    obtain ⟨⟨a', b'⟩, -⟩ := hg
    constructor
    · rw [Matrix.conjTranspose_mul, Matrix.mul_assoc, ← Matrix.mul_assoc M, a, Matrix.one_mul, a']
    · rw [Matrix.conjTranspose_mul, Matrix.mul_assoc, ← Matrix.mul_assoc M'ᴴ, b', Matrix.one_mul, b]
  · change (∃ mps' As v', (f mps >>= g) s = _ ∧ _) ∨ (∃ As, (f mps >>= g) s = _ ∧ _)
    rcases hf.2 mps v s h hc with ⟨mps1, As, v1, e1, l1, h1, hc1, d1⟩ | ⟨As, e1, l1, d1⟩
    · rcases hg.2 mps1 v1 (s ++ As) h1 hc1 with ⟨mps2, Bs, v2, e2, l2, h2, hc2, d2⟩ | ⟨Bs, e2, l2, d2⟩
      · refine .inl ⟨mps2, As ++ Bs, v2, ?_, by simp [l1, l2], h2, hc2, ?_⟩
        · rw [TNM.bind_ok e1, e2, List.append_assoc]
        · rw [truncLoss_append, ← Matrix.mulVec_mulVec]
          have := dist2_triangle v2 (M' *ᵥ v1) (M' *ᵥ (M *ᵥ v))
          rw [dist2_unitary hg.1] at this
          linarith
      · refine .inr ⟨As ++ Bs, ?_, by simp [l1]; omega, ?_⟩
        · rw [TNM.bind_ok e1, e2, List.append_assoc]
        · rw [truncLoss_append]
          have := norm2_le_dist (M *ᵥ v) v1
          rw [norm2_unitary hf.1] at this
          linarith
    · exact .inr ⟨As, TNM.bind_error e1 _, by omega, d1⟩

/-! ## One site -/

theorem einsum_site {G t : Tensor ℂ} {l r : ℕ} (hG : G.shape = [2, 2]) (ht : t.shape = [2, l, r]) :
    ∃ t', Tensor.einsum_ab_bcd G t = .ok t' ∧ t'.shape = [2, l, r] ∧ ∀ x i k, x < 2 → i < l → k < r →
      t'.get [x, i, k] = ∑ y ∈ range 2, G.get [x, y] * t.get [y, i, k] := by
  refine ⟨Tensor.ofFn [2, l, r] (fun idx =>
      ∑ x ∈ range 2, G.get [idx.getD 0 0, x] * t.get [x, idx.getD 1 0, idx.getD 2 0]), ?_, rfl, ?_⟩
  · unfold Tensor.einsum_ab_bcd
    rw [hG, ht]
    simp
  · intro x i k hx hi hk
    rw [Tensor.get_ofFn (by inb)]
    rfl

theorem u2_cols {G : Tensor ℂ} {m : Mat2} (hG : Represents2 G m) (hU : IsU2 m) :
    ∀ k < 2, ∀ q < 2, ∑ p ∈ range 2, star (G.get [p, k]) * G.get [p, q] = if k = q then 1 else 0 := by
  intro k hk q hq
  have h := congrFun (congrFun hU.2 ⟨k, hk⟩) ⟨q, hq⟩
  rw [Matrix.mul_apply, Matrix.one_apply] at h
  simp only [Matrix.conjTranspose_apply, ← hG.2, Fin.mk.injEq] at h
  rw [← h, Finset.sum_range]

theorem contr_site {G t t' : Tensor ℂ} {m : Mat2} {l r : ℕ} (hG : Represents2 G m) (hU : IsU2 m)
    (ht : t.shape = [2, l, r]) (hc : Contr t) (e : Tensor.einsum_ab_bcd G t = .ok t') : Contr t' := by
  obtain ⟨t'', e', st, gt⟩ := einsum_site hG.1 ht
  rw [e] at e'
  cases e'
  refine Contr.of st (fun c => le_trans (le_of_eq ?_) (hc.apply ht c))
  rw [Finset.sum_comm, Finset.sum_comm (t := range l)]
  refine Finset.sum_congr rfl (fun i hi => ?_)
  rw [← cols_iso (u2_cols hG hU) (fun y => ∑ k ∈ range r, t.get [y, i, k] * c k)]
  refine Finset.sum_congr rfl (fun x hx => ?_)
  congr 2
  simp only [Finset.mul_sum]
  rw [Finset.sum_comm]
  refine Finset.sum_congr rfl (fun k hk => ?_)
  rw [gt x i k (Finset.mem_range.1 hx) (Finset.mem_range.1 hi) (Finset.mem_range.1 hk), Finset.sum_mul]
  exact Finset.sum_congr rfl (fun _ _ => by ring)

theorem within_site (svd : SVDOracle) (i : Fin N) {G : Tensor ℂ} {m : Mat2} (hG : Represents2 G m)
    (hU : IsU2 m) :
    Within svd (fun mps => TNM.lift (siteStep G ((i : ℕ) : ℤ) mps)) (onQubit i m) 0 := by
  refine ⟨onQubit_unitary hU i, fun mps v s h hc => .inl ?_⟩
  have hlen : (i : ℕ) < mps.length := by rw [h.1]; exact i.isLt
  obtain ⟨t, t', e1, e2, e3, h'⟩ := site_ok hG h i
  refine ⟨mps.set i t', [], _, ?_, rfl, h', ?_, ?_⟩
  · show (siteStep G ((i : ℕ) : ℤ) mps, s) = _
    unfold siteStep
    rw [e1, Py.ok_bind, e2, Py.ok_bind, e3, List.append_nil]
  · rw [pyGet_nat hlen] at e1
    have et : mps[(i : ℕ)] = t := Except.ok.inj e1
    have hst : ∃ l r, t.shape = [2, l, r] := by
      obtain ⟨pre, t0, post, hm, hp⟩ := split_at hlen
      obtain ⟨l, hpre, hch⟩ := chain_split (hm ▸ h.2.1)
      obtain ⟨hl, r, ht, hpost⟩ := hch
      refine ⟨l, r, ?_⟩
      rw [← et]
      have : mps[(i : ℕ)] = t0 := by
        simp only [hm]
        simp [← hp]
      rw [this, ht]
    obtain ⟨l, r, ht⟩ := hst
    intro u hu
    rcases List.mem_or_eq_of_mem_set hu with hu | rfl
    · exact hc u hu
    · exact contr_site hG hU ht (hc t (et ▸ List.getElem_mem _)) e2
  · rw [dist2_self]; exact le_refl _

/-! ## Two sites -/

theorem applyTwo_run {svd : SVDOracle} {G A B t : Tensor ℂ} {pre post : List (Tensor ℂ)} {i : ℕ}
    (hp : pre.length = i) (et : Gate.mergeTwo A B G = .ok t) (s : List (Tensor ℂ)) :
    (∀ a b s', TensorDecompAfterTwoQbitGate svd t s = (.ok (a, b), s') →
      Gate.applyTwo svd G (pre ++ ([A, B] ++ post)) (i : ℤ) s = (.ok (pre ++ ([a, b] ++ post)), s')) ∧
    (∀ e s', TensorDecompAfterTwoQbitGate svd t s = (.error e, s') →
      Gate.applyTwo svd G (pre ++ ([A, B] ++ post)) (i : ℤ) s = (.error e, s')) := by
  have hi : i + 1 < (pre ++ ([A, B] ++ post)).length := by simp; omega
  have g0 : pyGet (pre ++ ([A, B] ++ post)) (i : ℤ) = .ok A := by
    rw [pyGet_nat (by omega)]; simp [← hp]
  have g1 : pyGet (pre ++ ([A, B] ++ post)) ((i : ℤ) + 1) = .ok B := by
    rw [show (i : ℤ) + 1 = ((i + 1 : ℕ) : ℤ) by push_cast; ring, pyGet_nat hi]; simp [← hp]
  constructor
  · intro a b s' e
    unfold Gate.applyTwo
    rw [g0, TNM.lift_ok_bind, g1, TNM.lift_ok_bind, et, TNM.lift_ok_bind, TNM.bind_ok e]
    show ((liftM (pySet (pre ++ ([A, B] ++ post)) (i : ℤ) a) : TNM _) >>= _) _ = _
    have p0 : pySet (pre ++ ([A, B] ++ post)) (i : ℤ) a = .ok (pre ++ ([a, B] ++ post)) := by
      rw [pySet_nat (by omega), ← hp, List.set_append_right _ _ (le_refl _)]; simp
    have p1 : pySet (pre ++ ([a, B] ++ post)) ((i : ℤ) + 1) b = .ok (pre ++ ([a, b] ++ post)) := by
      rw [show (i : ℤ) + 1 = ((i + 1 : ℕ) : ℤ) by push_cast; ring, pySet_nat (by simpa using hi), ← hp,
        List.set_append_right _ _ (by omega)]; simp
    rw [p0, TNM.lift_ok_bind, p1, TNM.lift_apply]
  · intro e s' h
    unfold Gate.applyTwo
    rw [g0, TNM.lift_ok_bind, g1, TNM.lift_ok_bind, et, TNM.lift_ok_bind, TNM.bind_error h]

/-- Orthonormal columns of a site make it a contraction. -/
theorem contr_iso {a : Tensor ℂ} {l D : ℕ} (sa : a.shape = [2, l, D])
    (h : ∀ k q, k < D → q < D →
      ∑ x ∈ range 2, ∑ i ∈ range l, star (a.get [x, i, k]) * a.get [x, i, q] = if k = q then 1 else 0) :
    Contr a := by
  refine Contr.of sa (fun c => le_of_eq ?_)
  have := cols_iso (P := range 2 ×ˢ range l) (u := fun p k => a.get [p.1, p.2, k]) (D := D) (by
    intro k hk q hq
    rw [Finset.sum_product]
    exact h k q hk hq) c
  rw [Finset.sum_product] at this
  exact this

/-- Coefficients along the orthonormal columns of a site. -/
theorem contr_coeff {a : Tensor ℂ} {l D : ℕ} (h : ∀ k q, k < D → q < D →
      ∑ x ∈ range 2, ∑ i ∈ range l, star (a.get [x, i, k]) * a.get [x, i, q] = if k = q then 1 else 0)
    (w : ℕ → ℕ → ℂ) :
    ∑ k ∈ range D, ‖∑ x ∈ range 2, ∑ i ∈ range l, star (a.get [x, i, k]) * w x i‖ ^ 2 ≤
      ∑ x ∈ range 2, ∑ i ∈ range l, ‖w x i‖ ^ 2 := by
  have := cols_bessel (P := range 2 ×ˢ range l) (u := fun p k => a.get [p.1, p.2, k]) (D := D) (by
    intro k hk q hq
    rw [Finset.sum_product]
    exact h k q hk hq) (fun p => w p.1 p.2)
  simp only [Finset.sum_product] at this
  exact this

theorem sum_bits2_range (F : ℕ → ℕ → ℝ) :
    ∑ x : Bits 2, F (x 0 : ℕ) (x 1 : ℕ) = ∑ x ∈ range 2, ∑ y ∈ range 2, F x y := by
  refine Eq.trans ?_ (sumB_two (fun l => F (l.getD 0 0) (l.getD 1 0)))
  rw [← sumB_eq]
  rfl

theorem sum_bits3_range (F : ℕ → ℕ → ℕ → ℝ) :
    ∑ x : Bits 3, F (x 0 : ℕ) (x 1 : ℕ) (x 2 : ℕ) =
      ∑ x ∈ range 2, ∑ y ∈ range 2, ∑ z ∈ range 2, F x y z := by
  refine Eq.trans ?_ (sumB_three (fun l => F (l.getD 0 0) (l.getD 1 0) (l.getD 2 0)))
  rw [← sumB_eq]
  rfl

theorem within_two {svd : SVDOracle} (hv : ValidSVD svd) {G : Tensor ℂ} {M : QOp 2}
    (hG : Represents G M) (hU : IsUnitaryOp M) {f : Fin 2 → Fin N} {i : ℕ}
    (hf : ∀ j, (f j : ℕ) = i + j) :
    Within svd (fun mps => Gate.applyTwo svd G mps (i : ℤ)) (embed f M) 1 := by
  have hinj := inj_of_val hf
  refine ⟨embed_unitary hinj hU, fun mps v s h hcon => ?_⟩
  have hi : i + 1 < mps.length := by
    have h1 := hf 1
    have h2 := (f 1).isLt
    rw [h.1]
    simp at h1
    omega
  obtain ⟨pre, A, B, post, rfl, hp⟩ := split_at2 hi
  obtain ⟨l, hpre, hc⟩ := chain_split h.2.1
  obtain ⟨r, hmid, hpost⟩ := chain_split hc
  have hr := chain_pos hpost (by omega)
  have hmid0 := hmid
  obtain ⟨hl, m, hA, hm, r', hB, hrr⟩ := hmid
  cases hrr
  have k1 : ∀ t ∈ pre, Contr t := fun t ht => hcon t (by simp [ht])
  have k2 : ∀ t ∈ post, Contr t := fun t ht => hcon t (by simp [ht])
  have k3 : ∀ t ∈ [A, B], Contr t := fun t ht => hcon t (by
    simp only [List.mem_append]; exact .inr (.inl ht))
  obtain ⟨t, et, st, gt⟩ := mergeTwo_ok hA hB hG
  have gt' : ∀ (x : Bits 2) p q, p < l → q < r → ∑ y : Bits 2, M x y * amp [A, B] (bl y) p q =
      t.get [(x 0 : ℕ), (x 1 : ℕ), p, q] := by
    intro x p q hpl hq
    rw [gt x p q hpl hq]
    refine Finset.sum_congr rfl (fun y _ => ?_)
    rw [bl_two, amp_pair hA hB _ _ _ hq]
  have hf' : ∀ j, (f j : ℕ) = pre.length + j := by rw [hp]; exact hf
  have htc : ∀ c : ℕ → ℂ, ∑ x ∈ range 2, ∑ y ∈ range 2, ∑ p ∈ range l,
      ‖∑ q ∈ range r, t.get [x, y, p, q] * c q‖ ^ 2 ≤ ∑ q ∈ range r, ‖c q‖ ^ 2 := by
    intro c
    refine le_trans (le_of_eq ?_) (merged_contr hmid0 k3 rfl hU c)
    rw [← sum_bits2_range (fun x y => ∑ p ∈ range l, ‖∑ q ∈ range r, t.get [x, y, p, q] * c q‖ ^ 2)]
    refine Finset.sum_congr rfl (fun x _ => Finset.sum_congr rfl (fun p hpl => ?_))
    congr 2
    exact Finset.sum_congr rfl (fun q hq => congrArg (· * c q)
      (gt' x p q (Finset.mem_range.1 hpl) (Finset.mem_range.1 hq)).symm)
  obtain ⟨run1, run2⟩ := applyTwo_run (svd := svd) (post := post) hp et s
  obtain ⟨mat, sm, gm, h0, h1⟩ := decomp2_full hv st hl hr s
  beta_reduce
  by_cases hb : bondDim (svd s mat).S = 0
  · right
    obtain ⟨e, hn⟩ := h0 hb
    refine ⟨[mat], run2 _ _ e, le_refl _, ?_⟩
    rw [truncLoss_one, ← hn, ← norm2_unitary (embed_unitary hinj hU) v]
    refine (norm_le_merged h hpre hmid0 hpost k1 k2 rfl hf').trans (le_of_eq ?_)
    congr 1
    refine Eq.trans (Finset.sum_congr rfl (fun x _ => Finset.sum_congr rfl (fun p hpl =>
      Finset.sum_congr rfl (fun q hq => congrArg (fun z : ℂ => ‖z‖ ^ 2)
        (gt' x p q (Finset.mem_range.1 hpl) (Finset.mem_range.1 hq)))))) ?_
    refine Eq.trans (sum_bits2_range (fun x y => ∑ p ∈ range l, ∑ q ∈ range r, ‖t.get [x, y, p, q]‖ ^ 2)) ?_
    exact Finset.sum_congr rfl (fun x _ => Finset.sum_comm)
  · left
    obtain ⟨a, b, e, sa, sb, hbv, ho, herr⟩ := h1 hb
    have hD := Nat.pos_of_ne_zero hb
    set D := bondDim (svd s mat).S with hDdef
    have hmid' : Chain l [a, b] r := ⟨hl, D, sa, hD, r, sb, rfl⟩
    obtain ⟨v', hm', hd⟩ := replace_err h hpre hmid0 hpost k1 k2 hmid' rfl rfl hf' (M := M)
    refine ⟨_, [mat], v', run1 _ _ _ e, rfl, hm', ?_, ?_⟩
    · intro u hu
      simp only [List.mem_append, List.mem_cons, List.not_mem_nil, or_false] at hu
      rcases hu with hu | (rfl | rfl) | hu
      · exact k1 u hu
      · exact contr_iso sa ho
      · refine Contr.of sb (fun c => le_trans ?_ (htc c))
        rw [Finset.sum_comm (s := range 2) (t := range 2)]
        refine Finset.sum_le_sum (fun y hy => ?_)
        refine le_trans (le_of_eq ?_) (contr_coeff ho (fun x p => ∑ q ∈ range r, t.get [x, y, p, q] * c q))
        refine Finset.sum_congr rfl (fun k hk => ?_)
        congr 2
        rw [Finset.sum_congr rfl (fun q hq => by
          rw [hbv y k q (Finset.mem_range.1 hy) (Finset.mem_range.1 hk) (Finset.mem_range.1 hq)])]
        simp only [Finset.sum_mul, Finset.mul_sum]
        rw [Finset.sum_comm]
        refine Finset.sum_congr rfl (fun x _ => ?_)
        rw [Finset.sum_comm]
        exact Finset.sum_congr rfl (fun _ _ => Finset.sum_congr rfl (fun _ _ => by ring))
      · exact k2 u hu
    · rw [truncLoss_one, ← herr]
      refine hd.trans (le_of_eq ?_)
      congr 1
      refine Eq.trans (Finset.sum_congr rfl (fun x _ => Finset.sum_congr rfl (fun p hpl =>
        Finset.sum_congr rfl (fun q hq => congrArg (fun z : ℝ => z ^ 2) (show _ = ‖t.get [(x 0 : ℕ), (x 1 : ℕ), p, q] -
              ∑ k ∈ range D, a.get [(x 0 : ℕ), p, k] * b.get [(x 1 : ℕ), k, q]‖ from ?_))))) ?_
      · refine Eq.trans (norm_sub_rev _ _) (congrArg (fun z : ℂ => ‖z‖) (congrArg₂ (· - ·)
          (gt' x p q (Finset.mem_range.1 hpl) (Finset.mem_range.1 hq)) ?_))
        rw [bl_two, amp_pair sa sb _ _ _ (Finset.mem_range.1 hq)]
      refine Eq.trans (sum_bits2_range (fun x y => ∑ p ∈ range l, ∑ q ∈ range r, ‖t.get [x, y, p, q] -
        ∑ k ∈ range D, a.get [x, p, k] * b.get [y, k, q]‖ ^ 2)) ?_
      exact Finset.sum_congr rfl (fun x _ => Finset.sum_comm)

/-! ## Three sites -/

theorem applyThree_run {svd : SVDOracle} {G A B C t : Tensor ℂ} {pre post : List (Tensor ℂ)} {i : ℕ}
    (hp : pre.length = i) (et : Gate.mergeThree A B C G = .ok t) (s : List (Tensor ℂ)) :
    (∀ a b c s', TensorDecompAfterThreeQbitGate svd t s = (.ok (a, b, c), s') →
      Gate.applyThree svd G (pre ++ ([A, B, C] ++ post)) ((i : ℤ) + 1) s =
        (.ok (pre ++ ([a, b, c] ++ post)), s')) ∧
    (∀ e s', TensorDecompAfterThreeQbitGate svd t s = (.error e, s') →
      Gate.applyThree svd G (pre ++ ([A, B, C] ++ post)) ((i : ℤ) + 1) s = (.error e, s')) := by
  have hi : i + 2 < (pre ++ ([A, B, C] ++ post)).length := by simp; omega
  have c0 : (i : ℤ) + 1 - 1 = (i : ℤ) := by ring
  have c1 : (i : ℤ) + 1 = ((i + 1 : ℕ) : ℤ) := by push_cast; ring
  have c2 : (i : ℤ) + 1 + 1 = ((i + 2 : ℕ) : ℤ) := by push_cast; ring
  have g0 : pyGet (pre ++ ([A, B, C] ++ post)) (i : ℤ) = .ok A := by
    rw [pyGet_nat (by omega)]; simp [← hp]
  have g1 : pyGet (pre ++ ([A, B, C] ++ post)) ((i + 1 : ℕ) : ℤ) = .ok B := by
    rw [pyGet_nat (by omega)]; simp [← hp]
  have g2 : pyGet (pre ++ ([A, B, C] ++ post)) ((i + 2 : ℕ) : ℤ) = .ok C := by
    rw [pyGet_nat hi]; simp [← hp]
  constructor
  · intro a b c s' e
    unfold Gate.applyThree
    rw [c0, c2, c1, g0, TNM.lift_ok_bind, g1, TNM.lift_ok_bind, g2, TNM.lift_ok_bind, et,
      TNM.lift_ok_bind, TNM.bind_ok e]
    show ((liftM (pySet (pre ++ ([A, B, C] ++ post)) (i : ℤ) a) : TNM _) >>= _) _ = _
    have p0 : pySet (pre ++ ([A, B, C] ++ post)) (i : ℤ) a = .ok (pre ++ ([a, B, C] ++ post)) := by
      rw [pySet_nat (by omega), ← hp, List.set_append_right _ _ (le_refl _)]; simp
    have p1 : pySet (pre ++ ([a, B, C] ++ post)) ((i + 1 : ℕ) : ℤ) b = .ok (pre ++ ([a, b, C] ++ post)) := by
      rw [pySet_nat (by simp; omega), ← hp, List.set_append_right _ _ (by omega)]; simp
    have p2 : pySet (pre ++ ([a, b, C] ++ post)) ((i + 2 : ℕ) : ℤ) c = .ok (pre ++ ([a, b, c] ++ post)) := by
      rw [pySet_nat (by simpa using hi), ← hp, List.set_append_right _ _ (by omega)]; simp
    rw [p0, TNM.lift_ok_bind, p1, TNM.lift_ok_bind, p2, TNM.lift_apply]
  · intro e s' h
    unfold Gate.applyThree
    rw [c0, c2, c1, g0, TNM.lift_ok_bind, g1, TNM.lift_ok_bind, g2, TNM.lift_ok_bind, et,
      TNM.lift_ok_bind, TNM.bind_error h]

theorem within_three {svd : SVDOracle} (hv : ValidSVD svd) {G : Tensor ℂ} {M : QOp 3}
    (hG : Represents G M) (hU : IsUnitaryOp M) {f : Fin 3 → Fin N} {i : ℕ}
    (hf : ∀ j, (f j : ℕ) = i + j) :
    Within svd (fun mps => Gate.applyThree svd G mps ((i : ℤ) + 1)) (embed f M) 2 := by
  have hinj := inj_of_val hf
  refine ⟨embed_unitary hinj hU, fun mps v s h hcon => ?_⟩
  have hi : i + 2 < mps.length := by
    have h1 := hf 2
    have h2 := (f 2).isLt
    rw [h.1]
    simp at h1
    omega
  obtain ⟨pre, A, B, C, post, rfl, hp⟩ := split_at3 hi
  obtain ⟨l, hpre, hc⟩ := chain_split h.2.1
  obtain ⟨r, hmid, hpost⟩ := chain_split hc
  have hr := chain_pos hpost (by omega)
  have hmid0 := hmid
  obtain ⟨hl, m, hA, hm, n, hB, hn, r', hC, hrr⟩ := hmid
  cases hrr
  have k1 : ∀ t ∈ pre, Contr t := fun t ht => hcon t (by simp [ht])
  have k2 : ∀ t ∈ post, Contr t := fun t ht => hcon t (by simp [ht])
  have k3 : ∀ t ∈ [A, B, C], Contr t := fun t ht => hcon t (by
    simp only [List.mem_append]; exact .inr (.inl ht))
  obtain ⟨t, et, st, gt⟩ := mergeThree_ok hA hB hC hG
  have gt' : ∀ (x : Bits 3) p q, p < l → q < r → ∑ y : Bits 3, M x y * amp [A, B, C] (bl y) p q =
      t.get [(x 0 : ℕ), (x 1 : ℕ), (x 2 : ℕ), p, q] := by
    intro x p q hpl hq
    rw [gt x p q hpl hq]
    refine Finset.sum_congr rfl (fun y _ => ?_)
    rw [bl_three, amp_triple hA hB hC _ _ _ _ hq]
    congr 1
    simp only [Finset.mul_sum, Finset.sum_mul]
    rw [Finset.sum_comm]
    exact Finset.sum_congr rfl (fun _ _ => Finset.sum_congr rfl (fun _ _ => by ring))
  have hf' : ∀ j, (f j : ℕ) = pre.length + j := by rw [hp]; exact hf
  have htc : ∀ c : ℕ → ℂ, ∑ x ∈ range 2, ∑ y ∈ range 2, ∑ z ∈ range 2, ∑ p ∈ range l,
      ‖∑ q ∈ range r, t.get [x, y, z, p, q] * c q‖ ^ 2 ≤ ∑ q ∈ range r, ‖c q‖ ^ 2 := by
    intro c
    refine le_trans (le_of_eq ?_) (merged_contr hmid0 k3 rfl hU c)
    rw [← sum_bits3_range (fun x y z => ∑ p ∈ range l, ‖∑ q ∈ range r, t.get [x, y, z, p, q] * c q‖ ^ 2)]
    refine Finset.sum_congr rfl (fun x _ => Finset.sum_congr rfl (fun p hpl => ?_))
    congr 2
    exact Finset.sum_congr rfl (fun q hq => congrArg (· * c q)
      (gt' x p q (Finset.mem_range.1 hpl) (Finset.mem_range.1 hq)).symm)
  have hperm : ∀ F : ℕ → ℕ → ℕ → ℕ → ℕ → ℝ,
      ∑ x ∈ range 2, ∑ y ∈ range 2, ∑ z ∈ range 2, ∑ p ∈ range l, ∑ q ∈ range r, F x y z p q =
      ∑ x ∈ range 2, ∑ p ∈ range l, ∑ y ∈ range 2, ∑ z ∈ range 2, ∑ q ∈ range r, F x y z p q := by
    intro F
    refine Finset.sum_congr rfl (fun x _ => ?_)
    rw [Finset.sum_comm (s := range l)]
    exact Finset.sum_congr rfl (fun y _ => Finset.sum_comm)
  have hnorm : norm2 v ≤ Real.sqrt (∑ x ∈ range 2, ∑ p ∈ range l, ∑ y ∈ range 2, ∑ z ∈ range 2,
      ∑ q ∈ range r, ‖t.get [x, y, z, p, q]‖ ^ 2) := by
    rw [← norm2_unitary (embed_unitary hinj hU) v]
    refine (norm_le_merged h hpre hmid0 hpost k1 k2 rfl hf').trans (le_of_eq ?_)
    congr 1
    refine Eq.trans (Finset.sum_congr rfl (fun x _ => Finset.sum_congr rfl (fun p hpl =>
      Finset.sum_congr rfl (fun q hq => congrArg (fun z : ℂ => ‖z‖ ^ 2)
        (gt' x p q (Finset.mem_range.1 hpl) (Finset.mem_range.1 hq)))))) ?_
    refine Eq.trans (sum_bits3_range
      (fun x y z => ∑ p ∈ range l, ∑ q ∈ range r, ‖t.get [x, y, z, p, q]‖ ^ 2)) ?_
    exact hperm _
  obtain ⟨run1, run2⟩ := applyThree_run (svd := svd) (post := post) hp et s
  obtain ⟨mat, sm, gm, h0, h1⟩ := decomp3_full hv st hl hr s
  beta_reduce
  by_cases hb : bondDim (svd s mat).S = 0
  · right
    obtain ⟨e, hn⟩ := h0 hb
    refine ⟨[mat], run2 _ _ e, by simp, ?_⟩
    rw [truncLoss_one, ← hn]
    exact hnorm
  obtain ⟨mat', sm', gm', h2, h3⟩ := h1 hb
  have hD := Nat.pos_of_ne_zero hb
  set D := bondDim (svd s mat).S with hDdef
  by_cases hb' : bondDim (svd (s ++ [mat]) mat').S = 0
  · right
    obtain ⟨e, hn⟩ := h2 hb'
    refine ⟨[mat, mat'], ?_, by simp, ?_⟩
    · rw [run2 _ _ e, List.append_assoc]; rfl
    · rw [truncLoss_two]
      exact hnorm.trans hn
  · left
    obtain ⟨a, b, c, e, sa, sb, sc, hav, hcv, hoa, hob, herr⟩ := h3 hb'
    have hE := Nat.pos_of_ne_zero hb'
    set E := bondDim (svd (s ++ [mat]) mat').S with hEdef
    have hmid' : Chain l [a, b, c] r := ⟨hl, D, sa, hD, E, sb, hE, r, sc, rfl⟩
    obtain ⟨v', hm', hd⟩ := replace_err h hpre hmid0 hpost k1 k2 hmid' rfl rfl hf' (M := M)
    refine ⟨_, [mat, mat'], v', ?_, rfl, hm', ?_, ?_⟩
    · rw [run1 _ _ _ _ e, List.append_assoc]; rfl
    · intro u hu
      simp only [List.mem_append, List.mem_cons, List.not_mem_nil, or_false] at hu
      rcases hu with hu | (rfl | rfl | rfl) | hu
      · exact k1 u hu
      · exact contr_iso sa hoa
      · exact contr_iso sb hob
      · refine Contr.of sc (fun w => ?_)
        have s1 : ∀ z ∈ range 2, ∑ q ∈ range E, ‖∑ j ∈ range r, u.get [z, q, j] * w j‖ ^ 2 ≤
            ∑ y ∈ range 2, ∑ k ∈ range D, ‖∑ j ∈ range r, mat'.get [y * D + k, z * r + j] * w j‖ ^ 2 := by
          intro z hz
          refine le_trans (le_of_eq ?_)
            (contr_coeff hob (fun y k => ∑ j ∈ range r, mat'.get [y * D + k, z * r + j] * w j))
          refine Finset.sum_congr rfl (fun q hq => ?_)
          congr 2
          rw [Finset.sum_congr rfl (fun j hj => by
            rw [hcv z q j (Finset.mem_range.1 hz) (Finset.mem_range.1 hq) (Finset.mem_range.1 hj)])]
          simp only [Finset.sum_mul, Finset.mul_sum]
          rw [Finset.sum_comm]
          refine Finset.sum_congr rfl (fun x _ => ?_)
          rw [Finset.sum_comm]
          exact Finset.sum_congr rfl (fun _ _ => Finset.sum_congr rfl (fun _ _ => by ring))
        have s2 : ∀ z ∈ range 2, ∀ y ∈ range 2,
            ∑ k ∈ range D, ‖∑ j ∈ range r, mat'.get [y * D + k, z * r + j] * w j‖ ^ 2 ≤
            ∑ x ∈ range 2, ∑ p ∈ range l, ‖∑ j ∈ range r, t.get [x, y, z, p, j] * w j‖ ^ 2 := by
          intro z hz y hy
          refine le_trans (le_of_eq ?_)
            (contr_coeff hoa (fun x p => ∑ j ∈ range r, t.get [x, y, z, p, j] * w j))
          refine Finset.sum_congr rfl (fun k hk => ?_)
          congr 2
          rw [Finset.sum_congr rfl (fun j hj => by
            rw [gm' y k z j (Finset.mem_range.1 hy) (Finset.mem_range.1 hk) (Finset.mem_range.1 hz)
              (Finset.mem_range.1 hj)])]
          simp only [Finset.sum_mul, Finset.mul_sum]
          rw [Finset.sum_comm]
          refine Finset.sum_congr rfl (fun x hx => ?_)
          rw [Finset.sum_comm]
          refine Finset.sum_congr rfl (fun p hp' => Finset.sum_congr rfl (fun _ _ => ?_))
          rw [hav x p k (Finset.mem_range.1 hx) (Finset.mem_range.1 hp') (Finset.mem_range.1 hk)]
          ring
        refine le_trans (Finset.sum_le_sum s1) (le_trans (Finset.sum_le_sum (fun z hz =>
          Finset.sum_le_sum (s2 z hz))) (le_trans (le_of_eq ?_) (htc w)))
        rw [Finset.sum_comm]
        refine Eq.trans (Finset.sum_congr rfl (fun y _ => Finset.sum_comm)) ?_
        rw [Finset.sum_comm]
      · exact k2 u hu
    · rw [truncLoss_two]
      refine (hd.trans (le_of_eq ?_)).trans herr
      congr 1
      refine Eq.trans (Finset.sum_congr rfl (fun x _ => Finset.sum_congr rfl (fun p hpl =>
        Finset.sum_congr rfl (fun q hq => congrArg (fun z : ℝ => z ^ 2)
          (show _ = ‖t.get [(x 0 : ℕ), (x 1 : ℕ), (x 2 : ℕ), p, q] -
              ∑ k ∈ range D, a.get [(x 0 : ℕ), p, k] *
                ∑ o ∈ range E, b.get [(x 1 : ℕ), k, o] * c.get [(x 2 : ℕ), o, q]‖ from ?_))))) ?_
      · refine Eq.trans (norm_sub_rev _ _) (congrArg (fun z : ℂ => ‖z‖) (congrArg₂ (· - ·)
          (gt' x p q (Finset.mem_range.1 hpl) (Finset.mem_range.1 hq)) ?_))
        rw [bl_three, amp_triple sa sb sc _ _ _ _ (Finset.mem_range.1 hq)]
      refine Eq.trans (sum_bits3_range (fun x y z => ∑ p ∈ range l, ∑ q ∈ range r, ‖t.get [x, y, z, p, q] -
        ∑ k ∈ range D, a.get [x, p, k] * ∑ o ∈ range E, b.get [y, k, o] * c.get [z, o, q]‖ ^ 2)) ?_
      exact hperm _

/-- The calculus of operations with truncation. -/
def withinTheory (N : ℕ) {svd : SVDOracle} (hv : ValidSVD svd) : Theory N svd where
  Act f M c := Within svd f M c
  nop := within_nop svd
  comp h h' := within_comp h h'
  site i _ _ hG hU := within_site svd i hG hU
  two hG hU _ _ hf := within_two hv hG hU hf
  three hG hU _ _ hf := within_three hv hG hU hf

/-! ## Conversion of a state vector -/

theorem nrm_rem {svd : SVDOracle} (hv : ValidSVD svd) {A U r : Tensor ℂ} {m n : ℕ} {s : List (Tensor ℂ)}
    (hA : A.shape = [m, n]) (t : Trunc A m n (svd s A) U r) :
    nrm (bondDim (svd s A).S) n (fun k j => r.get [k, j]) ≤ nrm m n (fun i j => A.get [i, j]) ∧
    nrm m n (fun i j => A.get [i, j]) ≤
      cutLoss (svd s A).S + nrm (bondDim (svd s A).S) n (fun k j => r.get [k, j]) := by
  constructor
  · unfold nrm
    refine Real.sqrt_le_sqrt ?_
    rw [Finset.sum_comm, Finset.sum_comm (s := range m)]
    refine Finset.sum_le_sum (fun j hj => ?_)
    have h := hv s A m n hA
    have hle := bondDim_le (svd s A).S
    rw [h.lenS] at hle
    have := cols_bessel (P := range m) (u := fun i k => (svd s A).U.get [i, k]) (D := bondDim (svd s A).S)
      (fun k hk q hq => svd_orthU h (by omega) (by omega)) (fun i => A.get [i, j])
    refine le_trans (le_of_eq ?_) this
    refine Finset.sum_congr rfl (fun k hk => ?_)
    beta_reduce
    rw [trunc_remainder hv hA t (Finset.mem_range.1 hk) (Finset.mem_range.1 hj)]
  · rw [← trunc_loss hv hA t]
    have e : nrm (bondDim (svd s A).S) n (fun k j => r.get [k, j]) =
        fro (toMat U m (bondDim (svd s A).S) * toMat r (bondDim (svd s A).S) n) := by
      rw [fro_iso (trunc_iso hv hA t), nrm_eq]
      rfl
    rw [e, nrm_eq]
    refine le_trans (le_of_eq ?_) (fro_add_le _ _)
    rw [sub_add_cancel]
    rfl

/-- What else is known about the loop with `k+1` sites left on a matrix of norm at most one. -/
theorem loop_more {svd : SVDOracle} (hv : ValidSVD svd) :
    ∀ (k j D : ℕ) (c : Tensor ℂ) (s : List (Tensor ℂ)), 0 < D → D ≤ 2 ^ j → c.shape = [D, 2 ^ (k + 1)] →
    nrm D (2 ^ (k + 1)) (fun i j => c.get [i, j]) ≤ 1 →
    ∃ As, (StateVec2MPS_loop svd (k + 1) c s).2 = s ++ As ∧ As.length ≤ k ∧
      (∀ A ∈ As, ∃ m n, A.shape = [m, n] ∧ min m n ≤ 2 ^ ((j + k + 1) / 2)) ∧
      (∀ lst, (StateVec2MPS_loop svd (k + 1) c s).1 = .ok lst → ∀ t ∈ lst, Contr t) ∧
      (∀ e, (StateVec2MPS_loop svd (k + 1) c s).1 = .error e →
        nrm D (2 ^ (k + 1)) (fun i j => c.get [i, j]) ≤ truncLoss svd s As) := by
  intro k
  induction k with
  | zero =>
    intro j D c s hD hDj hc hn
    obtain ⟨t, et, st, gt⟩ := loop_last svd (c := c) (by simpa using hc) s
    refine ⟨[], by rw [et, List.append_nil], le_refl _, by simp, ?_, ?_⟩
    · intro lst hl u hu
      rw [et] at hl
      cases hl
      obtain rfl : u = t := by simpa using hu
      refine Contr.of st (fun w => ?_)
      have h1 : ∑ x ∈ range 2, ∑ i ∈ range D, ‖u.get [x, i, 0]‖ ^ 2 ≤ 1 := by
        have := Real.sqrt_le_one.1 hn
        refine le_trans (le_of_eq ?_) this
        rw [Finset.sum_comm]
        refine Finset.sum_congr rfl (fun i hi => ?_)
        simp only [zero_add, pow_one]
        refine Finset.sum_congr rfl (fun x hx => ?_)
        rw [gt x i (Finset.mem_range.1 hx) (Finset.mem_range.1 hi)]
      simp only [Finset.sum_range_one, norm_mul, mul_pow]
      simp only [← Finset.sum_mul]
      exact mul_le_of_le_one_left (by positivity) h1
    · intro e he
      rw [et] at he
      cases he
  | succ k ih =>
    intro j D c s hD hDj hc hn
    obtain ⟨A, sA, gA, h0, h1, -⟩ := loop_step (c := c) (k := k) hv hD (by rw [hc]; congr 2; ring) s
    have hA : nrm D (2 ^ (k + 1 + 1)) (fun i j => c.get [i, j]) =
        nrm (2 * D) (2 ^ (k + 1)) (fun i j => A.get [i, j]) := by
      rw [show 2 ^ (k + 1 + 1) = 2 * 2 ^ (k + 1) by ring]
      exact nrm_fold (fun x i j hx hi hj => (gA x i j hx hi hj).symm)
    have hsm : ∃ m n, A.shape = [m, n] ∧ min m n ≤ 2 ^ ((j + (k + 1) + 1) / 2) := by
      refine ⟨_, _, sA, ?_⟩
      have h3 : 2 * D ≤ 2 ^ (j + 1) := by rw [pow_succ]; omega
      rcases le_total (j + 1) (k + 1) with h | h
      · exact ((min_le_left _ _).trans h3).trans (Nat.pow_le_pow_right (by omega) (by omega))
      · exact (min_le_right _ _).trans (Nat.pow_le_pow_right (by omega) (by omega))
    by_cases hb : bondDim (svd s A).S = 0
    · refine ⟨[A], by rw [h0 hb], by simp, by simpa using hsm, ?_, ?_⟩
      · intro lst hl
        rw [h0 hb] at hl
        cases hl
      · intro e _
        rw [truncLoss_one, hA, all_cut hv sA hb]
    · obtain ⟨U, r, t, tr, st, gt, he, hok⟩ := h1 hb
      obtain ⟨n1, n2⟩ := nrm_rem hv sA tr
      have hle := bondDim_le (svd s A).S
      rw [(hv s A _ _ sA).lenS] at hle
      obtain ⟨As, e1, l1, s1, c1, d1⟩ := ih (j + 1) _ r (s ++ [A]) (Nat.pos_of_ne_zero hb)
        (by rw [pow_succ]; omega) tr.shapeR (n1.trans (hA ▸ hn))
      have ht : Contr t := contr_iso st (fun p q hp hq => by
        rw [← svd_orthU (hv s A _ _ sA) (r := p) (q := q) (by omega) (by omega), sum_stack]
        refine Finset.sum_congr rfl (fun x hx => Finset.sum_congr rfl (fun i hi => ?_))
        have hx' := Finset.mem_range.1 hx
        have hi' := Finset.mem_range.1 hi
        rw [gt x i p hx' hi' hp, gt x i q hx' hi' hq, tr.getU _ _ (stack_lt hx' hi') hp,
          tr.getU _ _ (stack_lt hx' hi') hq])
      have hlog : (StateVec2MPS_loop svd (k + 1 + 1) c s).2 = s ++ A :: As := by
        rcases hres : StateVec2MPS_loop svd (k + 1) r (s ++ [A]) with ⟨e | l, s'⟩
        · rw [hres] at e1; rw [he _ _ hres]; simpa using e1
        · rw [hres] at e1; rw [hok _ _ hres]; simpa using e1
      refine ⟨A :: As, hlog, by simpa using l1, ?_, ?_, ?_⟩
      · intro B hB
        rcases List.mem_cons.1 hB with rfl | hB
        · exact hsm
        · obtain ⟨m, n, e, h⟩ := s1 B hB
          exact ⟨m, n, e, by rwa [show j + 1 + k + 1 = j + (k + 1) + 1 by ring] at h⟩
      · intro lst hl
        rcases hres : StateVec2MPS_loop svd (k + 1) r (s ++ [A]) with ⟨e | l, s'⟩
        · rw [he _ _ hres] at hl; cases hl
        · rw [hok _ _ hres] at hl
          cases hl
          intro u hu
          rcases List.mem_cons.1 hu with rfl | hu
          · exact ht
          · exact c1 l (by rw [hres]) u hu
      · intro e hl
        rcases hres : StateVec2MPS_loop svd (k + 1) r (s ++ [A]) with ⟨e' | l, s'⟩
        · have := d1 e' (by rw [hres])
          rw [truncLoss, hA]
          linarith
        · rw [hok _ _ hres] at hl; cases hl

end QTN
