import Verif.Lemmas.Merge
import Verif.Lemmas.Unitary
import Verif.Lemmas.Layers

/-! # Functions on matrix product states that act as an operator on the state -/

namespace QTN

open Finset Spec Matrix

/-! ## Amplitudes of short lists -/

theorem amp_single {A : Tensor ℂ} {l r : ℕ} (hA : A.shape = [2, l, r]) (x i : ℕ) {j : ℕ} (hj : j < r) :
    amp [A] [x] i j = A.get [x, i, j] := by
  rw [amp_cons hA]
  simp [amp, hj]

theorem amp_pair {A B : Tensor ℂ} {l m r : ℕ} (hA : A.shape = [2, l, m]) (hB : B.shape = [2, m, r])
    (x y i : ℕ) {j : ℕ} (hj : j < r) :
    amp [A, B] [x, y] i j = ∑ k ∈ range m, A.get [x, i, k] * B.get [y, k, j] := by
  rw [amp_cons hA]
  simp only [amp_single hB _ _ hj]

theorem amp_triple {A B C : Tensor ℂ} {l m n r : ℕ} (hA : A.shape = [2, l, m]) (hB : B.shape = [2, m, n])
    (hC : C.shape = [2, n, r]) (x y z i : ℕ) {j : ℕ} (hj : j < r) :
    amp [A, B, C] [x, y, z] i j =
      ∑ k ∈ range m, A.get [x, i, k] * ∑ q ∈ range n, B.get [y, k, q] * C.get [z, q, j] := by
  rw [amp_cons hA]
  simp only [amp_pair hB hC _ _ _ hj]

theorem bl_one (x : Bits 1) : bl x = [(x 0 : ℕ)] := rfl
theorem bl_two (x : Bits 2) : bl x = [(x 0 : ℕ), (x 1 : ℕ)] := rfl
theorem bl_three (x : Bits 3) : bl x = [(x 0 : ℕ), (x 1 : ℕ), (x 2 : ℕ)] := rfl

/-! ## The predicate -/

/-- `f` turns a matrix product state of `v` into one of `M v`, provided the decompositions made
lose nothing; if `v = 0` it may raise RuntimeError instead. -/
def Acts {N : ℕ} (f : List (Tensor ℂ) → TNM (List (Tensor ℂ))) (M : QOp N) : Prop :=
  (∀ mps, (f mps).Mono) ∧ (∀ v, v ≠ 0 → M *ᵥ v ≠ 0) ∧
  ∀ mps v s, IsMPS mps v → (∀ A ∈ (f mps s).2, Lossless A) →
    (∃ mps' s', f mps s = (.ok mps', s') ∧ IsMPS mps' (M *ᵥ v)) ∨
      (v = 0 ∧ ∃ s', f mps s = (.error .runtimeError, s'))

theorem Acts.run {N : ℕ} {f : List (Tensor ℂ) → TNM (List (Tensor ℂ))} {M : QOp N} (hf : Acts f M)
    {mps : List (Tensor ℂ)} {v : QState N} (h : IsMPS mps v) (hv : v ≠ 0) {s : List (Tensor ℂ)}
    (hl : ∀ A ∈ (f mps s).2, Lossless A) :
    ∃ mps' s', f mps s = (.ok mps', s') ∧ IsMPS mps' (M *ᵥ v) := by
  rcases hf.2.2 mps v s h hl with h | h
  · exact h
  · exact absurd h.1 hv

theorem inv_ne_zero {N : ℕ} {M M' : QOp N} (h : M' * M = 1) {v : QState N} (hv : v ≠ 0) :
    M *ᵥ v ≠ 0 := by
  intro h0
  apply hv
  have : M' *ᵥ (M *ᵥ v) = v := by rw [Matrix.mulVec_mulVec, h, Matrix.one_mulVec]
  rw [← this, h0, Matrix.mulVec_zero]

theorem unitary_ne_zero {N : ℕ} {M : QOp N} (h : IsUnitaryOp M) {v : QState N} (hv : v ≠ 0) :
    M *ᵥ v ≠ 0 := inv_ne_zero h.2 hv

theorem acts_pure {N : ℕ} : Acts (N := N) (fun mps => pure mps) 1 := by
  refine ⟨fun _ => TNM.Mono.pure _, fun v hv => by rwa [Matrix.one_mulVec], fun mps v s h _ => ?_⟩
  exact .inl ⟨mps, s, rfl, by rwa [Matrix.one_mulVec]⟩

theorem Acts.comp {N : ℕ} {f g : List (Tensor ℂ) → TNM (List (Tensor ℂ))} {M M' : QOp N}
    (hf : Acts f M) (hg : Acts g M') : Acts (fun mps => f mps >>= g) (M' * M) := by
  refine ⟨fun mps => (hf.1 mps).bind hg.1, fun v hv => ?_, fun mps v s h hl => ?_⟩
  · rw [← Matrix.mulVec_mulVec]; exact hg.2.1 _ (hf.2.1 v hv)
  · change (∃ mps' s', (f mps >>= g) s = _ ∧ _) ∨ (_ ∧ ∃ s', (f mps >>= g) s = _)
    rcases hf.2.2 mps v s h (TNM.logged_left hg.1 hl) with ⟨mps1, s1, e1, h1⟩ | ⟨h0, s1, e1⟩
    · change ∀ A ∈ ((f mps >>= g) s).2, Lossless A at hl
      rw [TNM.bind_ok e1] at hl
      rcases hg.2.2 mps1 _ s1 h1 hl with ⟨mps2, s2, e2, h2⟩ | ⟨h0, s2, e2⟩
      · exact .inl ⟨mps2, s2, by rw [TNM.bind_ok e1, e2], by rwa [← Matrix.mulVec_mulVec]⟩
      · refine .inr ⟨?_, s2, by rw [TNM.bind_ok e1, e2]⟩
        by_contra hv
        exact hf.2.1 v hv h0
    · exact .inr ⟨h0, s1, TNM.bind_error e1 _⟩

theorem Acts.congr {N : ℕ} {f g : List (Tensor ℂ) → TNM (List (Tensor ℂ))} {M : QOp N}
    (hf : Acts f M) (h : ∀ mps, g mps = f mps) : Acts g M := by
  have : g = f := funext h
  rwa [this]

theorem Acts.congrM {N : ℕ} {f : List (Tensor ℂ) → TNM (List (Tensor ℂ))} {M M' : QOp N}
    (hf : Acts f M) (h : M = M') : Acts f M' := h ▸ hf

theorem acts_foldlM {N : ℕ} {α : Type} (F : α → List (Tensor ℂ) → TNM (List (Tensor ℂ)))
    (Mo : α → QOp N) (l : List α) (h : ∀ a ∈ l, Acts (F a) (Mo a)) :
    Acts (fun mps => l.foldlM (fun mps a => F a mps) mps) (timeOrdered (l.map Mo)) := by
  induction l with
  | nil => exact acts_pure
  | cons a l ih =>
    have h1 := (h a (by simp)).comp (ih (fun b hb => h b (by simp [hb])))
    refine (h1.congr (fun mps => ?_)).congrM ?_
    · rw [List.foldlM_cons]
    · rw [List.map_cons, timeOrdered_cons]

/-! ## One site -/

theorem split_at {α : Type} {l : List α} {i : ℕ} (h : i < l.length) :
    ∃ pre a post, l = pre ++ (a :: post) ∧ pre.length = i := by
  refine ⟨l.take i, l[i], l.drop (i + 1), ?_, by simp; omega⟩
  simp

theorem isMPS_pos {N : ℕ} {mps : List (Tensor ℂ)} {v : QState N} (h : IsMPS mps v) :
    mps.length = N := h.1

theorem site_ok {N : ℕ} {G : Tensor ℂ} {M : Mat2} (hG : Represents2 G M) {mps : List (Tensor ℂ)}
    {v : QState N} (h : IsMPS mps v) (i : Fin N) :
    ∃ t t', pyGet mps ((i : ℕ) : ℤ) = .ok t ∧ Tensor.einsum_ab_bcd G t = .ok t' ∧
      pySet mps ((i : ℕ) : ℤ) t' = .ok (mps.set i t') ∧ IsMPS (mps.set i t') (onQubit i M *ᵥ v) := by
  have hlen : (i : ℕ) < mps.length := by rw [h.1]; exact i.isLt
  obtain ⟨pre, t, post, rfl, hp⟩ := split_at hlen
  obtain ⟨l, hpre, hc⟩ := chain_split h.2.1
  obtain ⟨hl, r, ht, hpost⟩ := hc
  have hGs : G.shape = [2, 2] := hG.1
  set t' := Tensor.ofFn [2, l, r] (fun idx =>
      ∑ x ∈ range 2, G.get [idx.getD 0 0, x] * t.get [x, idx.getD 1 0, idx.getD 2 0]) with ht'
  have e2 : Tensor.einsum_ab_bcd G t = .ok t' := by
    unfold Tensor.einsum_ab_bcd
    rw [hGs, ht]
    simp [ht']
  have ht's : t'.shape = [2, l, r] := rfl
  have hset : (pre ++ t :: post).set i t' = pre ++ ([t'] ++ post) := by
    rw [← hp, List.set_append_right _ _ (le_refl _)]
    simp
  refine ⟨t, t', ?_, e2, ?_, ?_⟩
  · rw [pyGet_nat hlen]
    simp [← hp]
  · rw [pySet_nat hlen]
  · rw [hset]
    have := isMPS_replace (k := 1) (mid := [t]) (mid' := [t']) (l := l) (r := r) (pre := pre)
      (post := post) (v := v) h hpre ⟨hl, r, ht, rfl⟩ hpost ⟨hl, r, ht's, rfl⟩ rfl rfl
      (f := fun _ => i) (by intro j; simp [hp]) (M := onQubit 0 M) (by
        intro x p q hpl hq
        rw [bl_one, amp_single ht's _ _ hq]
        have hx := (x 0).isLt
        rw [ht', Tensor.get_ofFn (by inb)]
        simp only [List.getD_cons_zero, List.getD_cons_succ]
        rw [← (Equiv.funUnique (Fin 1) (Fin 2)).symm.sum_comp]
        simp only [bl_one, amp_single ht _ _ hq]
        simp only [Finset.sum_range_succ, Finset.sum_range_zero, Fin.sum_univ_two, zero_add]
        have q0 := hG.2 (x 0) 0
        have q1 := hG.2 (x 0) 1
        have u : ∀ z : Fin 2, onQubit (0 : Fin 1) M x ((Equiv.funUnique (Fin 1) (Fin 2)).symm z) =
            M (x 0) z := by
          intro z
          simp only [onQubit]
          rw [if_pos (by intro j hj; exact absurd (Subsingleton.elim j 0) hj)]
          rfl
        rw [u, u, ← q0, ← q1]
        rfl)
    rwa [embed_onQubit (by intro a b _; exact Subsingleton.elim a b)] at this

/-! ## Two and three neighbouring sites -/

theorem split_at2 {α : Type} {l : List α} {i : ℕ} (h : i + 1 < l.length) :
    ∃ pre a b post, l = pre ++ ([a, b] ++ post) ∧ pre.length = i := by
  refine ⟨l.take i, l[i], l[i + 1], l.drop (i + 2), ?_, by simp; omega⟩
  simp

theorem split_at3 {α : Type} {l : List α} {i : ℕ} (h : i + 2 < l.length) :
    ∃ pre a b c post, l = pre ++ ([a, b, c] ++ post) ∧ pre.length = i := by
  refine ⟨l.take i, l[i], l[i + 1], l[i + 2], l.drop (i + 3), ?_, by simp; omega⟩
  simp

theorem inj_of_val {N k p : ℕ} {f : Fin k → Fin N} (hf : ∀ i, (f i : ℕ) = p + i) :
    Function.Injective f := by
  intro i j h
  have h1 := hf i; have h2 := hf j
  rw [h] at h1
  exact Fin.ext (by omega)

/-- If the merged amplitudes vanish, so does the state. -/
theorem merged_zero {N k l m r : ℕ} {A : Tensor ℂ} {pre rest post : List (Tensor ℂ)} {v : QState N}
    (h : IsMPS (pre ++ ((A :: rest) ++ post)) v) (hpre : Chain 1 pre l) (hl : 0 < l)
    (hA : A.shape = [2, l, m]) (hrest : Chain m rest r)
    (hpost : Chain r post 1) (hk : (A :: rest).length = k)
    {f : Fin k → Fin N} (hf : ∀ i, (f i : ℕ) = pre.length + i) {M : QOp k}
    (hz : ∀ (x : Bits k) (i j : ℕ), i < l → j < r →
      ∑ y : Bits k, M x y * amp (A :: rest) (bl y) i j = 0) : embed f M *ᵥ v = 0 := by
  have hamp : ∀ (x : Bits k) (i j : ℕ), i < l → amp (Tensor.zeros [2, l, m] :: rest) (bl x) i j = 0 := by
    intro x i j hi
    cases k with
    | zero => simp at hk
    | succ k =>
      rw [bl_succ, amp_cons (l := l) (m := m) rfl]
      apply Finset.sum_eq_zero
      intro q hq
      have hq := Finset.mem_range.1 hq
      have := (x 0).isLt
      rw [show (Tensor.zeros [2, l, m] : Tensor ℂ).get [(x 0 : ℕ), i, q] = 0 from
          Tensor.get_ofFn (by inb), zero_mul]
  have h1 := isMPS_replace (mid' := Tensor.zeros [2, l, m] :: rest) h hpre ⟨hl, m, hA, hrest⟩ hpost
    ⟨hl, m, rfl, hrest⟩ hk (by simpa using hk) hf (M := M) (fun x i j hi hj => by
      rw [hz x i j hi hj, hamp x i j hi])
  have h2 := isMPS_replace (mid' := Tensor.zeros [2, l, m] :: rest) h hpre ⟨hl, m, hA, hrest⟩ hpost
    ⟨hl, m, rfl, hrest⟩ hk (by simpa using hk) hf (M := 0) (fun x i j hi hj => by
      rw [hamp x i j hi]; simp)
  funext a
  rw [← h1.2.2 a, h2.2.2 a]
  have e0 : embed f (0 : QOp k) = 0 := by ext a b; simp [embed]
  rw [e0, Matrix.zero_mulVec]

theorem mono_applyTwo (svd : SVDOracle) (G : Tensor ℂ) (mps : List (Tensor ℂ)) (i : ℤ) :
    (Gate.applyTwo svd G mps i).Mono := by
  unfold Gate.applyTwo
  exact (TNM.Mono.lift _).bind (fun _ => (TNM.Mono.lift _).bind (fun _ => (TNM.Mono.lift _).bind
    (fun _ => (TNM.Mono.decomp2 _ _).bind (fun _ => (TNM.Mono.lift _).bind (fun _ =>
      TNM.Mono.lift _)))))

theorem acts_two {N : ℕ} {svd : SVDOracle} (hv : ValidSVD svd) {G : Tensor ℂ} {M : QOp 2}
    (hG : Represents G M) (hU : IsUnitaryOp M) {f : Fin 2 → Fin N} {i : ℕ}
    (hf : ∀ j, (f j : ℕ) = i + j) :
    Acts (fun mps => Gate.applyTwo svd G mps (i : ℤ)) (embed f M) := by
  have hinj := inj_of_val hf
  have hne : ∀ v : QState N, v ≠ 0 → embed f M *ᵥ v ≠ 0 := fun v hv =>
    inv_ne_zero (M' := embed f Mᴴ) (by rw [embed_mul hinj, hU.2, embed_one]) hv
  refine ⟨fun mps => mono_applyTwo _ _ _ _, hne, fun mps v s h hlog => ?_⟩
  have hi : i + 1 < mps.length := by
    have h1 := hf 1
    have h2 := (f 1).isLt
    rw [h.1]
    simp at h1
    omega
  obtain ⟨pre, A, B, post, rfl, hp⟩ := split_at2 hi
  obtain ⟨l, hpre, hc⟩ := chain_split h.2.1
  obtain ⟨r, hmid, hpost⟩ := chain_split hc
  have hr := chain_pos hpost (by omega)
  obtain ⟨hl, m, hA, hm, r', hB, hrr⟩ := hmid
  cases hrr
  obtain ⟨t, et, st, gt⟩ := mergeTwo_ok hA hB hG
  obtain ⟨mat, em, _, _⟩ := blockMat2_ok st
  have g0 : pyGet (pre ++ ([A, B] ++ post)) (i : ℤ) = .ok A := by
    rw [pyGet_nat (by omega)]; simp [← hp]
  have g1 : pyGet (pre ++ ([A, B] ++ post)) ((i : ℤ) + 1) = .ok B := by
    rw [show (i : ℤ) + 1 = ((i + 1 : ℕ) : ℤ) by push_cast; ring, pyGet_nat hi]; simp [← hp]
  unfold Gate.applyTwo at hlog ⊢
  beta_reduce at hlog ⊢
  rw [g0, TNM.lift_ok_bind, g1, TNM.lift_ok_bind, et, TNM.lift_ok_bind] at hlog ⊢
  have hlog2 : Lossless mat := TNM.logged_left (fun _ => (TNM.Mono.lift _).bind (fun _ =>
      TNM.Mono.lift _)) hlog mat (decomp2_log hv st hl hr em s)
  -- amplitudes of the merged pair
  have key : ∀ a b : Tensor ℂ, ∀ D, a.shape = [2, l, D] → b.shape = [2, D, r] → 0 < D →
      (∀ x y i j, x < 2 → y < 2 → i < l → j < r →
        ∑ k ∈ range D, a.get [x, i, k] * b.get [y, k, j] = t.get [x, y, i, j]) →
      IsMPS (pre ++ ([a, b] ++ post)) (embed f M *ᵥ v) := by
    intro a b D ha hb hD hex
    refine isMPS_replace (k := 2) (mid := [A, B]) (mid' := [a, b]) h hpre ⟨hl, m, hA, hm, r, hB, rfl⟩ hpost
      ⟨hl, D, ha, hD, r, hb, rfl⟩ rfl rfl (by rw [hp]; exact hf) ?_
    intro x p q hpl hq
    rw [bl_two, amp_pair ha hb _ _ _ hq, hex _ _ _ _ (x 0).isLt (x 1).isLt hpl hq, gt x p q hpl hq]
    apply Finset.sum_congr rfl
    intro y _
    rw [bl_two, amp_pair hA hB _ _ _ hq]
  by_cases hnz : ∃ x y i j, x < 2 ∧ y < 2 ∧ i < l ∧ j < r ∧ t.get [x, y, i, j] ≠ 0
  swap
  · right
    push Not at hnz
    obtain ⟨s', es⟩ := decomp2_zero hv st hl hr hnz s
    refine ⟨?_, s', TNM.bind_error es _⟩
    by_contra hv0
    refine hne v hv0 (merged_zero h hpre hl hA ⟨hm, r, hB, rfl⟩ hpost rfl (by rw [hp]; exact hf) ?_)
    intro x p q hpl hq
    rw [← hnz (x 0) (x 1) p q (x 0).isLt (x 1).isLt hpl hq, gt x p q hpl hq]
    apply Finset.sum_congr rfl
    intro y _
    rw [bl_two, amp_pair hA hB _ _ _ hq]
  obtain ⟨a, b, D, e, hD, sa, sb, hex, _⟩ := decomp2 hv st hr em hlog2 hnz s
  refine .inl ⟨pre ++ ([a, b] ++ post), s ++ [mat], ?_, key a b D sa sb hD hex⟩
  rw [TNM.bind_ok e]
  show ((liftM (pySet (pre ++ ([A, B] ++ post)) (i : ℤ) a) : TNM _) >>= _) _ = _
  have p0 : pySet (pre ++ ([A, B] ++ post)) (i : ℤ) a = .ok (pre ++ ([a, B] ++ post)) := by
    rw [pySet_nat (by omega), ← hp, List.set_append_right _ _ (le_refl _)]; simp
  have p1 : pySet (pre ++ ([a, B] ++ post)) ((i : ℤ) + 1) b = .ok (pre ++ ([a, b] ++ post)) := by
    rw [show (i : ℤ) + 1 = ((i + 1 : ℕ) : ℤ) by push_cast; ring, pySet_nat (by simpa using hi), ← hp,
      List.set_append_right _ _ (by omega)]; simp
  rw [p0, TNM.lift_ok_bind, p1, TNM.lift_apply]

theorem mono_applyThree (svd : SVDOracle) (G : Tensor ℂ) (mps : List (Tensor ℂ)) (i : ℤ) :
    (Gate.applyThree svd G mps i).Mono := by
  unfold Gate.applyThree
  exact (TNM.Mono.lift _).bind (fun _ => (TNM.Mono.lift _).bind (fun _ => (TNM.Mono.lift _).bind
    (fun _ => (TNM.Mono.lift _).bind (fun _ => (TNM.Mono.decomp3 _ _).bind (fun _ =>
      (TNM.Mono.lift _).bind (fun _ => (TNM.Mono.lift _).bind (fun _ => TNM.Mono.lift _)))))))

theorem acts_three {N : ℕ} {svd : SVDOracle} (hv : ValidSVD svd) {G : Tensor ℂ} {M : QOp 3}
    (hG : Represents G M) (hU : IsUnitaryOp M) {f : Fin 3 → Fin N} {i : ℕ}
    (hf : ∀ j, (f j : ℕ) = i + j) :
    Acts (fun mps => Gate.applyThree svd G mps ((i : ℤ) + 1)) (embed f M) := by
  have hinj := inj_of_val hf
  have hne : ∀ v : QState N, v ≠ 0 → embed f M *ᵥ v ≠ 0 := fun v hv =>
    inv_ne_zero (M' := embed f Mᴴ) (by rw [embed_mul hinj, hU.2, embed_one]) hv
  refine ⟨fun mps => mono_applyThree _ _ _ _, hne, fun mps v s h hlog => ?_⟩
  have hi : i + 2 < mps.length := by
    have h1 := hf 2
    have h2 := (f 2).isLt
    rw [h.1]
    simp at h1
    omega
  obtain ⟨pre, A, B, C, post, rfl, hp⟩ := split_at3 hi
  obtain ⟨l, hpre, hc⟩ := chain_split h.2.1
  obtain ⟨r, hmid, hpost⟩ := chain_split hc
  have hr := chain_pos hpost (by omega)
  obtain ⟨hl, m, hA, hm, n, hB, hn, r', hC, hrr⟩ := hmid
  cases hrr
  obtain ⟨t, et, st, gt⟩ := mergeThree_ok hA hB hC hG
  have c0 : (i : ℤ) + 1 - 1 = (i : ℤ) := by ring
  have c1 : (i : ℤ) + 1 = ((i + 1 : ℕ) : ℤ) := by push_cast; ring
  have c2 : (i : ℤ) + 1 + 1 = ((i + 2 : ℕ) : ℤ) := by push_cast; ring
  have g0 : pyGet (pre ++ ([A, B, C] ++ post)) (i : ℤ) = .ok A := by
    rw [pyGet_nat (by omega)]; simp [← hp]
  have g1 : pyGet (pre ++ ([A, B, C] ++ post)) ((i + 1 : ℕ) : ℤ) = .ok B := by
    rw [pyGet_nat (by omega)]; simp [← hp]
  have g2 : pyGet (pre ++ ([A, B, C] ++ post)) ((i + 2 : ℕ) : ℤ) = .ok C := by
    rw [pyGet_nat hi]; simp [← hp]
  unfold Gate.applyThree at hlog ⊢
  beta_reduce at hlog ⊢
  rw [c0, c2, c1, g0, TNM.lift_ok_bind, g1, TNM.lift_ok_bind, g2, TNM.lift_ok_bind, et,
    TNM.lift_ok_bind] at hlog ⊢
  have hlog2 := TNM.logged_left (fun _ => (TNM.Mono.lift _).bind (fun _ => (TNM.Mono.lift _).bind
    (fun _ => TNM.Mono.lift _))) hlog
  have hmerge : ∀ (y : Bits 3) p q, q < r → amp [A, B, C] (bl y) p q =
      ∑ q' ∈ range n, (∑ k ∈ range m,
            A.get [(y 0 : ℕ), p, k] * B.get [(y 1 : ℕ), k, q']) * C.get [(y 2 : ℕ), q', q] := by
    intro y p q hq
    rw [bl_three, amp_triple hA hB hC _ _ _ _ hq]
    simp only [Finset.mul_sum, Finset.sum_mul]
    rw [Finset.sum_comm]
    apply Finset.sum_congr rfl
    intro _ _
    apply Finset.sum_congr rfl
    intro _ _
    ring
  by_cases hnz : ∃ x y z i j, x < 2 ∧ y < 2 ∧ z < 2 ∧ i < l ∧ j < r ∧ t.get [x, y, z, i, j] ≠ 0
  swap
  · right
    push Not at hnz
    obtain ⟨s', es⟩ := decomp3_zero hv st hl hr hnz s
    refine ⟨?_, s', TNM.bind_error es _⟩
    by_contra hv0
    refine hne v hv0 (merged_zero h hpre hl hA ⟨hm, n, hB, hn, r, hC, rfl⟩ hpost rfl
      (by rw [hp]; exact hf) ?_)
    intro x p q hpl hq
    rw [← hnz (x 0) (x 1) (x 2) p q (x 0).isLt (x 1).isLt (x 2).isLt hpl hq, gt x p q hpl hq]
    apply Finset.sum_congr rfl
    intro y _
    rw [hmerge y p q hq]
  obtain ⟨a, b, c, D, E, m1, m2, e, hD, hE, sa, sb, sc, hex, _⟩ := decomp3 hv st hr s hlog2 hnz
  refine .inl ⟨pre ++ ([a, b, c] ++ post), s ++ [m1] ++ [m2], ?_, ?_⟩
  · rw [TNM.bind_ok e]
    show ((liftM (pySet (pre ++ ([A, B, C] ++ post)) (i : ℤ) a) : TNM _) >>= _) _ = _
    have p0 : pySet (pre ++ ([A, B, C] ++ post)) (i : ℤ) a = .ok (pre ++ ([a, B, C] ++ post)) := by
      rw [pySet_nat (by omega), ← hp, List.set_append_right _ _ (le_refl _)]; simp
    have p1 : pySet (pre ++ ([a, B, C] ++ post)) ((i + 1 : ℕ) : ℤ) b =
        .ok (pre ++ ([a, b, C] ++ post)) := by
      rw [pySet_nat (by simp; omega), ← hp, List.set_append_right _ _ (by omega)]; simp
    have p2 : pySet (pre ++ ([a, b, C] ++ post)) ((i + 2 : ℕ) : ℤ) c =
        .ok (pre ++ ([a, b, c] ++ post)) := by
      rw [pySet_nat (by simpa using hi), ← hp, List.set_append_right _ _ (by omega)]; simp
    rw [p0, TNM.lift_ok_bind, p1, TNM.lift_ok_bind, p2, TNM.lift_apply]
  · refine isMPS_replace (k := 3) (mid := [A, B, C]) (mid' := [a, b, c]) h hpre ⟨hl, m, hA, hm, n, hB, hn, r, hC, rfl⟩ hpost
      ⟨hl, D, sa, hD, E, sb, hE, r, sc, rfl⟩ rfl rfl (by rw [hp]; exact hf) ?_
    intro x p q hpl hq
    rw [bl_three, amp_triple sa sb sc _ _ _ _ hq,
      hex _ _ _ _ _ (x 0).isLt (x 1).isLt (x 2).isLt hpl hq, gt x p q hpl hq]
    apply Finset.sum_congr rfl
    intro y _
    rw [hmerge y p q hq]

/-! ## Theories of functions on matrix product states -/

theorem acts_lift {N : ℕ} {f : List (Tensor ℂ) → Py (List (Tensor ℂ))} {M : QOp N} (hU : IsUnitaryOp M)
    (h : ∀ mps v, IsMPS mps v → ∃ mps', f mps = .ok mps' ∧ IsMPS mps' (M *ᵥ v)) :
    Acts (fun mps => TNM.lift (f mps)) M := by
  refine ⟨fun mps => TNM.Mono.lift' _, fun v hv => unitary_ne_zero hU hv, fun mps v s hm _ => ?_⟩
  obtain ⟨mps', e, hm'⟩ := h mps v hm
  refine .inl ⟨mps', s, ?_, hm'⟩
  beta_reduce
  rw [e]
  rfl

/-- `mps[i] = einsum('ab,bcd->acd', G, mps[i])`. -/
noncomputable def siteStep (G : Tensor ℂ) (i : ℤ) (mps : List (Tensor ℂ)) : Py (List (Tensor ℂ)) := do
  let t ← pyGet mps i
  pySet mps i (← Tensor.einsum_ab_bcd G t)

/-- What is known about functions on matrix product states acting as an operator, using a number of
decompositions, when this is preserved by composition and holds of a gate on one site, on two and on
three neighbouring sites. -/
structure Theory (N : ℕ) (svd : SVDOracle) where
  /-- `f` acts as `M`, using `c` decompositions. -/
  Act : (List (Tensor ℂ) → TNM (List (Tensor ℂ))) → QOp N → ℕ → Prop
  nop : Act (fun mps => pure mps) 1 0
  comp : ∀ {f g : List (Tensor ℂ) → TNM (List (Tensor ℂ))} {M M' : QOp N} {c c' : ℕ},
    Act f M c → Act g M' c' → Act (fun mps => f mps >>= g) (M' * M) (c + c')
  site : ∀ (i : Fin N) {G : Tensor ℂ} {m : Mat2}, Represents2 G m → IsU2 m →
    Act (fun mps => TNM.lift (siteStep G ((i : ℕ) : ℤ) mps)) (onQubit i m) 0
  two : ∀ {G : Tensor ℂ} {M : QOp 2}, Represents G M → IsUnitaryOp M → ∀ {f : Fin 2 → Fin N} {i : ℕ},
    (∀ j, (f j : ℕ) = i + j) → Act (fun mps => Gate.applyTwo svd G mps (i : ℤ)) (embed f M) 1
  three : ∀ {G : Tensor ℂ} {M : QOp 3}, Represents G M → IsUnitaryOp M → ∀ {f : Fin 3 → Fin N} {i : ℕ},
    (∀ j, (f j : ℕ) = i + j) → Act (fun mps => Gate.applyThree svd G mps ((i : ℤ) + 1)) (embed f M) 2

/-- Exact action when the decompositions lose nothing. -/
def exactTheory (N : ℕ) {svd : SVDOracle} (hv : ValidSVD svd) : Theory N svd where
  Act f M _ := Acts f M
  nop := acts_pure
  comp h h' := h.comp h'
  site i _ _ hG hU := acts_lift (onQubit_unitary hU i) (fun mps v h => by
    obtain ⟨t, t', e1, e2, e3, h'⟩ := site_ok hG h i
    refine ⟨_, ?_, h'⟩
    unfold siteStep
    rw [e1, Py.ok_bind, e2, Py.ok_bind, e3])
  two hG hU _ _ hf := acts_two hv hG hU hf
  three hG hU _ _ hf := acts_three hv hG hU hf

namespace Theory

variable {N : ℕ} {svd : SVDOracle} (T : Theory N svd)

theorem congr {f g : List (Tensor ℂ) → TNM (List (Tensor ℂ))} {M : QOp N} {c : ℕ}
    (hf : T.Act f M c) (h : ∀ mps, g mps = f mps) : T.Act g M c := by
  have : g = f := funext h
  rwa [this]

theorem cast {f : List (Tensor ℂ) → TNM (List (Tensor ℂ))} {M M' : QOp N} {c c' : ℕ}
    (hf : T.Act f M c) (h : M = M') (h' : c = c') : T.Act f M' c' := h ▸ h' ▸ hf

theorem foldlM {α : Type} (F : α → List (Tensor ℂ) → TNM (List (Tensor ℂ)))
    (Mo : α → QOp N) (C : α → ℕ) (l : List α) (h : ∀ a ∈ l, T.Act (F a) (Mo a) (C a)) :
    T.Act (fun mps => l.foldlM (fun mps a => F a mps) mps) (timeOrdered (l.map Mo)) (l.map C).sum := by
  induction l with
  | nil => exact T.nop
  | cons a l ih =>
    have h1 := T.comp (h a (by simp)) (ih (fun b hb => h b (by simp [hb])))
    refine T.cast (T.congr h1 (fun mps => ?_)) ?_ ?_
    · rw [List.foldlM_cons]
    · rw [List.map_cons, timeOrdered_cons]
    · simp

/-- A loop over steps with one decomposition each. -/
theorem foldlM_one {α : Type} (F : α → List (Tensor ℂ) → TNM (List (Tensor ℂ)))
    (Mo : α → QOp N) (l : List α) (h : ∀ a ∈ l, T.Act (F a) (Mo a) 1) :
    T.Act (fun mps => l.foldlM (fun mps a => F a mps) mps) (timeOrdered (l.map Mo)) l.length :=
  T.cast (T.foldlM F Mo (fun _ => 1) l h) rfl (by simp)

end Theory

end QTN
