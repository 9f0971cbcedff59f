import Verif.Lemmas.Merge
import Verif.Lemmas.Holds
import Verif.Lemmas.Reject
import Verif.Lemmas.MpsOps

/-! # Inner products and local expectation values of matrix product states -/

namespace QTN

open Finset Spec Matrix

theorem permute_rot3 {t : Tensor ℂ} {a b c : ℕ} (h : t.shape = [a, b, c]) :
    ∃ t', t.permute [1, 2, 0] = .ok t' ∧ t'.shape = [b, c, a] ∧
      ∀ x y z, x < a → y < b → z < c → t'.get [y, z, x] = t.get [x, y, z] := by
  obtain ⟨t', e, s, g⟩ := Tensor.permute_fn (t := t) (Equiv.addRight (1 : Fin 3)) (d := ![a, b, c])
    (by rw [h]; rfl) (p := [1, 2, 0]) rfl
  refine ⟨t', e, s, fun x y z hx hy hz => ?_⟩
  exact g ![y, z, x] (by intro k; fin_cases k; exacts [hy, hz, hx])

theorem permute_back3 {t : Tensor ℂ} {a b c : ℕ} (h : t.shape = [a, b, c]) :
    ∃ t', t.permute [2, 0, 1] = .ok t' ∧ t'.shape = [c, a, b] ∧
      ∀ x y z, x < a → y < b → z < c → t'.get [z, x, y] = t.get [x, y, z] := by
  obtain ⟨t', e, s, g⟩ := Tensor.permute_fn (t := t) (Equiv.addRight (2 : Fin 3)) (d := ![a, b, c])
    (by rw [h]; rfl) (p := [2, 0, 1]) rfl
  refine ⟨t', e, s, fun x y z hx hy hz => ?_⟩
  exact g ![z, x, y] (by intro k; fin_cases k; exacts [hz, hx, hy])

theorem unsqueeze_neg {α : Type} [Zero α] {t : Tensor α} (p q : List ℕ) (h : t.shape = p ++ q) :
    ∃ t', t.unsqueeze (-((q.length + 1 : ℕ) : ℤ)) = .ok t' ∧ t'.shape = p ++ 1 :: q ∧
      ∀ i j, inB p i = true → inB q j = true → t'.get (i ++ 0 :: j) = t.get (i ++ j) := by
  obtain ⟨t', e, r⟩ := Tensor.unsqueeze_at p q h
  refine ⟨t', ?_, r⟩
  rw [← e]
  have hr : t.rank = p.length + q.length := by simp [Tensor.rank, h]
  unfold Tensor.unsqueeze
  have w : wrapIdx (t.rank + 1) (-((q.length + 1 : ℕ) : ℤ)) = wrapIdx (t.rank + 1) (p.length : ℤ) := by
    rw [wrapIdx_nat (by omega), hr]
    unfold wrapIdx
    rw [if_neg (by omega), if_pos (by omega)]
    congr 1
    omega
  rw [w]

theorem bcastRev_one_left (b : ℕ) (as bs : List ℕ) :
    Tensor.bcastRev (1 :: as) (b :: bs) = (Tensor.bcastRev as bs).map (b :: ·) := by
  rw [Tensor.bcastRev]
  by_cases h : 1 = b
  · rw [if_pos h, h]
  · rw [if_neg h, if_pos rfl]

theorem bcastRev_one_right (a : ℕ) (as bs : List ℕ) :
    Tensor.bcastRev (a :: as) (1 :: bs) = (Tensor.bcastRev as bs).map (a :: ·) := by
  rw [Tensor.bcastRev]
  by_cases h : a = 1
  · rw [if_pos h]
  · rw [if_neg h, if_neg h, if_pos rfl]

theorem bcastRev_nn (s : List ℕ) : Tensor.bcastRev [] s = some s := rfl

/-! ## One site -/

theorem innerSite_ok {A B : Tensor ℂ} {l r l' r' : ℕ} (hA : A.shape = [2, l, r])
    (hB : B.shape = [2, l', r']) :
    ∃ s : Tensor ℂ, innerSite A B = .ok s.squeeze ∧ s.shape = [l, l', r, r', 1, 1] ∧
      ∀ a b c d, a < l → b < l' → c < r → d < r' → s.get [a, b, c, d, 0, 0] =
        ∑ x ∈ range 2, star (B.get [x, b, d]) * A.get [x, a, c] := by
  obtain ⟨a0, e0, s0, g0⟩ := permute_rot3 hA
  obtain ⟨b0, f0, t0, h0⟩ := permute_rot3 hB
  obtain ⟨a1, e1, s1, g1⟩ := Tensor.unsqueeze_at (t := a0) [l] [r, 2] s0
  obtain ⟨b1, f1, t1, h1⟩ := Tensor.unsqueeze_at (t := b0) [] [l', r', 2] t0
  obtain ⟨a2, e2, s2, g2⟩ := Tensor.unsqueeze_at (t := a1) [l, 1, r] [2] s1
  obtain ⟨b2, f2, t2, h2⟩ := Tensor.unsqueeze_at (t := b1) [1, l'] [r', 2] t1
  obtain ⟨a3, e3, s3, g3⟩ := Tensor.unsqueeze_at (t := a2) [l, 1, r, 1, 2] [] s2
  obtain ⟨b3, f3, t3, h3⟩ := Tensor.unsqueeze_at (t := b2) [1, l', 1, r'] [2] t2
  have t3' : b3.conj.shape = [1, l', 1, r'] ++ [1, 2] := t3
  have s3' : a3.shape = [l, 1, r, 1] ++ [2, 1] := s3
  have hb : Tensor.bcast [1, l', 1, r'] [l, 1, r, 1] = some [l, l', r, r'] := by
    simp only [Tensor.bcast, List.reverse_cons, List.reverse_nil, List.nil_append, List.cons_append,
      bcastRev_one_left, bcastRev_one_right, bcastRev_nn, Option.map_some]
  obtain ⟨s, es, ss, gs⟩ := Tensor.matmul_nd t3' s3' hb
  refine ⟨s, ?_, ss, ?_⟩
  · unfold innerSite
    rw [e0, Py.ok_bind, f0, Py.ok_bind]
    erw [e1, Py.ok_bind, f1, Py.ok_bind, e2, Py.ok_bind, f2, Py.ok_bind, e3, Py.ok_bind, f3, Py.ok_bind]
    rw [es]
    rfl
  · intro a b c d ha hb hc hd
    have := gs [a, b, c, d] 0 0 (by simp [ha, hb, hc, hd]) (by omega) (by omega)
    rw [show ([a, b, c, d, 0, 0] : List ℕ) = [a, b, c, d] ++ [0, 0] from rfl, this]
    apply Finset.sum_congr rfl
    intro x hx
    have hx := Finset.mem_range.1 hx
    have i1 : Tensor.bIdx [1, l', 1, r'] [a, b, c, d] = [0, b, 0, d] := by
      simp [Tensor.bIdx, one_idx hb, one_idx hd]
    have i2 : Tensor.bIdx [l, 1, r, 1] [a, b, c, d] = [a, 0, c, 0] := by
      simp [Tensor.bIdx, one_idx ha, one_idx hc]
    rw [i1, i2]
    congr 1
    · unfold Tensor.conj
      rw [Tensor.get_ofFn (by rw [t3]; change inB [1, l', 1, r', 1, 2] [0, b, 0, d, 0, x] = true; inb)]
      change star (b3.get [0, b, 0, d, 0, x]) = _
      have q3 := h3 [0, b, 0, d] [x] (by inb) (by inb)
      have q2 := h2 [0, b] [d, x] (by inb) (by inb)
      have q1 := h1 [] [b, d, x] rfl (by inb)
      have q0 := h0 x b d hx hb hd
      simp only [List.cons_append, List.nil_append] at q3 q2 q1
      rw [q3, q2, q1, q0]
    · change a3.get [a, 0, c, 0, x, 0] = _
      have q3 := g3 [a, 0, c, 0, x] [] (by inb) rfl
      have q2 := g2 [a, 0, c] [x] (by inb) (by inb)
      have q1 := g1 [a] [c, x] (by inb) (by inb)
      have q0 := g0 x a c hx ha hc
      simp only [List.cons_append, List.nil_append] at q3 q2 q1
      rw [q3, q2, q1, q0]

/-! ## Squeezing the site tensor -/

theorem squeeze4 {s : Tensor ℂ} {a b c d : ℕ} (h : s.shape = [a, b, c, d, 1, 1]) (ha : a ≠ 1) (hb : b ≠ 1)
    (hc : c ≠ 1) (hd : d ≠ 1) : s.squeeze.shape = [a, b, c, d] ∧
    ∀ i j k m, i < a → j < b → k < c → m < d → s.squeeze.get [i, j, k, m] = s.get [i, j, k, m, 0, 0] := by
  unfold Tensor.squeeze
  rw [h]
  refine ⟨by simp [ha, hb, hc, hd], fun i j k m hi hj hk hm => ?_⟩
  rw [Tensor.get_ofFn (by simp [ha, hb, hc, hd, hi, hj, hk, hm])]
  simp [Tensor.unsqIdx, ha, hb, hc, hd]

theorem squeeze_first {s : Tensor ℂ} {c d : ℕ} (h : s.shape = [1, 1, c, d, 1, 1]) (hc : c ≠ 1) (hd : d ≠ 1) :
    s.squeeze.shape = [c, d] ∧
    ∀ k m, k < c → m < d → s.squeeze.get [k, m] = s.get [0, 0, k, m, 0, 0] := by
  unfold Tensor.squeeze
  rw [h]
  refine ⟨by simp [hc, hd], fun k m hk hm => ?_⟩
  rw [Tensor.get_ofFn (by simp [hc, hd, hk, hm])]
  simp [Tensor.unsqIdx, hc, hd]

theorem squeeze_last2 {s : Tensor ℂ} {a b : ℕ} (h : s.shape = [a, b, 1, 1, 1, 1]) (ha : a ≠ 1) (hb : b ≠ 1) :
    s.squeeze.shape = [a, b] ∧
    ∀ k m, k < a → m < b → s.squeeze.get [k, m] = s.get [k, m, 0, 0, 0, 0] := by
  unfold Tensor.squeeze
  rw [h]
  refine ⟨by simp [ha, hb], fun k m hk hm => ?_⟩
  rw [Tensor.get_ofFn (by simp [ha, hb, hk, hm])]
  simp [Tensor.unsqIdx, ha, hb]

theorem squeeze_two2 {s : Tensor ℂ} {a b : ℕ} (h : s.shape = [a, b, 1, 1]) (ha : a ≠ 1) (hb : b ≠ 1) :
    s.squeeze.shape = [a, b] ∧
    ∀ k m, k < a → m < b → s.squeeze.get [k, m] = s.get [k, m, 0, 0] := by
  unfold Tensor.squeeze
  rw [h]
  refine ⟨by simp [ha, hb], fun k m hk hm => ?_⟩
  rw [Tensor.get_ofFn (by simp [ha, hb, hk, hm])]
  simp [Tensor.unsqIdx, ha, hb]

/-! ## The two kinds of step -/

/-- The operand `t` reshaped to `[1, l, 1, l']`. -/
theorem inner_left {t : Tensor ℂ} {l l' : ℕ} (h : t.shape = [l, l']) :
    ∃ a u, t.unsqueeze (-2) = .ok a ∧ a.unsqueeze (-4) = .ok u ∧ u.shape = [1, l] ++ [1, l'] ∧
      ∀ i k, i < l → k < l' → u.get [0, i, 0, k] = t.get [i, k] := by
  obtain ⟨a, e1, s1, g1⟩ := unsqueeze_neg (t := t) [l] [l'] h
  obtain ⟨b, e2, s2, g2⟩ := unsqueeze_neg (t := a) [] [l, 1, l'] s1
  refine ⟨a, b, e1, e2, s2, fun i k hi hk => ?_⟩
  · have q2 := g2 [] [i, 0, k] rfl (by inb)
    have q1 := g1 [i] [k] (by inb) (by inb)
    exact q2.trans q1

theorem inner_right {t : Tensor ℂ} {l l' : ℕ} (p : List ℕ) (h : t.shape = p ++ [l, l']) :
    ∃ a u, t.unsqueeze (-1) = .ok a ∧ a.unsqueeze (-3) = .ok u ∧ u.shape = p ++ [l, 1] ++ [l', 1] ∧
      ∀ x i k, inB p x = true → i < l → k < l' → u.get (x ++ [i, 0] ++ [k, 0]) = t.get (x ++ [i, k]) := by
  obtain ⟨a, e1, s1, g1⟩ := unsqueeze_neg (t := t) (p ++ [l, l']) [] (by simpa using h)
  obtain ⟨b, e2, s2, g2⟩ := unsqueeze_neg (t := a) (p ++ [l]) [l', 1] (by simpa using s1)
  refine ⟨a, b, e1, e2, by simpa using s2, fun x i k hx hi hk => ?_⟩
  · have hxl := inB_length hx
    have q2 := g2 (x ++ [i]) [k, 0] (by rw [inB_append hxl, hx]; simp [hi]) (by inb)
    have q1 := g1 (x ++ [i, k]) [] (by rw [inB_append hxl, hx]; simp [hi, hk]) rfl
    simp only [List.append_assoc, List.cons_append, List.nil_append, List.append_nil] at q1 q2 ⊢
    rw [q2, q1]

theorem inner_step {t n : Tensor ℂ} {l l' r r' : ℕ} (ht : t.shape = [l, l']) (hn : n.shape = [l, l', r, r'])
    (hl : 2 ≤ l) (hr : 2 ≤ r) (hr' : 2 ≤ r') :
    ∃ u, u.shape = [r, r'] ∧ (∀ a b, a < r → b < r' → u.get [a, b] =
        ∑ i ∈ range l, ∑ k ∈ range l', t.get [i, k] * n.get [i, k, a, b]) ∧
      ∀ nxt rest, innerLoop t (n :: nxt :: rest) = innerLoop u (nxt :: rest) := by
  obtain ⟨p, e1, s1, g1⟩ := permute_merge4 hn
  obtain ⟨x', x, e2', e2, s2, g2⟩ := inner_left ht
  obtain ⟨y', y, e3', e3, s3, g3⟩ := inner_right (t := p) [r, r'] s1
  have hb : Tensor.bcast [1, l] ([r, r'] ++ [l, 1]) = some [r, r', l, l] := by
    simp only [Tensor.bcast, List.reverse_cons, List.reverse_nil, List.nil_append, List.cons_append,
      bcastRev_one_left, bcastRev_one_right, bcastRev_nn, Option.map_some]
  obtain ⟨m, e4, s4, g4⟩ := Tensor.matmul_nd s2 s3 hb
  have s4' : m.shape = [r, r', l, l, 1, 1] := s4
  obtain ⟨s5, g5⟩ := squeeze4 s4' (by omega) (by omega) (by omega) (by omega)
  refine ⟨Tensor.ofFn [r, r'] (fun idx => ∑ x ∈ range l, m.squeeze.get [idx.getD 0 0, idx.getD 1 0, x, x]),
    rfl, ?_, ?_⟩
  · intro a b ha hb
    rw [Tensor.get_ofFn (by inb)]
    apply Finset.sum_congr rfl
    intro i hi
    have hi := Finset.mem_range.1 hi
    simp only [List.getD_cons_zero, List.getD_cons_succ]
    rw [g5 a b i i ha hb hi hi]
    have := g4 [a, b, i, i] 0 0 (by inb) (by omega) (by omega)
    rw [show ([a, b, i, i, 0, 0] : List ℕ) = [a, b, i, i] ++ [0, 0] from rfl, this]
    apply Finset.sum_congr rfl
    intro k hk
    have hk := Finset.mem_range.1 hk
    have i1 : Tensor.bIdx [1, l] [a, b, i, i] = [0, i] := by
      simp [Tensor.bIdx, one_idx hi]
    have i2 : Tensor.bIdx ([r, r'] ++ [l, 1]) [a, b, i, i] = [a, b, i, 0] := by
      simp [Tensor.bIdx, one_idx ha, one_idx hb, one_idx hi]
    rw [i1, i2]
    have q1 := g2 i k hi hk
    have q2 := g3 [a, b] i k (by inb) hi hk
    have q3 := g1 i k a b hi hk ha hb
    change x.get [0, i, 0, k] * y.get [a, b, i, 0, k, 0] = _
    rw [q1]
    congr 1
    exact q2.trans q3
  · intro nxt rest
    rw [innerLoop, e1, Py.ok_bind, e2', Py.ok_bind, e2, Py.ok_bind, e3', Py.ok_bind, e3, Py.ok_bind, e4,
      Py.ok_bind]
    unfold Tensor.einsum_abii
    rw [s5]
    simp only [if_true, Py.ok_bind]

theorem inner_final {t n : Tensor ℂ} {l l' : ℕ} (ht : t.shape = [l, l']) (hn : n.shape = [l, l'])
    (hl : 2 ≤ l) : innerLoop t [n] =
      .ok (Tensor.ofFn [] (fun _ => ∑ i ∈ range l, ∑ k ∈ range l', t.get [i, k] * n.get [i, k])) := by
  obtain ⟨x', x, e2', e2, s2, g2⟩ := inner_left ht
  obtain ⟨y', y, e3', e3, s3, g3⟩ := inner_right (t := n) [] hn
  have hb : Tensor.bcast [1, l] ([] ++ [l, 1]) = some [l, l] := by
    simp only [Tensor.bcast, List.reverse_cons, List.reverse_nil, List.nil_append, List.cons_append,
      bcastRev_one_left, bcastRev_one_right, bcastRev_nn, Option.map_some]
  obtain ⟨m, e4, s4, g4⟩ := Tensor.matmul_nd s2 s3 hb
  have s4' : m.shape = [l, l, 1, 1] := s4
  obtain ⟨s5, g5⟩ := squeeze_two2 s4' (by omega) (by omega)
  rw [innerLoop, e2', Py.ok_bind, e2, Py.ok_bind, e3', Py.ok_bind, e3, Py.ok_bind, e4, Py.ok_bind]
  unfold Tensor.trace
  rw [s5]
  simp only [min_self, Py.ok_bind]
  congr 3
  funext _
  apply Finset.sum_congr rfl
  intro i hi
  have hi := Finset.mem_range.1 hi
  rw [g5 i i hi hi]
  have := g4 [i, i] 0 0 (by inb) (by omega) (by omega)
  rw [show ([i, i, 0, 0] : List ℕ) = [i, i] ++ [0, 0] from rfl, this]
  apply Finset.sum_congr rfl
  intro k hk
  have hk := Finset.mem_range.1 hk
  have i1 : Tensor.bIdx [1, l] [i, i] = [0, i] := by
    simp [Tensor.bIdx, one_idx hi]
  have i2 : Tensor.bIdx ([] ++ [l, 1]) [i, i] = [i, 0] := by
    simp [Tensor.bIdx, one_idx hi]
  rw [i1, i2]
  have q1 := g2 i k hi hk
  have q2 := g3 [] i k rfl hi hk
  change x.get [0, i, 0, k] * y.get [i, 0, k, 0] = _
  rw [q1]
  congr 1

/-! ## The whole contraction -/

/-- Shapes `[2, l, m], …, [2, m', 1]` with inner bonds at least 2. -/
def Inner : ℕ → List (Tensor ℂ) → Prop
  | _, [] => False
  | l, [t] => t.shape = [2, l, 1]
  | l, t :: t' :: ts => ∃ m, 2 ≤ m ∧ t.shape = [2, l, m] ∧ Inner m (t' :: ts)

/-- The inner product of the tails for open left bonds `a` and `b`. -/
noncomputable def tailInner (n : ℕ) (ks bs : List (Tensor ℂ)) (a b : ℕ) : ℂ :=
  ∑ x : Bits n, star (amp bs (bl x) b 0) * amp ks (bl x) a 0

theorem sum_swap4 {α β γ δ : Type} (s : Finset α) (t : Finset β) (u : Finset γ) (v : Finset δ)
    (F : α → β → γ → δ → ℂ) :
    ∑ i ∈ s, ∑ j ∈ t, ∑ x ∈ u, ∑ y ∈ v, F i j x y = ∑ x ∈ u, ∑ y ∈ v, ∑ i ∈ s, ∑ j ∈ t, F i j x y := by
  have e1 : ∑ i ∈ s, ∑ j ∈ t, ∑ x ∈ u, ∑ y ∈ v, F i j x y =
      ∑ i ∈ s, ∑ j ∈ t, ∑ p ∈ u ×ˢ v, F i j p.1 p.2 := by simp only [Finset.sum_product]
  have e2 : ∑ i ∈ s, ∑ j ∈ t, ∑ p ∈ u ×ˢ v, F i j p.1 p.2 =
      ∑ p ∈ u ×ˢ v, ∑ i ∈ s, ∑ j ∈ t, F i j p.1 p.2 :=
    (Finset.sum_congr rfl fun i _ => Finset.sum_comm).trans Finset.sum_comm
  rw [e1, e2, Finset.sum_product]

theorem tailInner_cons {n l l' r r' : ℕ} {k b : Tensor ℂ} (hk : k.shape = [2, l, r]) (hb : b.shape = [2, l', r'])
    (ks bs : List (Tensor ℂ)) (i j : ℕ) :
    tailInner (n + 1) (k :: ks) (b :: bs) i j = ∑ i' ∈ range r, ∑ j' ∈ range r',
      (∑ x ∈ range 2, star (b.get [x, j, j']) * k.get [x, i, i']) * tailInner n ks bs i' j' := by
  unfold tailInner
  rw [← (Fin.consEquiv (fun _ : Fin (n + 1) => Fin 2)).sum_comp]
  rw [Fintype.sum_prod_type]
  simp only [Finset.sum_mul_sum, Finset.sum_range (n := 2)]
  rw [sum_swap4]
  apply Finset.sum_congr rfl
  intro x _
  apply Finset.sum_congr rfl
  intro y _
  have e : ∀ z : Bits (n + 1), z = Fin.consEquiv (fun _ : Fin (n + 1) => Fin 2) (x, y) →
      bl z = (x : ℕ) :: bl y := by
    rintro z rfl
    rw [bl_succ]
    rfl
  rw [e _ rfl, amp_cons hk, amp_cons hb, star_sum, Finset.sum_mul_sum, Finset.sum_comm]
  apply Finset.sum_congr rfl
  intro i' _
  apply Finset.sum_congr rfl
  intro j' _
  rw [star_mul']
  ring

theorem inner_loop : ∀ (n : ℕ) (ks bs ss : List (Tensor ℂ)) (l l' : ℕ) (t : Tensor ℂ),
    ks.length = n + 1 → bs.length = n + 1 → Inner l ks → Inner l' bs → 2 ≤ l → 2 ≤ l' →
    t.shape = [l, l'] → List.zipWith innerSite ks bs = ss.map .ok →
    innerLoop t ss = .ok (Tensor.ofFn [] (fun _ =>
      ∑ i ∈ range l, ∑ j ∈ range l', t.get [i, j] * tailInner (n + 1) ks bs i j)) := by
  intro n
  induction n with
  | zero =>
    intro ks bs ss l l' t hk hb ik ib hl hl' ht hs
    obtain ⟨k, rfl⟩ := List.length_eq_one_iff.1 hk
    obtain ⟨b, rfl⟩ := List.length_eq_one_iff.1 hb
    obtain ⟨s, es, sh, g⟩ := innerSite_ok ik ib
    rw [List.zipWith_cons_cons, es] at hs
    obtain ⟨s', rfl⟩ : ∃ s', ss = [s'] := by
      cases ss with
      | nil => simp at hs
      | cons a ss => cases ss with
        | nil => exact ⟨a, rfl⟩
        | cons b ss => simp at hs
    simp only [List.zipWith_nil_left, List.map_cons, List.map_nil, List.cons.injEq, Except.ok.injEq,
      and_true] at hs
    subst hs
    obtain ⟨h1, h2⟩ := squeeze_last2 sh (by omega) (by omega)
    rw [inner_final ht h1 hl]
    congr 2
    funext _
    apply Finset.sum_congr rfl
    intro i hi
    apply Finset.sum_congr rfl
    intro j hj
    have hi := Finset.mem_range.1 hi
    have hj := Finset.mem_range.1 hj
    rw [h2 i j hi hj, g i j 0 0 hi hj (by omega) (by omega), tailInner_cons ik ib]
    simp [tailInner, amp]
  | succ n ih =>
    intro ks bs ss l l' t hk hb ik ib hl hl' ht hs
    match ks, bs, ss, hk, hb, ik, ib, hs with
    | k :: k' :: ks, b :: b' :: bs, ss, hk, hb, ik, ib, hs =>
      obtain ⟨m, hm, hks, ik⟩ := ik
      obtain ⟨m', hm', hbs, ib⟩ := ib
      obtain ⟨s, es, sh, g⟩ := innerSite_ok hks hbs
      rw [List.zipWith_cons_cons, es] at hs
      match ss, hs with
      | s0 :: s1 :: ss, hs =>
        rw [List.map_cons, List.cons.injEq, Except.ok.injEq] at hs
        obtain ⟨rfl, hs⟩ := hs
        obtain ⟨h1, h2⟩ := squeeze4 sh (by omega) (by omega) (by omega) (by omega)
        obtain ⟨u, su, gu, eu⟩ := inner_step ht h1 hl hm hm'
        rw [eu, ih (k' :: ks) (b' :: bs) (s1 :: ss) m m' u (by simpa using hk) (by simpa using hb) ik ib hm hm'
          su hs]
        congr 2
        funext _
        have e1 : ∀ i ∈ range m, ∀ j ∈ range m', u.get [i, j] * tailInner (n + 1) (k' :: ks) (b' :: bs) i j =
            ∑ p ∈ range l, ∑ q ∈ range l', t.get [p, q] * s.squeeze.get [p, q, i, j] *
              tailInner (n + 1) (k' :: ks) (b' :: bs) i j := by
          intro i hi j hj
          rw [gu i j (Finset.mem_range.1 hi) (Finset.mem_range.1 hj), Finset.sum_mul]
          simp only [Finset.sum_mul]
        rw [Finset.sum_congr rfl fun i hi => Finset.sum_congr rfl fun j hj => e1 i hi j hj, sum_swap4]
        apply Finset.sum_congr rfl
        intro p hp
        apply Finset.sum_congr rfl
        intro q hq
        have hp := Finset.mem_range.1 hp
        have hq := Finset.mem_range.1 hq
        rw [tailInner_cons hks hbs, Finset.mul_sum]
        apply Finset.sum_congr rfl
        intro i hi
        rw [Finset.mul_sum]
        apply Finset.sum_congr rfl
        intro j hj
        have hi := Finset.mem_range.1 hi
        have hj := Finset.mem_range.1 hj
        rw [h2 p q i j hp hq hi hj, g p q i j hp hq hi hj]
        ring

/-- The left bond dimension of site `i`. -/
def leftBond (mps : List (Tensor ℂ)) (i : ℕ) : ℕ := (mps.getD i (Tensor.zeros [])).shape.getD 1 0

theorem inner_of_chain : ∀ (ts : List (Tensor ℂ)) (l : ℕ), ts ≠ [] → Chain l ts 1 →
    (∀ i, 0 < i → i < ts.length → 2 ≤ leftBond ts i) → Inner l ts := by
  intro ts
  induction ts with
  | nil => intro l h; exact absurd rfl h
  | cons t ts ih =>
    intro l _ hc hb
    obtain ⟨hl, m, ht, hc⟩ := hc
    cases ts with
    | nil =>
      cases hc
      exact ht
    | cons t' ts =>
      refine ⟨m, ?_, ht, ih m (by simp) hc ?_⟩
      · have := hb 1 (by omega) (by simp)
        obtain ⟨-, m', ht', -⟩ := hc
        simpa [leftBond, ht'] using this
      · intro i h0 hi
        have := hb (i + 1) (by omega) (by simpa using hi)
        simpa [leftBond] using this

theorem sites_exist {l l' r r' : ℕ} : ∀ {ks bs : List (Tensor ℂ)}, Chain l ks r → Chain l' bs r' →
    ∃ ss : List (Tensor ℂ), List.zipWith innerSite ks bs = ss.map .ok := by
  intro ks
  induction ks generalizing l l' with
  | nil => intro bs _ _; exact ⟨[], by simp⟩
  | cons k ks ih =>
    intro bs hk hb
    cases bs with
    | nil => exact ⟨[], by simp⟩
    | cons b bs =>
      obtain ⟨-, m, hks, hk⟩ := hk
      obtain ⟨-, m', hbs, hb⟩ := hb
      obtain ⟨ss, h⟩ := ih hk hb
      obtain ⟨s, es, -⟩ := innerSite_ok hks hbs
      exact ⟨s.squeeze :: ss, by rw [List.zipWith_cons_cons, es, h]; rfl⟩

theorem inner_sites (bra : List (Tensor ℂ)) : ∀ (ks bs pre ss : List (Tensor ℂ)), bra = pre ++ bs →
    ks.length = bs.length → List.zipWith innerSite ks bs = ss.map .ok →
    (ks.zipIdx pre.length).mapM (fun (ti : Tensor ℂ × ℕ) => do
      innerSite ti.1 (← pyGet bra ti.2)) = .ok ss := by
  intro ks
  induction ks with
  | nil =>
    intro bs pre ss _ _ h
    have : ss = [] := by simpa using h.symm
    subst this
    rfl
  | cons k ks ih =>
    intro bs pre ss hb hl h
    cases bs with
    | nil => simp at hl
    | cons b bs =>
      cases ss with
      | nil => simp at h
      | cons s ss =>
        simp only [List.zipWith_cons_cons, List.map_cons, List.cons.injEq] at h
        have := ih bs (pre ++ [b]) ss (by simp [hb]) (by simpa using hl) h.2
        rw [List.length_append, List.length_singleton] at this
        rw [List.zipIdx_cons, List.mapM_cons]
        have e : pyGet bra ((pre.length : ℕ) : ℤ) = .ok b := by
          rw [pyGet_nat (by rw [hb]; simp)]
          simp [hb]
        dsimp only
        rw [e, Py.ok_bind, h.1, Py.ok_bind, this]
        rfl

theorem inner_ok {N : ℕ} (hN : 2 ≤ N) {ket bra : List (Tensor ℂ)} {v w : QState N} (hk : IsMPS ket v)
    (hb : IsMPS bra w) (bk : ∀ i, 0 < i → i < N → 2 ≤ leftBond ket i)
    (bb : ∀ i, 0 < i → i < N → 2 ≤ leftBond bra i) :
    MPS_inner_product ket bra = .ok (Tensor.ofFn [] (fun _ => ∑ a, star (w a) * v a)) := by
  obtain ⟨lk, ck, ak⟩ := hk
  obtain ⟨lb, cb, ab⟩ := hb
  have ik := inner_of_chain ket 1 (by rintro rfl; simp at lk; omega) ck (by rwa [lk])
  have ib := inner_of_chain bra 1 (by rintro rfl; simp at lb; omega) cb (by rwa [lb])
  obtain ⟨ss, hs⟩ := sites_exist ck cb
  unfold MPS_inner_product
  have := inner_sites bra ket bra [] ss rfl (by rw [lk, lb]) hs
  rw [List.length_nil] at this
  rw [this, Py.ok_bind]
  obtain ⟨n, rfl⟩ : ∃ n, N = n + 1 + 1 := ⟨N - 2, by omega⟩
  match ket, bra, ss, lk, lb, ck, cb, ik, ib, hs with
  | _ :: _ :: _, _ :: _ :: _, [_], _, _, _, _, _, _, hs => simp at hs
  | k :: k' :: ks, b :: b' :: bs, s0 :: s1 :: ss, lk, lb, ck, cb, ik, ib, hs =>
    obtain ⟨m, hm, hks, ik⟩ := ik
    obtain ⟨m', hm', hbs, ib⟩ := ib
    obtain ⟨s, es, sh, g⟩ := innerSite_ok hks hbs
    rw [List.zipWith_cons_cons, es, List.map_cons, List.cons.injEq, Except.ok.injEq] at hs
    obtain ⟨rfl, hs⟩ := hs
    obtain ⟨h1, h2⟩ := squeeze_first sh (by omega) (by omega)
    dsimp only
    rw [inner_loop n (k' :: ks) (b' :: bs) (s1 :: ss) m m' s.squeeze (by simpa using lk) (by simpa using lb) ik ib
      hm hm' h1 hs]
    congr 2
    funext _
    have e : ∑ a, star (w a) * v a = tailInner (n + 1 + 1) (k :: k' :: ks) (b :: b' :: bs) 0 0 := by
      unfold tailInner
      simp only [ak, ab]
    rw [e, tailInner_cons hks hbs]
    apply Finset.sum_congr rfl
    intro i hi
    apply Finset.sum_congr rfl
    intro j hj
    have hi := Finset.mem_range.1 hi
    have hj := Finset.mem_range.1 hj
    rw [h2 i j hi hj, g 0 0 i j (by omega) (by omega) hi hj]

/-! ## Thin bonds -/

theorem squeeze_rank (s : Tensor ℂ) : s.squeeze.rank = (s.shape.filter (· ≠ 1)).length := rfl

theorem permute_rank_raises {t : Tensor ℂ} (h : t.rank ≠ 4) : Raises (t.permute [2, 3, 0, 1]) := by
  unfold Tensor.permute
  rw [raiseIf_true (by simp; omega)]
  exact ⟨_, rfl⟩

theorem innerLoop_raises {s s' : Tensor ℂ} (post : List (Tensor ℂ)) (h : s.rank ≠ 4) :
    ∀ (pre : List (Tensor ℂ)) (t : Tensor ℂ), Raises (innerLoop t (pre ++ s :: s' :: post)) := by
  intro pre
  induction pre with
  | nil =>
    intro t
    rw [List.nil_append, innerLoop]
    obtain ⟨e, he⟩ := permute_rank_raises h
    rw [he]
    exact ⟨e, rfl⟩
  | cons p pre ih =>
    intro t
    obtain ⟨q, qs, hq⟩ : ∃ q qs, pre ++ s :: s' :: post = q :: qs := by
      cases pre with
      | nil => exact ⟨_, _, rfl⟩
      | cons a as => exact ⟨_, _, rfl⟩
    rw [List.cons_append, hq, innerLoop, ← hq]
    refine bind_raises fun _ _ => bind_raises fun _ _ => bind_raises fun _ _ => bind_raises fun _ _ =>
      bind_raises fun _ _ => bind_raises fun _ _ => bind_raises fun u _ => ih u

theorem inner_two_raises {t n : Tensor ℂ} (h : t.rank < 2) : Raises (innerLoop t [n]) := by
  rw [innerLoop]
  by_cases h0 : t.rank = 0
  · unfold Tensor.unsqueeze
    rw [h0]
    exact ⟨_, rfl⟩
  · have h1 : t.rank = 1 := by omega
    refine bind_raises fun a ha => ?_
    have hr : a.rank = 2 := by
      unfold Tensor.unsqueeze at ha
      rw [h1] at ha
      have ha := Except.ok.inj ha
      rw [← ha]
      have : t.shape.length = 1 := h1
      simp [Tensor.rank, Tensor.ofFn, this]
    unfold Tensor.unsqueeze
    rw [hr]
    exact ⟨_, rfl⟩

theorem inner_thin {N : ℕ} {ket bra : List (Tensor ℂ)} {v w : QState N} (hk : IsMPS ket v)
    (hb : IsMPS bra w) (h : ∃ i, 0 < i ∧ i < N ∧ (leftBond ket i = 1 ∨ leftBond bra i = 1)) :
    Raises (MPS_inner_product ket bra) := by
  obtain ⟨lk, ck, ak⟩ := hk
  obtain ⟨lb, cb, ab⟩ := hb
  obtain ⟨i, hi0, hiN, hi⟩ := h
  obtain ⟨ss, hs⟩ := sites_exist ck cb
  obtain ⟨Dk, dk0, -, -, dk⟩ := dims_of_chain ket 1 1 (by omega) ck
  obtain ⟨Db, db0, -, -, db⟩ := dims_of_chain bra 1 1 (by omega) cb
  have hl : ss.length = N := by
    have := congrArg List.length hs
    simpa [lk, lb] using this.symm
  have hrank : ∀ (j : ℕ) (hj : j < ss.length), ss[j].rank =
      (([Dk j, Db j, Dk (j + 1), Db (j + 1), 1, 1] : List ℕ).filter (· ≠ 1)).length := by
    intro j hj
    have e1 : (List.zipWith innerSite ket bra)[j]'(by simp; omega) = (ss.map .ok)[j]'(by simpa using hj) := by
      simp only [hs]
    rw [List.getElem_zipWith, List.getElem_map] at e1
    obtain ⟨s, es, sh, -⟩ := innerSite_ok (dk j (by omega)) (db j (by omega))
    rw [es] at e1
    have e1 := Except.ok.inj e1
    rw [← e1, squeeze_rank, sh]
  have hi' : Dk i = 1 ∨ Db i = 1 := by
    have e1 : leftBond ket i = Dk i := by
      simp [leftBond, List.getD_eq_getElem?_getD, List.getElem?_eq_getElem (show i < ket.length by omega), dk i (by omega)]
    have e2 : leftBond bra i = Db i := by
      simp [leftBond, List.getD_eq_getElem?_getD, List.getElem?_eq_getElem (show i < bra.length by omega), db i (by omega)]
    rwa [e1, e2] at hi
  unfold MPS_inner_product
  have := inner_sites bra ket bra [] ss rfl (by rw [lk, lb]) hs
  rw [List.length_nil] at this
  rw [this, Py.ok_bind]
  clear this hs
  match ss, hl, hrank with
  | [], hl, _ => simp at hl; omega
  | [s0], hl, _ => simp at hl; omega
  | [s0, s1], hl, hrank =>
    simp at hl
    have : i = 1 := by omega
    subst this
    apply inner_two_raises
    have := hrank 0 (by simp)
    rw [List.getElem_cons_zero] at this
    rw [this]
    rcases hi' with h | h
    · by_cases h' : Db 1 = 1 <;> simp [dk0, db0, h, h']
    · by_cases h' : Dk 1 = 1 <;> simp [dk0, db0, h, h']
  | s0 :: s1 :: s2 :: ss, hl, hrank =>
    simp only [List.length_cons] at hl
    have hj : ∃ (j : ℕ) (hj : j + 1 < (s1 :: s2 :: ss).length), (s1 :: s2 :: ss)[j].rank ≠ 4 := by
      have key : ∀ (j : ℕ) (hj : j + 1 < (s1 :: s2 :: ss).length), (i = j + 1 ∨ i = j + 2) →
          (s1 :: s2 :: ss)[j].rank ≠ 4 := by
        intro j hj hij
        have := hrank (j + 1) (by simp at hj ⊢; omega)
        rw [List.getElem_cons_succ] at this
        rw [this]
        apply ne_of_lt
        have f1 : ∀ a b c d : ℕ, (a = 1 ∨ b = 1 ∨ c = 1 ∨ d = 1) →
            (([a, b, c, d, 1, 1] : List ℕ).filter (· ≠ 1)).length < 4 := by
          intro a b c d h
          have e : ([a, b, c, d, 1, 1] : List ℕ).filter (· ≠ 1) = [a, b, c, d].filter (· ≠ 1) := by
            simp [List.filter_cons]
          rw [e]
          have := List.length_filter_lt_length_iff_exists (p := fun x : ℕ => decide (x ≠ 1)) (l := [a, b, c, d])
          simp only [List.length_cons, List.length_nil] at this
          apply this.2
          rcases h with h | h | h | h <;> simp [h]
        apply f1
        rcases hij with rfl | rfl
        · rcases hi' with h | h
          · exact .inl h
          · exact .inr (.inl h)
        · rcases hi' with h | h
          · exact .inr (.inr (.inl h))
          · exact .inr (.inr (.inr h))
      by_cases h1 : i = 1
      · exact ⟨0, by simp, key 0 (by simp) (.inl h1)⟩
      · exact ⟨i - 2, by simp; omega, key (i - 2) (by simp; omega) (.inr (by omega))⟩
    obtain ⟨j, hj, hr⟩ := hj
    have e : s1 :: s2 :: ss = (s1 :: s2 :: ss).take j ++
        (s1 :: s2 :: ss)[j] :: (s1 :: s2 :: ss)[j + 1] :: (s1 :: s2 :: ss).drop (j + 2) := by
      rw [← List.drop_eq_getElem_cons (by omega), ← List.drop_eq_getElem_cons (by omega), List.take_append_drop]
    have := innerLoop_raises (s' := (s1 :: s2 :: ss)[j + 1]) ((s1 :: s2 :: ss).drop (j + 2)) hr
      ((s1 :: s2 :: ss).take j) s0
    rw [← e] at this
    exact this

/-! ## Local observables -/

theorem expecStep_ok {N : ℕ} {G : Tensor ℂ} {M : Mat2} (hG : Represents2 G M) {mps : List (Tensor ℂ)}
    {v : QState N} (h : IsMPS mps v) (i : Fin N) :
    ∃ mps', expecStep mps ((i : ℕ) : ℤ) G = .ok mps' ∧ IsMPS mps' (onQubit i M *ᵥ v) := by
  obtain ⟨t, t', e1, e2, e3, h'⟩ := site_ok hG h i
  have hlen : (i : ℕ) < mps.length := by rw [h.1]; exact i.isLt
  obtain ⟨D, -, -, -, hs⟩ := dims_of_chain mps 1 1 (by omega) h.2.1
  rw [pyGet_nat hlen] at e1
  have e1' := Except.ok.inj e1
  have ht : t.shape = [2, D i, D (i + 1)] := by rw [← e1']; exact hs i hlen
  obtain ⟨a, ea, sa, ga⟩ := permute_rot3 ht
  obtain ⟨b, eb, sb, gb⟩ := unsqueeze_neg (t := a) [D i, D (i + 1), 2] [] sa
  obtain ⟨c, ec, sc, gc⟩ := matmul_last (G := G) (t := b) hG.1 sb
  obtain ⟨d, ed, sd, gd⟩ := Tensor.squeezeDim_last (t := c) (s := [D i, D (i + 1), 2]) sc
  obtain ⟨f, ef, sf, gf⟩ := permute_back3 sd
  refine ⟨mps.set i t', ?_, h'⟩
  have e2' := e2
  unfold Tensor.einsum_ab_bcd at e2'
  rw [hG.1, ht] at e2'
  simp only [if_true] at e2'
  have e2' := Except.ok.inj e2'
  have hft : f = t' := by
    subst e2'
    refine Tensor.ext' sf ?_
    intro idx hidx
    rw [sf] at hidx
    obtain ⟨x, y, z, rfl, hx, hy, hz⟩ : ∃ x y z, idx = [x, y, z] ∧ x < 2 ∧ y < D i ∧ z < D (i + 1) := by
      obtain ⟨x, y, z, rfl⟩ := List.length_eq_three.1 (inB_length hidx)
      simp only [inB_cons, inB_nil, Bool.and_true, Bool.and_eq_true, decide_eq_true_eq] at hidx
      exact ⟨x, y, z, rfl, hidx.1, hidx.2.1, hidx.2.2⟩
    rw [gf y z x hy hz hx, gd [y, z, x] (by inb), Tensor.get_ofFn (by inb)]
    change c.get [y, z, x, 0] = _
    rw [gc y z x hy hz hx]
    apply Finset.sum_congr rfl
    intro q hq
    have hq := Finset.mem_range.1 hq
    have w := gb [y, z, q] [] (by inb) rfl
    simp only [List.cons_append, List.nil_append] at w
    rw [w, ga q y z hq hy hz]
    rfl
  unfold expecStep
  have ed' : c.squeezeDim 3 = .ok d := by
    rw [← ed]
    unfold Tensor.squeezeDim
    have : c.rank = 4 := by simp [Tensor.rank, sc]
    rw [this]
    rfl
  rw [pyGet_nat hlen, e1', Py.ok_bind, ea, Py.ok_bind]
  erw [eb, Py.ok_bind]
  rw [ec, Py.ok_bind, ed', Py.ok_bind, ef, Py.ok_bind, hft, e3]

end QTN
