import Verif.Lemmas.SvMps
import Verif.Lemmas.Merge

/-! # Density matrices and matrix product density operators -/

namespace QTN

open Finset Spec Matrix

/-- Sites of shapes `[2, 2, l, m], [2, 2, m, m'], …`. -/
def Chain4 : ℕ → List (Tensor ℂ) → ℕ → Prop
  | l, [], r => l = r
  | l, t :: ts, r => 0 < l ∧ ∃ m, t.shape = [2, 2, l, m] ∧ Chain4 m ts r

/-- Product of the site matrices selected by row bits `xs` and column bits `ys`. -/
noncomputable def amp4 : List (Tensor ℂ) → List ℕ → List ℕ → ℕ → ℕ → ℂ
  | [], _, _, i, j => if i = j then 1 else 0
  | t :: ts, xs, ys, i, j => ∑ k ∈ range (t.shape.getD 3 0),
      t.get [xs.headD 0, ys.headD 0, i, k] * amp4 ts xs.tail ys.tail k j

theorem amp4_cons {t : Tensor ℂ} {l m : ℕ} (h : t.shape = [2, 2, l, m]) (ts : List (Tensor ℂ)) (x y : ℕ)
    (xs ys : List ℕ) (i j : ℕ) :
    amp4 (t :: ts) (x :: xs) (y :: ys) i j = ∑ k ∈ range m, t.get [x, y, i, k] * amp4 ts xs ys k j := by
  simp [amp4, h]

theorem chain4_append {l m r : ℕ} {ss ts : List (Tensor ℂ)} (h : Chain4 l ss m) (h' : Chain4 m ts r) :
    Chain4 l (ss ++ ts) r := by
  induction ss generalizing l with
  | nil => cases h; exact h'
  | cons t ss ih =>
    obtain ⟨hl, k, hk, hc⟩ := h
    exact ⟨hl, k, hk, ih hc⟩

theorem amp4_append {l m : ℕ} {ss : List (Tensor ℂ)} (h : Chain4 l ss m) (ts : List (Tensor ℂ))
    {xs ys : List ℕ} (hx : xs.length = ss.length) (hy : ys.length = ss.length) (xs' ys' : List ℕ) {i : ℕ}
    (hi : i < l) (j : ℕ) :
    amp4 (ss ++ ts) (xs ++ xs') (ys ++ ys') i j = ∑ k ∈ range m, amp4 ss xs ys i k * amp4 ts xs' ys' k j := by
  induction ss generalizing l xs ys i with
  | nil =>
    have : xs = [] := List.length_eq_zero_iff.1 hx
    subst this
    have : ys = [] := List.length_eq_zero_iff.1 hy
    subst this
    cases h
    simp [amp4, hi]
  | cons t ss ih =>
    obtain ⟨-, k, hk, hc⟩ := h
    cases xs with
    | nil => simp at hx
    | cons x xs =>
      cases ys with
      | nil => simp at hy
      | cons y ys =>
        simp only [List.cons_append, amp4_cons hk]
        have e : ∀ q ∈ range k, t.get [x, y, i, q] * amp4 (ss ++ ts) (xs ++ xs') (ys ++ ys') q j =
            ∑ p ∈ range m, t.get [x, y, i, q] * amp4 ss xs ys q p * amp4 ts xs' ys' p j := by
          intro q hq
          rw [ih hc (by simpa using hx) (by simpa using hy) (Finset.mem_range.1 hq), Finset.mul_sum]
          exact Finset.sum_congr rfl fun p _ => by ring
        rw [Finset.sum_congr rfl e, Finset.sum_comm]
        exact Finset.sum_congr rfl fun p _ => by rw [Finset.sum_mul]

/-! ## `MPS2Rho` -/

theorem bcast_four (P Q : ℕ) : Tensor.bcast [P, 1, Q, 1] [1, 2, 1, 2] = some [P, 2, Q, 2] := by
  simp only [Tensor.bcast, List.reverse_cons, List.reverse_nil, List.nil_append, List.cons_append,
    Tensor.bcastRev]
  by_cases h : P = 1 <;> by_cases h' : Q = 1 <;> simp [h, h']

theorem rho_step {c t : Tensor ℂ} {P l m r : ℕ} (hc : c.shape = [P, P, l, m]) (ht : t.shape = [2, 2, m, r]) :
    ∃ c', MPS2Rho_step c t = .ok c' ∧ c'.shape = [P * 2, P * 2, l, r] ∧
      ∀ p x q y i j, p < P → x < 2 → q < P → y < 2 → i < l → j < r →
        c'.get [p * 2 + x, q * 2 + y, i, j] = ∑ k ∈ range m, c.get [p, q, i, k] * t.get [x, y, k, j] := by
  obtain ⟨c1, h1, s1, g1⟩ := Tensor.unsqueeze_at (t := c) [P] [P, l, m] hc
  obtain ⟨c2, h2, s2, g2⟩ := Tensor.unsqueeze_at (t := c1) [P, 1, P] [l, m] s1
  obtain ⟨t1, h3, s3, g3⟩ := Tensor.unsqueeze_at (t := t) [] [2, 2, m, r] ht
  obtain ⟨t2, h4, s4, g4⟩ := Tensor.unsqueeze_at (t := t1) [1, 2] [2, m, r] s3
  obtain ⟨d, h5, s5, g5⟩ := Tensor.matmul_nd (a := c2) (b := t2) (sa := [P, 1, P, 1]) (sb := [1, 2, 1, 2]) s2 s4
    (bcast_four P P)
  have s5' : d.shape = [P, 2, P, 2, l, r] := s5
  refine ⟨d.reshapeN [P * 2, P * 2, l, r], ?_, rfl, ?_⟩
  · unfold MPS2Rho_step
    erw [h1, Py.ok_bind, h2, Py.ok_bind, h3, Py.ok_bind, h4, Py.ok_bind]
    rw [h5, Py.ok_bind]
    dsimp only
    rw [s5']
    have q0 : pyGet [P, 2, P, 2, l, r] 0 = .ok P := rfl
    have q1 : pyGet [P, 2, P, 2, l, r] 1 = .ok 2 := rfl
    have q2 : pyGet [P, 2, P, 2, l, r] 2 = .ok P := rfl
    have q3 : pyGet [P, 2, P, 2, l, r] 3 = .ok 2 := rfl
    have q4 : pyGet [P, 2, P, 2, l, r] 4 = .ok l := rfl
    have q5 : pyGet [P, 2, P, 2, l, r] 5 = .ok r := rfl
    rw [q0, Py.ok_bind, q1, Py.ok_bind, q2, Py.ok_bind, q3, Py.ok_bind, q4, Py.ok_bind, q5, Py.ok_bind]
    exact d.view4 (P * 2) (P * 2) l r (by simp [Tensor.numel, s5']; ring)
  · intro p x q y i j hp hx hq hy hi hj
    rw [Tensor.reshapeN_get_eq (idx' := [p, x, q, y, i, j])
      (by inb) (by rw [s5']; inb)
      (by rw [s5']; simp [ravel]; ring)]
    have := g5 [p, x, q, y] i j (by inb) hi hj
    rw [show ([p, x, q, y, i, j] : List ℕ) = [p, x, q, y] ++ [i, j] from rfl, this]
    apply Finset.sum_congr rfl
    intro k hk
    have hk := Finset.mem_range.1 hk
    have e1 : Tensor.bIdx [P, 1, P, 1] [p, x, q, y] = [p, 0, q, 0] := by
      simp [Tensor.bIdx, one_idx hp, one_idx hq]
    have e2 : Tensor.bIdx [1, 2, 1, 2] [p, x, q, y] = [0, x, 0, y] := by simp [Tensor.bIdx]
    rw [e1, e2]
    have a1 := g1 [p] [q, i, k] (by inb) (by inb)
    have a2 := g2 [p, 0, q] [i, k] (by inb) (by inb)
    have a3 := g3 [] [x, y, k, j] rfl (by inb)
    have a4 := g4 [0, x] [y, k, j] (by inb) (by inb)
    simp only [List.cons_append, List.nil_append] at a1 a2 a3 a4 ⊢
    rw [a2, a1, a4, a3]

theorem rho_fold {ts : List (Tensor ℂ)} : ∀ {pre : List (Tensor ℂ)} {c : Tensor ℂ} {m r : ℕ},
    Chain4 1 pre m → Chain4 m ts r → c.shape = [2 ^ pre.length, 2 ^ pre.length, 1, m] →
    (∀ (x y : Bits pre.length) j, j < m → c.get [enc x, enc y, 0, j] = amp4 pre (bl x) (bl y) 0 j) →
    ∃ c', ts.foldlM MPS2Rho_step c = .ok c' ∧
      c'.shape = [2 ^ (pre ++ ts).length, 2 ^ (pre ++ ts).length, 1, r] ∧
      ∀ (x y : Bits (pre ++ ts).length) j, j < r →
        c'.get [enc x, enc y, 0, j] = amp4 (pre ++ ts) (bl x) (bl y) 0 j := by
  induction ts with
  | nil =>
    intro pre c m r h0 h1 hs hg
    cases h1
    rw [List.append_nil]
    exact ⟨c, rfl, hs, hg⟩
  | cons t ts ih =>
    intro pre c m r h0 h1 hs hg
    obtain ⟨hm, m', ht, hc⟩ := h1
    obtain ⟨c1, e1, s1, g1⟩ := rho_step hs ht
    have h0' : Chain4 1 (pre ++ [t]) m' := chain4_append h0 ⟨hm, m', ht, rfl⟩
    have hl : (pre ++ [t]).length = pre.length + 1 := by simp
    obtain ⟨c', e2, s2, g2⟩ := ih (pre := pre ++ [t]) (c := c1) h0' hc
      (by rw [s1, hl, pow_succ]) (by
        rw [hl]
        intro x y j hj
        rw [enc_snoc x, enc_snoc y, bl_snoc x, bl_snoc y,
          g1 _ _ _ _ _ _ (enc_lt _) (Fin.is_lt _) (enc_lt _) (Fin.is_lt _) (by omega) hj]
        rw [amp4_append h0 _ (by simp) (by simp) _ _ (by omega)]
        apply Finset.sum_congr rfl
        intro k hk
        rw [hg _ _ _ (Finset.mem_range.1 hk), amp4_cons ht]
        congr 1
        simp [amp4, hj])
    have ha : (pre ++ [t]) ++ ts = pre ++ t :: ts := by simp
    rw [ha] at s2 g2
    refine ⟨c', ?_, s2, g2⟩
    rw [List.foldlM_cons, e1]; exact e2

theorem rho_chain {t : Tensor ℂ} {ts : List (Tensor ℂ)} (h : Chain4 1 (t :: ts) 1) :
    ∃ c, ts.foldlM MPS2Rho_step t = .ok c ∧ c.shape = [2 ^ (t :: ts).length, 2 ^ (t :: ts).length, 1, 1] ∧
      ∀ (x y : Bits (t :: ts).length), c.get [enc x, enc y, 0, 0] = amp4 (t :: ts) (bl x) (bl y) 0 0 := by
  obtain ⟨hm, m, ht, hc⟩ := h
  obtain ⟨c, e, s, g⟩ := rho_fold (pre := [t]) (c := t) (m := m) ⟨hm, m, ht, rfl⟩ hc (by simp [ht])
    (by
      intro (x : Bits 1) (y : Bits 1) j hj
      have hb : ∀ b : Bits 1, bl b = [(b 0 : ℕ)] := fun b => by rw [bl_succ]; rfl
      rw [enc_one, enc_one, hb, hb, amp4_cons ht]
      simp [amp4, hj])
  exact ⟨c, e, s, fun x y => g x y 0 (by omega)⟩

theorem squeeze_rho {c : Tensor ℂ} {n : ℕ} (h : c.shape = [n, n, 1, 1]) (hn : n ≠ 1) :
    c.squeeze.shape = [n, n] ∧ ∀ i j, i < n → j < n → c.squeeze.get [i, j] = c.get [i, j, 0, 0] := by
  unfold Tensor.squeeze
  rw [h]
  refine ⟨by simp [hn], fun k m hk hm => ?_⟩
  rw [Tensor.get_ofFn (by simp [hn, hk, hm])]
  simp [Tensor.unsqIdx, hn]

theorem mps2rho_rep {N : ℕ} (hN : 0 < N) {mps : List (Tensor ℂ)} (hl : mps.length = N) (h : Chain4 1 mps 1)
    (M : QOp N) (hM : ∀ x y, M x y = amp4 mps (bl x) (bl y) 0 0) :
    ∃ t, MPS2Rho mps = .ok t ∧ Represents t (((1.0 / (∑ a, M a a).re : ℝ) : ℂ) • M) := by
  cases mps with
  | nil => simp at hl; omega
  | cons t ts =>
    subst hl
    obtain ⟨c, e, s, g⟩ := rho_chain h
    obtain ⟨s1, g1⟩ := squeeze_rho s (by simp)
    have htr : c.squeeze.trace = .ok (∑ a, M a a) := by
      unfold Tensor.trace
      rw [s1]
      simp only [min_self]
      rw [sum_enc]
      congr 1
      apply Finset.sum_congr rfl
      intro a _
      rw [g1 _ _ (enc_lt a) (enc_lt a), g, hM]
    refine ⟨c.squeeze.smul ((1.0 / (∑ a, M a a).re : ℝ) : ℂ), ?_, s1, fun a b => ?_⟩
    · unfold MPS2Rho
      simp only [e, Py.ok_bind, htr]
    · unfold Tensor.smul
      rw [Tensor.get_ofFn (by rw [s1]; simp [enc_lt]), g1 _ _ (enc_lt a) (enc_lt b), g, ← hM]
      rfl

/-! ## The regrouping -/

theorem parity_split {α : Type} (f : ℕ → α) (h : ℕ) :
    ((((List.range (2 * h)).map f).zipIdx.filter (fun p => p.2 % 2 = 0)).map Prod.fst =
      (List.range h).map (fun p => f (2 * p + 0))) ∧
    ((((List.range (2 * h)).map f).zipIdx.filter (fun p => ¬ p.2 % 2 = 0)).map Prod.fst =
      (List.range h).map (fun p => f (2 * p + 1))) := by
  induction h with
  | zero => simp
  | succ h ih =>
    have e : List.range (2 * (h + 1)) = List.range (2 * h) ++ [2 * h, 2 * h + 1] := by
      rw [show 2 * (h + 1) = 2 * h + 1 + 1 by ring, List.range_succ, List.range_succ]
      simp
    have m1 : (2 * h + 1) % 2 = 1 := by omega
    constructor
    · rw [e, List.map_append, List.zipIdx_append, List.filter_append, List.map_append, ih.1, List.range_succ,
        List.map_append]
      simp [List.zipIdx_cons, m1]
    · rw [e, List.map_append, List.zipIdx_append, List.filter_append, List.map_append, ih.2, List.range_succ,
        List.map_append]
      simp [List.zipIdx_cons, m1]

theorem catList_snoc {f : Tensor ℂ → Tensor ℂ → Py (Tensor ℂ)} {l : List (Tensor ℂ)} (hl : l ≠ [])
    (t : Tensor ℂ) : Tensor.catList f (l ++ [t]) = Tensor.catList f l >>= fun a => f a t := by
  cases l with
  | nil => exact absurd rfl hl
  | cons a l =>
    unfold Tensor.catList
    simp only [List.cons_append]
    rw [List.foldlM_append]
    congr 1
    funext b
    rw [List.foldlM_cons]
    cases f b t <;> rfl

theorem catList_blocks {g : ℕ → Tensor ℂ} {D w : ℕ} (h : ℕ) (hg : ∀ p < h + 1, (g p).shape = [D, w]) :
    ∃ m, Tensor.catList Tensor.cat1 ((List.range (h + 1)).map g) = .ok m ∧ m.shape = [D, (h + 1) * w] ∧
      ∀ i p j, i < D → p < h + 1 → j < w → m.get [i, p * w + j] = (g p).get [i, j] := by
  induction h with
  | zero =>
    refine ⟨g 0, rfl, by rw [hg 0 (by omega)]; simp, fun i p j _ hp _ => ?_⟩
    obtain rfl : p = 0 := by omega
    simp
  | succ h ih =>
    obtain ⟨m, e, s, G⟩ := ih (fun p hp => hg p (by omega))
    obtain ⟨m', e', s', a', b'⟩ := Tensor.cat1_ok s (hg (h + 1) (by omega))
    refine ⟨m', ?_, ?_, ?_⟩
    · rw [List.range_succ, List.map_append, List.map_singleton, catList_snoc (by simp), e, Py.ok_bind, e']
    · rw [s']; congr 2; ring
    · intro i p j hi hp hj
      by_cases hq : p < h + 1
      · rw [a' i _ hi ?_, G i p j hi hq hj]
        calc p * w + j < p * w + w := by omega
          _ = (p + 1) * w := by ring
          _ ≤ (h + 1) * w := Nat.mul_le_mul_right _ (by omega)
      · obtain rfl : p = h + 1 := by omega
        rw [b' i j hi hj]

theorem rowSlice_ok {t : Tensor ℂ} {m n : ℕ} (h : t.shape = [m, n]) {lo w : ℕ} (hw : lo + w ≤ m) {hi : ℕ}
    (hh : hi = w + lo) : (t.rowSlice lo hi).shape = [w, n] ∧
    ∀ i j, i < w → j < n → (t.rowSlice lo hi).get [i, j] = t.get [lo + i, j] := by
  subst hh
  unfold Tensor.rowSlice
  rw [h]
  have e : min (w + lo) m - lo = w := by omega
  simp only [List.getD_cons_zero, List.getD_cons_succ, e]
  refine ⟨rfl, fun i j hi hj => ?_⟩
  rw [Tensor.get_ofFn (by inb)]
  rfl

/-- One half of the regrouping. -/
noncomputable def rhoPart (r : Tensor ℂ) (chunks half j : ℕ) : Py (Tensor ℂ) := do
  let bias := j * half
  let block := r.rowSlice bias (half + bias)
  let blks ← block.chunk1 chunks
  let even := (blks.zipIdx.filter (fun p => p.2 % 2 = 0)).map Prod.fst
  let odd := (blks.zipIdx.filter (fun p => ¬ p.2 % 2 = 0)).map Prod.fst
  (← Tensor.catList Tensor.cat1 even).cat0 (← Tensor.catList Tensor.cat1 odd)

theorem rhoRegroup_eq (r : Tensor ℂ) (chunks : ℕ) : rhoRegroup r chunks = (do
    let r ← Tensor.catList Tensor.cat0 (← r.chunk1 2)
    (← rhoPart r chunks (r.shape.getD 0 0 / 2) 0).cat0 (← rhoPart r chunks (r.shape.getD 0 0 / 2) 1)) := rfl

theorem rhoPart_ok {m : Tensor ℂ} {D h w x : ℕ} (hx : x < 2) (hh : 0 < h) (hw : 0 < w)
    (sm : m.shape = [2 * D, 2 * h * w]) :
    ∃ b, rhoPart m (2 * h) D x = .ok b ∧ b.shape = [2 * D, h * w] ∧
      ∀ y i p j, y < 2 → i < D → p < h → j < w →
        b.get [y * D + i, p * w + j] = m.get [x * D + i, (2 * p + y) * w + j] := by
  have hxD : x * D + D ≤ 2 * D := by rcases lt_two_cases hx with rfl | rfl <;> omega
  obtain ⟨sb, gb⟩ := rowSlice_ok sm (lo := x * D) (w := D) hxD rfl
  set B := m.rowSlice (x * D) (D + x * D) with hB
  have hc := Tensor.chunk1_ok (t := B) (c := 2 * h) (w := w) (by positivity) hw sb
  obtain ⟨p1, p2⟩ := parity_split (fun k => B.colSlice (k * w) ((k + 1) * w)) h
  obtain ⟨h', rfl⟩ : ∃ h', h = h' + 1 := ⟨h - 1, by omega⟩
  have cs : ∀ k, k < 2 * (h' + 1) → (B.colSlice (k * w) ((k + 1) * w)).shape = [D, w] ∧
      ∀ i j, i < D → j < w → (B.colSlice (k * w) ((k + 1) * w)).get [i, j] = B.get [i, k * w + j] := by
    intro k hk
    refine Tensor.colSlice_ok sb ?_ (by ring)
    calc k * w + w = (k + 1) * w := by ring
      _ ≤ 2 * (h' + 1) * w := Nat.mul_le_mul_right _ (by omega)
  obtain ⟨e0, f0, s0, g0⟩ := catList_blocks (g := fun p => B.colSlice ((2 * p + 0) * w) ((2 * p + 0 + 1) * w)) h'
    (fun p hp => (cs (2 * p + 0) (by omega)).1)
  obtain ⟨e1, f1, s1, g1⟩ := catList_blocks (g := fun p => B.colSlice ((2 * p + 1) * w) ((2 * p + 1 + 1) * w)) h'
    (fun p hp => (cs (2 * p + 1) (by omega)).1)
  obtain ⟨b, fb, sb', a', b'⟩ := Tensor.cat0_ok s0 s1
  refine ⟨b, ?_, by rw [sb', two_mul], ?_⟩
  · unfold rhoPart
    simp only [← hB, hc, Py.ok_bind]
    rw [p1, p2, f0, Py.ok_bind, f1, Py.ok_bind, fb]
  · intro y i p j hy hi hp hj
    have hpj : p * w + j < (h' + 1) * w := by
      calc p * w + j < p * w + w := by omega
        _ = (p + 1) * w := by ring
        _ ≤ (h' + 1) * w := Nat.mul_le_mul_right _ (by omega)
    have hk : (2 * p + y) * w + j < 2 * (h' + 1) * w := by
      calc (2 * p + y) * w + j < (2 * p + y) * w + w := by omega
        _ = (2 * p + y + 1) * w := by ring
        _ ≤ 2 * (h' + 1) * w := Nat.mul_le_mul_right _ (by omega)
    rcases lt_two_cases hy with rfl | rfl
    · rw [zero_mul, zero_add, a' i _ hi hpj, g0 i p j hi hp hj]
      exact ((cs (2 * p + 0) (by omega)).2 i j hi hj).trans (gb i _ hi hk)
    · rw [one_mul, b' i _ hi hpj, g1 i p j hi hp hj]
      exact ((cs (2 * p + 1) (by omega)).2 i j hi hj).trans (gb i _ hi hk)

theorem rhoRegroup_ok {r : Tensor ℂ} {D h w : ℕ} (hh : 0 < h) (hw : 0 < w)
    (hr : r.shape = [D, 2 * (2 * h * w)]) :
    ∃ A, rhoRegroup r (2 * h) = .ok A ∧ A.shape = [2 * (2 * D), h * w] ∧
      ∀ x y i p j, x < 2 → y < 2 → i < D → p < h → j < w →
        A.get [x * (2 * D) + (y * D + i), p * w + j] = r.get [i, x * (2 * h * w) + ((2 * p + y) * w + j)] := by
  obtain ⟨m, em, sm, gm⟩ := foldHalves_ok (c := r) (D := D) (n := 2 * h * w) (by positivity) hr
  have hc := Tensor.chunk1_ok (t := r) (c := 2) (w := 2 * h * w) (by omega) (by positivity) hr
  have em' : Tensor.catList Tensor.cat0 ((List.range 2).map
      (fun k => r.colSlice (k * (2 * h * w)) ((k + 1) * (2 * h * w)))) = .ok m := by
    unfold foldHalves at em
    rw [hc, Py.ok_bind] at em
    have em2 : (r.colSlice (0 * (2 * h * w)) ((0 + 1) * (2 * h * w))).cat0
      (r.colSlice (1 * (2 * h * w)) ((1 + 1) * (2 * h * w))) = .ok m := em
    show List.foldlM Tensor.cat0 (r.colSlice (0 * (2 * h * w)) ((0 + 1) * (2 * h * w)))
      [r.colSlice (1 * (2 * h * w)) ((1 + 1) * (2 * h * w))] = _
    rw [List.foldlM_cons, em2]
    rfl
  obtain ⟨b0, f0, s0, g0⟩ := rhoPart_ok (x := 0) (by omega) hh hw sm
  obtain ⟨b1, f1, s1, g1⟩ := rhoPart_ok (x := 1) (by omega) hh hw sm
  obtain ⟨A, fA, sA, a', b'⟩ := Tensor.cat0_ok s0 s1
  refine ⟨A, ?_, by rw [sA, two_mul (2 * D)], ?_⟩
  · rw [rhoRegroup_eq]
    have hD : m.shape.getD 0 0 / 2 = D := by rw [sm]; simp
    rw [hc, Py.ok_bind, em', Py.ok_bind, hD, f0, Py.ok_bind, f1, Py.ok_bind, fA]
  · intro x y i p j hx hy hi hp hj
    have hyD : y * D + i < 2 * D := by rcases lt_two_cases hy with rfl | rfl <;> omega
    have hpj : p * w + j < h * w := by
      calc p * w + j < p * w + w := by omega
        _ = (p + 1) * w := by ring
        _ ≤ h * w := Nat.mul_le_mul_right _ (by omega)
    have hk : (2 * p + y) * w + j < 2 * h * w := by
      calc (2 * p + y) * w + j < (2 * p + y) * w + w := by omega
        _ = (2 * p + y + 1) * w := by ring
        _ ≤ 2 * h * w := Nat.mul_le_mul_right _ (by omega)
    rcases lt_two_cases hx with rfl | rfl
    · rw [zero_mul, zero_add, a' _ _ hyD hpj, g0 y i p j hy hi hp hj, gm 0 i _ (by omega) hi hk]
    · rw [one_mul, b' _ _ hyD hpj, g1 y i p j hy hi hp hj, gm 1 i _ (by omega) hi hk]

/-- `U.view(2, 2, -1, D)` -/
theorem view_site4 {U : Tensor ℂ} {l D : ℕ} (hD : 0 < D) (h : U.shape = [2 * (2 * l), D]) :
    ∃ t, U.view [2, 2, -1, (U.shape.getD 1 0 : ℤ)] = .ok t ∧ t.shape = [2, 2, l, D] ∧
      ∀ x y i k, x < 2 → y < 2 → i < l → k < D →
        t.get [x, y, i, k] = U.get [x * (2 * l) + (y * l + i), k] := by
  refine ⟨U.reshapeN [2, 2, l, D], ?_, rfl, ?_⟩
  · have e0 : U.shape.getD 1 0 = D := by rw [h]; rfl
    have hn : U.numel = 4 * D * l := by simp [Tensor.numel, h]; ring
    rw [e0]
    have e3 : U.numel % (4 * D) = 0 := by rw [hn]; exact Nat.mul_mod_right _ _
    have e4 : U.numel / (4 * D) = l := by rw [hn]; exact Nat.mul_div_cancel_left _ (by positivity)
    have n2 : ¬ ((D : ℤ) = -1) := by omega
    have n4 : ¬ ((D : ℤ) < 0) := by omega
    unfold Tensor.view Tensor.inferShape
    have f1 : [(2 : ℤ), 2, -1, (D : ℤ)].filter (· ≠ -1) = [(2 : ℤ), 2, (D : ℤ)] := by
      simp [List.filter, n2]
    have f2 : [(2 : ℤ), 2, -1, (D : ℤ)].count (-1) = 1 := by
      simp
    simp only [f1, f2]
    rw [if_neg (by simp [n4])]
    have f3 : (List.map Int.toNat [(2 : ℤ), 2, (D : ℤ)]).prod = 4 * D := by simp; ring
    have hp : ¬ (4 * D = 0) := by omega
    rw [f3, if_neg hp, if_pos e3]
    simp [e4, n2]
  · intro x y i k hx hy hi hk
    rw [Tensor.reshapeN_get_eq (idx' := [x * (2 * l) + (y * l + i), k]) (by inb)
      (by
        rw [h]
        have : x * (2 * l) + (y * l + i) < 2 * (2 * l) := by
          rcases lt_two_cases hx with rfl | rfl <;> rcases lt_two_cases hy with rfl | rfl <;> omega
        simp [this, hk])
      (by rw [h]; simp [ravel]; ring)]

theorem TNM.Mono.rhoLoop (svd : SVDOracle) (k : ℕ) : ∀ r, TNM.Mono (Rho2MPS_loop svd k r) := by
  induction k with
  | zero => intro c; exact TNM.Mono.pure _
  | succ k ih =>
    intro c
    unfold Rho2MPS_loop
    exact (TNM.Mono.lift _).bind (fun c => 
      ((TNM.Mono.svdTrunc _ _).bind (fun _ => (TNM.Mono.lift _).bind (fun _ => (ih _).bind
        (fun _ => TNM.Mono.pure _)))))

/-- The number `c` is a positive multiple of the conjugate of the single entry of `V` in a
decomposition of a one-column matrix. -/
def LastPhase (svd : SVDOracle) (c : ℂ) : Prop :=
  ∃ (log : List (Tensor ℂ)) (A : Tensor ℂ) (m : ℕ) (σ : ℝ), A.shape = [m, 1] ∧ 0 < m ∧ 0 < σ ∧
    c = σ * star ((svd log A).V.get [0, 0])

theorem rho_loop {svd : SVDOracle} (hv : ValidSVD svd) : ∀ (k D : ℕ) (r : Tensor ℂ) (s : List (Tensor ℂ)),
    r.shape = [D, 2 ^ k * 2 ^ k] → 0 < D →
    (∃ d, ∃ x y : Bits k, d < D ∧ r.get [d, enc x * 2 ^ k + enc y] ≠ 0) →
    (∀ A ∈ (Rho2MPS_loop svd k r s).2, Lossless A) →
    ∃ (ts s' : List (Tensor ℂ)) (D' : ℕ) (c : ℕ → ℂ), Rho2MPS_loop svd k r s = (.ok ts, s') ∧ ts.length = k ∧ Chain4 D ts D' ∧
      (∀ d, ∀ x y : Bits k, d < D →
        r.get [d, enc x * 2 ^ k + enc y] = ∑ q ∈ range D', amp4 ts (bl x) (bl y) d q * c q) ∧
      (0 < k → D' = 1 ∧ LastPhase svd (c 0)) := by
  intro k
  induction k with
  | zero =>
    intro D r s hs hD hne hl
    refine ⟨[], s, D, fun q => r.get [q, 0], rfl, rfl, rfl, fun d x y hd => ?_, by omega⟩
    simp [amp4, enc_zero, hd]
  | succ k ih =>
    intro D r s hs hD hne hl
    have hp : 0 < 2 ^ k := by positivity
    obtain ⟨A, eA, sA, gA⟩ := rhoRegroup_ok (r := r) (D := D) (h := 2 ^ k) (w := 2 ^ k) hp hp
      (by rw [hs]; congr 2; ring)
    have e2 : 2 * 2 ^ k = 2 ^ (k + 1) := by ring
    rw [e2] at eA
    have hcol : ∀ x y : Bits (k + 1), enc x * 2 ^ (k + 1) + enc y = (x 0 : ℕ) * (2 * 2 ^ k * 2 ^ k) +
        ((2 * enc (fun i => x i.succ) + (y 0 : ℕ)) * 2 ^ k + enc (fun i => y i.succ)) := by
      intro x y
      rw [enc_succ x, enc_succ y]
      ring
    have hrow : ∀ {x y i : ℕ}, x < 2 → y < 2 → i < D → x * (2 * D) + (y * D + i) < 2 * (2 * D) := by
      intro x y i hx hy hi
      rcases lt_two_cases hx with rfl | rfl <;> rcases lt_two_cases hy with rfl | rfl <;> omega
    have hcl : ∀ x y : Bits k, enc x * 2 ^ k + enc y < 2 ^ k * 2 ^ k := by
      intro x y
      have h1 := enc_lt x
      have h2 := enc_lt y
      calc enc x * 2 ^ k + enc y < enc x * 2 ^ k + 2 ^ k := by omega
        _ = (enc x + 1) * 2 ^ k := by ring
        _ ≤ 2 ^ k * 2 ^ k := Nat.mul_le_mul_right _ (by omega)
    have hA : ∀ d, ∀ x y : Bits (k + 1), d < D → r.get [d, enc x * 2 ^ (k + 1) + enc y] =
        A.get [(x 0 : ℕ) * (2 * D) + ((y 0 : ℕ) * D + d),
          enc (fun i => x i.succ) * 2 ^ k + enc (fun i => y i.succ)] := by
      intro d x y hd
      rw [hcol, gA _ _ _ _ _ (x 0).isLt (y 0).isLt hd (enc_lt _) (enc_lt _)]
    have hunf : Rho2MPS_loop svd (k + 1) r = (do
        let (U, r) ← svdTrunc svd A
        let t ← (U.view [2, 2, -1, (U.shape.getD 1 0 : ℤ)] : Py _)
        let rest ← Rho2MPS_loop svd k r
        pure (t :: rest)) := by
      funext s
      conv_lhs => unfold Rho2MPS_loop
      rw [eA, TNM.lift_ok_bind]
    rw [hunf] at hl ⊢
    have hlA : Lossless A := by
      refine TNM.logged_left (fun _ => ?_) hl A (by
        rw [svdTrunc_log hv sA (by omega) (by positivity)]; simp)
      exact (TNM.Mono.lift _).bind (fun _ => (TNM.Mono.rhoLoop _ _ _).bind (fun _ => TNM.Mono.pure _))
    obtain ⟨d0, x0, y0, hd0, hne⟩ := hne
    rw [hA _ _ _ hd0] at hne
    obtain ⟨U, c, D1, e, hD1, sU, sc, hex, hiso, hDeq⟩ := svdTrunc_lossless hv sA hlA
      ⟨_, _, hrow (x0 0).isLt (y0 0).isLt hd0, hcl _ _, hne⟩ s
    obtain ⟨t, et, st, gt⟩ := view_site4 hD1 sU
    rw [TNM.bind_ok e] at hl ⊢
    change ∀ A ∈ (((liftM (U.view [2, 2, -1, (U.shape.getD 1 0 : ℤ)]) : TNM _) >>= _) _).2, Lossless A at hl
    show ∃ (ts s' : List (Tensor ℂ)) (D' : ℕ) (c : ℕ → ℂ), ((liftM (U.view [2, 2, -1, (U.shape.getD 1 0 : ℤ)]) : TNM _) >>= _) _ = _ ∧ _
    rw [et, TNM.lift_ok_bind] at hl ⊢
    have hc0 : ∃ d, ∃ x y : Bits k, d < D1 ∧ c.get [d, enc x * 2 ^ k + enc y] ≠ 0 := by
      by_contra hno
      push Not at hno
      apply hne
      rw [← hex _ _ (hrow (x0 0).isLt (y0 0).isLt hd0) (hcl _ _)]
      apply Finset.sum_eq_zero
      intro q hq
      rw [hno q _ _ (Finset.mem_range.1 hq), mul_zero]
    have hl' := TNM.logged_left (fun _ => TNM.Mono.pure _) hl
    obtain ⟨ts, s', D', c', el, hlen, hch, hamp, hlast⟩ := ih D1 c (s ++ [A]) sc hD1 hc0 hl'
    refine ⟨t :: ts, s', D', c', ?_, by simp [hlen], ⟨hD, D1, st, hch⟩, ?_, ?_⟩
    · rw [TNM.bind_ok el]; rfl
    · intro d x y hd
      rw [hA _ _ _ hd, ← hex _ _ (hrow (x 0).isLt (y 0).isLt hd) (hcl _ _), bl_succ x, bl_succ y]
      simp only [amp4_cons st]
      have e1 : ∀ q ∈ range D1, U.get [(x 0 : ℕ) * (2 * D) + ((y 0 : ℕ) * D + d), q] *
          c.get [q, enc (fun i => x i.succ) * 2 ^ k + enc (fun i => y i.succ)] =
          ∑ p ∈ range D', t.get [(x 0 : ℕ), (y 0 : ℕ), d, q] *
            amp4 ts (bl fun i => x i.succ) (bl fun i => y i.succ) q p * c' p := by
        intro q hq
        have hq := Finset.mem_range.1 hq
        rw [hamp q _ _ hq, ← gt _ _ _ _ (x 0).isLt (y 0).isLt hd hq, Finset.mul_sum]
        exact Finset.sum_congr rfl fun p _ => by ring
      rw [Finset.sum_congr rfl e1, Finset.sum_comm]
      exact Finset.sum_congr rfl fun p _ => by rw [Finset.sum_mul]
    · intro _
      by_cases hk : 0 < k
      · exact hlast hk
      · obtain rfl : k = 0 := by omega
        have hS := hv s A _ _ sA
        have hb1 : bondDim (svd s A).S ≤ 1 := by
          have := bondDim_le (svd s A).S
          rw [hS.lenS] at this
          simp at this
          omega
        have hD1' : D1 = 1 := by omega
        obtain rfl : ts = [] := List.length_eq_zero_iff.1 hlen
        have hDD : D1 = D' := hch
        refine ⟨by omega, ?_⟩
        obtain ⟨U', r', e', tr⟩ := (svdTrunc_run hv sA (by omega) (by positivity) s).2 (by omega)
        rw [e] at e'
        obtain ⟨rfl, rfl⟩ : U = U' ∧ c = r' := by
          simpa using e'
        have hc := hamp 0 0 0 (by omega)
        have hval : c' 0 = c.get [0, 0] := by
          have e0 : enc (0 : Bits 0) * 2 ^ 0 + enc (0 : Bits 0) = 0 := by simp [enc_zero]
          rw [e0, ← hDD, hD1'] at hc
          simpa [amp4] using hc.symm
        refine ⟨s, A, 2 * (2 * D), (svd s A).S.getD 0 0, by simpa using sA, by omega, ?_, ?_⟩
        · have := (bondDim_iff hS.nonneg hS.desc (i := 0) (by rw [hS.lenS]; simp; omega)).1 (by omega)
          have hcut : (0 : ℝ) < cutoff := by norm_num [cutoff]
          linarith
        · rw [hval, tr.getR 0 0 (by omega) (by positivity)]

end QTN
