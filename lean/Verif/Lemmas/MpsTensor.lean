import Verif.Lemmas.MpsVec

/-! # MPS2StateVec with return_sv=False -/

namespace QTN

open Finset Spec Matrix

theorem bcastRev_nil (s : List ℕ) : Tensor.bcastRev s [] = some s := by
  cases s <;> rfl

theorem rev_two (p x : ℕ) : (x :: 2 :: List.replicate p 2).reverse = List.replicate (p + 1) 2 ++ [x] := by
  rw [← List.replicate_succ, List.reverse_cons, List.reverse_replicate]

theorem bcast_tail (p : ℕ) (x : ℕ) :
    Tensor.bcast (List.replicate (p + 1) 2 ++ [1]) [1, x] = some (List.replicate (p + 1) 2 ++ [x]) := by
  unfold Tensor.bcast
  rw [← rev_two, ← rev_two, List.reverse_reverse, show ([1, x] : List ℕ).reverse = [x, 1] from rfl]
  by_cases h : x = 1
  · subst h
    simp [Tensor.bcastRev, bcastRev_nil]
  · rw [Tensor.bcastRev, if_neg (Ne.symm h), if_pos rfl, Tensor.bcastRev, if_neg (by decide),
      if_neg (by decide), if_pos rfl, bcastRev_nil]
    simp

theorem bIdx_replicate {p : ℕ} {xs : List ℕ} (h : xs.length = p) (x : ℕ) :
    Tensor.bIdx (List.replicate p 2 ++ [1]) (xs ++ [x]) = xs ++ [0] := by
  unfold Tensor.bIdx
  have hd : (xs ++ [x]).length - (List.replicate p (2 : ℕ) ++ [1]).length = 0 := by simp [h]
  rw [hd, List.drop_zero, List.zipWith_append (by simp [h])]
  subst h
  congr 1
  induction xs with
  | nil => rfl
  | cons y ys ih => simp [List.replicate_succ, ih]

theorem bIdx_last {xs : List ℕ} {p : ℕ} (h : xs.length = p + 1) (x : ℕ) :
    Tensor.bIdx [1, 2] (xs ++ [x]) = [0, x] := by
  unfold Tensor.bIdx
  obtain ⟨ys, y, rfl⟩ : ∃ ys y, xs = ys ++ [y] := by
    rcases List.eq_nil_or_concat' xs with rfl | ⟨ys, y, rfl⟩
    · simp at h
    · exact ⟨ys, y, rfl⟩
  simp

theorem ten_step {c t : Tensor ℂ} {p m r : ℕ} (hc : c.shape = List.replicate (p + 1) 2 ++ [1, m])
    (ht : t.shape = [2, m, r]) :
    ∃ c', (do (← c.unsqueeze ((p + 1 : ℕ) : ℤ)).matmul (← t.unsqueeze 0)) = .ok c' ∧
      c'.shape = List.replicate (p + 2) 2 ++ [1, r] ∧
      ∀ xs x j, inB (List.replicate (p + 1) 2) xs = true → x < 2 → j < r →
        c'.get (xs ++ [x] ++ [0, j]) = ∑ k ∈ range m, c.get (xs ++ [0, k]) * t.get [x, k, j] := by
  obtain ⟨c1, h1, s1, g1⟩ := Tensor.unsqueeze_at (t := c) (List.replicate (p + 1) 2) [1, m] hc
  obtain ⟨t1, h2, s2, g2⟩ := Tensor.unsqueeze_at (t := t) [] [2, m, r] ht
  obtain ⟨d, h3, s3, g3⟩ := Tensor.matmul_nd (a := c1) (b := t1) (sa := List.replicate (p + 1) 2 ++ [1])
    (sb := [1, 2]) (n := 1) (k := m) (m := r) (by rw [s1]; simp) s2 (bcast_tail p 2)
  refine ⟨d, ?_, ?_, ?_⟩
  · rw [show (((p + 1 : ℕ) : ℕ) : ℤ) = ((List.replicate (p + 1) (2 : ℕ)).length : ℤ) by simp, h1, Py.ok_bind,
      show (0 : ℤ) = (([] : List ℕ).length : ℤ) from rfl, h2, Py.ok_bind, h3]
  · rw [s3, List.replicate_succ' (n := p + 1)]
  · intro xs x j hxs hx hj
    have hl := inB_length hxs
    rw [List.length_replicate] at hl
    rw [g3 (xs ++ [x]) 0 j (by rw [inB_append (inB_length hxs), hxs]; simp [hx]) (by omega) hj]
    apply Finset.sum_congr rfl
    intro k hk
    have hk := Finset.mem_range.1 hk
    rw [bIdx_replicate hl, bIdx_last hl x]
    congr 1
    · rw [List.append_assoc]
      exact g1 xs [0, k] hxs (by simp [hk])
    · exact g2 [] [x, k, j] (by simp) (by simp [hx, hk, hj])

theorem ten_fold {ts : List (Tensor ℂ)} : ∀ {p : ℕ} {pre : List (Tensor ℂ)} {c : Tensor ℂ} {m r : ℕ},
    pre.length = p + 1 → Chain 1 pre m → Chain m ts r → c.shape = List.replicate (p + 1) 2 ++ [1, m] →
    (∀ xs j, inB (List.replicate (p + 1) 2) xs = true → j < m → c.get (xs ++ [0, j]) = amp pre xs 0 j) →
    ∃ c', (ts.zipIdx (p + 1)).foldlM (fun c (ti : Tensor ℂ × ℕ) => do
        (← c.unsqueeze ti.2).matmul (← ti.1.unsqueeze 0)) c = (.ok c' : Py _) ∧
      c'.shape = List.replicate (p + 1 + ts.length) 2 ++ [1, r] ∧
      ∀ xs j, inB (List.replicate (p + 1 + ts.length) 2) xs = true → j < r →
        c'.get (xs ++ [0, j]) = amp (pre ++ ts) xs 0 j := by
  induction ts with
  | nil =>
    intro p pre c m r hp h0 h1 hs hg
    cases h1
    exact ⟨c, rfl, hs, by rw [List.append_nil]; exact hg⟩
  | cons t ts ih =>
    intro p pre c m r hp h0 h1 hs hg
    obtain ⟨hm, m', ht, hc⟩ := h1
    obtain ⟨c1, e1, s1, g1⟩ := ten_step hs ht
    have h0' : Chain 1 (pre ++ [t]) m' := chain_append h0 ⟨hm, m', ht, rfl⟩
    obtain ⟨c', e2, s2, g2⟩ := ih (p := p + 1) (pre := pre ++ [t]) (c := c1) (by simp [hp]) h0' hc s1 (by
      intro xs j hx hj
      obtain ⟨b, rfl⟩ := exists_bl hx
      rw [bl_snoc, g1 _ _ _ (inB_bl _) (Fin.is_lt _) hj]
      rw [amp_append h0 _ (by simp [hp]) _ (by omega)]
      apply Finset.sum_congr rfl
      intro k hk
      rw [hg _ _ (inB_bl _) (Finset.mem_range.1 hk), amp_cons ht]
      congr 1
      simp [amp, hj])
    have hl : p + 1 + (t :: ts).length = p + 1 + 1 + ts.length := by simp; omega
    refine ⟨c', ?_, ?_, ?_⟩
    · rw [List.zipIdx_cons, List.foldlM_cons]
      show (do (← c.unsqueeze ((p + 1 : ℕ) : ℤ)).matmul (← t.unsqueeze 0)) >>= _ = _
      rw [e1]; exact e2
    · rw [s2, hl]
    · intro xs j hx hj
      rw [hl] at hx
      rw [g2 xs j hx hj]
      simp

theorem unsqIdx_two (p : ℕ) {xs : List ℕ} (h : xs.length = p) (tl : List ℕ) (ht : ∀ d ∈ tl, d = 1) :
    Tensor.unsqIdx (List.replicate p 2 ++ tl) xs = xs ++ List.replicate tl.length 0 := by
  subst h
  induction xs with
  | nil =>
    simp only [List.length_nil, List.replicate_zero, List.nil_append]
    induction tl with
    | nil => rfl
    | cons d tl ih =>
      obtain rfl : d = 1 := ht d (by simp)
      simp [Tensor.unsqIdx, List.replicate_succ, ih (fun d hd => ht d (by simp [hd]))]
  | cons y ys ih => simp [List.replicate_succ, Tensor.unsqIdx, ih]

/-- `MPS2StateVec(…, return_sv=False)` is the rank-`N` tensor of the amplitudes. -/
theorem mps2ten_rep {N : ℕ} {mps : List (Tensor ℂ)} {v : QState N} (h : IsMPS mps v) (hN : 0 < N) :
    ∃ T, MPS2StateVec_tensor mps = .ok T ∧ IsTen T v := by
  obtain ⟨hl, hc, ha⟩ := h
  cases mps with
  | nil => simp at hl; omega
  | cons t ts =>
    simp at hl
    subst hl
    obtain ⟨hm, m, ht, hc'⟩ := hc
    obtain ⟨c, e, s, g⟩ := ten_fold (p := 0) (pre := [t]) (c := t) (m := m) rfl ⟨hm, m, ht, rfl⟩ hc'
      (by simp [ht])
      (by
        intro xs j hx hj
        obtain ⟨b, rfl⟩ := exists_bl hx
        have hb : bl b = [(b 0 : ℕ)] := by rw [bl_succ]; rfl
        rw [hb, amp_cons ht]
        simp [amp, hj])
    have hlen : 0 + 1 + ts.length = ts.length + 1 := by omega
    rw [hlen] at s g
    have hf : (List.replicate (ts.length + 1) 2 ++ [1, 1]).filter (· ≠ 1) = List.replicate (ts.length + 1) 2 := by
      rw [List.filter_append]
      simp
    have hsq : c.squeeze.shape = List.replicate (ts.length + 1) 2 := by
      show c.shape.filter (· ≠ 1) = _
      rw [s, hf]
    refine ⟨c.squeeze, ?_, hsq, fun a => ?_⟩
    · unfold MPS2StateVec_tensor
      dsimp only
      rw [show (1 : ℕ) = 0 + 1 from rfl, e, Py.ok_bind, pyAssert_true (by simp [Tensor.rank, hsq]), Py.ok_bind]
    · unfold Tensor.squeeze
      rw [Tensor.get_ofFn (by rw [s, hf]; exact inB_bl a), s, unsqIdx_two _ (by simp) _ (by simp)]
      rw [show List.replicate ([1, 1] : List ℕ).length 0 = [0, 0] from rfl, g _ 0 (inB_bl a) (by omega)]
      exact ha a

end QTN
