import Verif.Lemmas.Amp
import Verif.Lemmas.Nd
import Verif.Model.QTensorNetwork

/-! # MPS2StateVec computes the amplitudes of a matrix product state -/

namespace QTN

open Finset Spec Matrix

theorem bcast_two (P : ℕ) (x : ℕ) : Tensor.bcast [P, 1] [1, x] = some [P, x] := by
  simp only [Tensor.bcast, List.reverse_cons, List.reverse_nil, List.nil_append, List.cons_append,
    Tensor.bcastRev]
  by_cases h : P = 1 <;> by_cases h' : x = 1 <;> simp [h, h', eq_comm]

/-- One step of the contraction of `MPS2StateVec`. -/
theorem sv_step {c t : Tensor ℂ} {P l m r : ℕ} (hc : c.shape = [P, l, m]) (ht : t.shape = [2, m, r]) :
    ∃ c', MPS2SV_step c t = .ok c' ∧ c'.shape = [P * 2, l, r] ∧
      ∀ p x i j, p < P → x < 2 → i < l → j < r →
        c'.get [p * 2 + x, i, j] = ∑ k ∈ range m, c.get [p, i, k] * t.get [x, k, j] := by
  obtain ⟨c1, h1, s1, g1⟩ := Tensor.unsqueeze_at (t := c) [P] [l, m] hc
  obtain ⟨t1, h2, s2, g2⟩ := Tensor.unsqueeze_at (t := t) [] [2, m, r] ht
  obtain ⟨d, h3, s3, g3⟩ := Tensor.matmul_nd (a := c1) (b := t1) (sa := [P, 1]) (sb := [1, 2]) s1 s2
    (bcast_two P 2)
  have s3' : d.shape = [P, 2, l, r] := s3
  refine ⟨d.reshapeN [P * 2, l, r], ?_, rfl, ?_⟩
  · unfold MPS2SV_step
    rw [show (1 : ℤ) = (([P] : List ℕ).length : ℤ) from rfl, h1, Py.ok_bind,
      show (0 : ℤ) = (([] : List ℕ).length : ℤ) from rfl, h2, Py.ok_bind, h3, Py.ok_bind]
    dsimp only
    rw [s3']
    have q2 : pyGet [P, 2, l, r] 2 = .ok l := rfl
    have q3 : pyGet [P, 2, l, r] 3 = .ok r := rfl
    rw [q2, Py.ok_bind, q3, Py.ok_bind]
    exact d.view3 (P * 2) l r (by simp [Tensor.numel, s3']; ring)
  · intro p x i j hp hx hi hj
    rw [Tensor.reshapeN_get_eq (idx' := [p, x, i, j])
      (by simp only [inB_cons, inB_nil, hi, hj]; simp; omega) (by rw [s3']; simp [hp, hx, hi, hj])
      (by rw [s3']; simp [ravel]; ring)]
    have := g3 [p, x] i j (by simp [hp, hx]) hi hj
    rw [show ([p, x, i, j] : List ℕ) = [p, x] ++ [i, j] from rfl, this]
    apply Finset.sum_congr rfl
    intro k hk
    have hk := Finset.mem_range.1 hk
    have e1 : Tensor.bIdx [P, 1] [p, x] = [p, 0] := by simp [Tensor.bIdx, one_idx hp]
    have e2 : Tensor.bIdx [1, 2] [p, x] = [0, x] := by simp [Tensor.bIdx]
    rw [e1, e2]
    have a1 := g1 [p] [i, k] (by simp [hp]) (by simp [hi, hk])
    have a2 := g2 [] [x, k, j] (by simp) (by simp [hx, hk, hj])
    simp only [List.cons_append, List.nil_append] at a1 a2 ⊢
    rw [a1, a2]

theorem sv_fold {ts : List (Tensor ℂ)} : ∀ {pre : List (Tensor ℂ)} {c : Tensor ℂ} {m r : ℕ},
    Chain 1 pre m → Chain m ts r → c.shape = [2 ^ pre.length, 1, m] →
    (∀ xs j, inB (List.replicate pre.length 2) xs = true → j < m →
      c.get [ravel (List.replicate pre.length 2) xs, 0, j] = amp pre xs 0 j) →
    ∃ c', ts.foldlM MPS2SV_step c = .ok c' ∧ c'.shape = [2 ^ (pre ++ ts).length, 1, r] ∧
      ∀ xs j, inB (List.replicate (pre ++ ts).length 2) xs = true → j < r →
        c'.get [ravel (List.replicate (pre ++ ts).length 2) xs, 0, j] = amp (pre ++ ts) xs 0 j := by
  induction ts with
  | nil =>
    intro pre c m r h0 h1 hs hg
    cases h1
    refine ⟨c, rfl, ?_, ?_⟩
    · rw [List.append_nil]; exact hs
    · rw [List.append_nil]; exact hg
  | cons t ts ih =>
    intro pre c m r h0 h1 hs hg
    obtain ⟨hm, m', ht, hc⟩ := h1
    obtain ⟨c1, e1, s1, g1⟩ := sv_step hs ht
    have h0' : Chain 1 (pre ++ [t]) m' := chain_append h0 ⟨hm, m', ht, rfl⟩
    have hl : (pre ++ [t]).length = pre.length + 1 := by simp
    obtain ⟨c', e2, s2, g2⟩ := ih (pre := pre ++ [t]) (c := c1) h0' hc
      (by rw [s1, hl, pow_succ]) (by
        intro xs j hx hj
        rw [hl] at hx ⊢
        obtain ⟨b, rfl⟩ := exists_bl hx
        rw [← enc_eq_ravel, enc_snoc, bl_snoc, g1 _ _ _ _ (enc_lt _) (Fin.is_lt _) (by omega) hj]
        rw [amp_append h0 _ (by simp) _ (by omega)]
        apply Finset.sum_congr rfl
        intro k hk
        rw [enc_eq_ravel, hg _ _ (inB_bl _) (Finset.mem_range.1 hk), amp_cons ht]
        congr 1
        simp [amp, hj])
    refine ⟨c', ?_, ?_, ?_⟩
    · rw [List.foldlM_cons, e1]; exact e2
    · rw [s2]; simp
    · intro xs j hx hj
      have := g2 xs j (by simpa using hx) hj
      simpa using this

theorem sv_chain {t : Tensor ℂ} {ts : List (Tensor ℂ)} {r : ℕ} (h : Chain 1 (t :: ts) r) :
    ∃ c, ts.foldlM MPS2SV_step t = .ok c ∧ c.shape = [2 ^ (ts.length + 1), 1, r] ∧
      ∀ (a : Bits (ts.length + 1)) (j : ℕ), j < r → c.get [enc a, 0, j] = amp (t :: ts) (bl a) 0 j := by
  obtain ⟨hm, m, ht, hc⟩ := h
  obtain ⟨c, e, s, g⟩ := sv_fold (pre := [t]) (c := t) (m := m) ⟨hm, m, ht, rfl⟩ hc (by simp [ht])
    (by
      intro xs j hx hj
      obtain ⟨b, rfl⟩ := exists_bl hx
      have hb : bl b = [(b 0 : ℕ)] := by rw [bl_succ]; rfl
      rw [← enc_eq_ravel, enc_one, hb, amp_cons ht]
      simp [amp, hj])
  refine ⟨c, e, by rw [s]; simp [add_comm], fun a j hj => ?_⟩
  have := g (bl a) j (by
    have := inB_bl a
    simpa [add_comm] using this) hj
  rw [enc_eq_ravel]
  simpa [add_comm] using this

/-- `MPS2StateVec` of a matrix product state is the row of its amplitudes. -/
theorem mps2sv_rep {N : ℕ} {mps : List (Tensor ℂ)} {v : QState N} (h : IsMPS mps v) (hN : 0 < N) :
    ∃ sv, MPS2StateVec mps = .ok sv ∧ IsRow sv v := by
  obtain ⟨hl, hc, ha⟩ := h
  cases mps with
  | nil => simp at hl; omega
  | cons t ts =>
    simp at hl
    subst hl
    obtain ⟨c, e, s, g⟩ := sv_chain hc
    have hn : c.numel = 2 ^ (ts.length + 1) := by simp [Tensor.numel, s]
    have v1 : c.view [-1] = .ok (c.reshapeN [2 ^ (ts.length + 1)]) :=
      c.view_neg_first (2 ^ (ts.length + 1)) [] (by simp [hn]) (by simp)
    have v2 : (c.reshapeN [2 ^ (ts.length + 1)]).view [1, -1] =
        .ok ((c.reshapeN [2 ^ (ts.length + 1)]).reshapeN [1, 2 ^ (ts.length + 1)]) :=
      Tensor.view_neg_last _ 1 (2 ^ (ts.length + 1)) (by simp [Tensor.numel]) (by simp)
    refine ⟨(c.reshapeN [2 ^ (ts.length + 1)]).reshapeN [1, 2 ^ (ts.length + 1)], ?_, rfl,
      fun a => ?_⟩
    · show (do
        let c ← ts.foldlM MPS2SV_step t
        (← c.view [-1]).view [1, -1]) = _
      rw [e, Py.ok_bind, v1, Py.ok_bind, v2]
    · rw [Tensor.reshapeN_get_eq (idx' := [enc a]) (by simp [enc_lt]) (by simp [enc_lt])
        (by simp [ravel]),
        Tensor.reshapeN_get_eq (idx' := [enc a, 0, 0]) (by simp [enc_lt]) (by rw [s]; simp [enc_lt])
        (by rw [s]; simp [ravel]), g a 0 (by omega), ha]

end QTN
