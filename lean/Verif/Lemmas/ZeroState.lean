import Verif.Lemmas.LosslessEx

/-! # Converting `|0…0⟩` to a matrix product state loses nothing -/

namespace QTN

open Finset Spec Matrix

/-- A matrix whose only non-zero column is the first one, which is not small. -/
theorem lossless_first_col {A : Tensor ℂ} {m n : ℕ} (hA : A.shape = [m, n])
    (h0 : ∀ i < m, ∀ j < n, j ≠ 0 → A.get [i, j] = 0)
    (hn : 1e-16 < ∑ i ∈ range m, ‖A.get [i, 0]‖ ^ 2) : Lossless A := by
  refine lossless_of_gram hA (fun j => if (j : ℕ) = 0 then ∑ i ∈ range m, ‖A.get [i, 0]‖ ^ 2 else 0) ?_ ?_
  · ext i j
    rw [Matrix.mul_apply]
    simp only [conjTranspose_apply, toMat, diagonal_apply]
    by_cases hi : (i : ℕ) = 0
    · by_cases hj : (j : ℕ) = 0
      · have hij : i = j := Fin.ext (hi.trans hj.symm)
        rw [if_pos hij, if_pos hi, hi, hj, Finset.sum_range]
        push_cast
        refine Finset.sum_congr rfl fun x _ => ?_
        rw [← Complex.conj_mul']; rfl
      · rw [if_neg (fun e : i = j => hj (e ▸ hi))]
        exact Finset.sum_eq_zero fun x _ => by rw [h0 x x.isLt j j.isLt hj, mul_zero]
    · have : ∑ x : Fin m, star (A.get [(x : ℕ), (i : ℕ)]) * A.get [(x : ℕ), (j : ℕ)] = 0 :=
        Finset.sum_eq_zero fun x _ => by rw [h0 x x.isLt i i.isLt hi]; simp
      rw [this]
      rw [if_neg hi]; simp
  · intro j
    by_cases hj : (j : ℕ) = 0
    · right; rw [if_pos hj]; exact hn
    · left; rw [if_neg hj]

/-- The loop on a matrix whose only non-zero column is the first one. -/
theorem loop_first_col {svd : SVDOracle} (hv : ValidSVD svd) : ∀ (k D : ℕ) (c : Tensor ℂ) (s : List (Tensor ℂ)),
    0 < D → c.shape = [D, 2 ^ (k + 1)] → (∀ i < D, ∀ j < 2 ^ (k + 1), j ≠ 0 → c.get [i, j] = 0) →
    1e-16 < ∑ i ∈ range D, ‖c.get [i, 0]‖ ^ 2 → (∀ A ∈ s, Lossless A) →
    ∀ A ∈ (StateVec2MPS_loop svd (k + 1) c s).2, Lossless A := by
  intro k
  induction k with
  | zero =>
    intro D c s _ hc _ _ hs
    obtain ⟨t, e, -⟩ := loop_last svd (c := c) (by simpa using hc) s
    rw [e]; exact hs
  | succ k ih =>
    intro D c s hD hc h0 hn hs
    have hp : 0 < 2 ^ (k + 1) := by positivity
    obtain ⟨A, sA, gA, hz, h1, -⟩ := loop_step (c := c) (k := k) hv hD (by rw [hc]; congr 2; ring) s
    have hpow : 2 ^ (k + 1 + 1) = 2 * 2 ^ (k + 1) := by ring
    have split : ∀ i < 2 * D, ∃ x i', x < 2 ∧ i' < D ∧ i = x * D + i' := by
      intro i hi
      refine ⟨i / D, i % D, by rw [Nat.div_lt_iff_lt_mul hD]; omega, Nat.mod_lt _ hD,
        (Nat.div_add_mod' _ _).symm⟩
    have hA0 : ∀ i < 2 * D, ∀ j < 2 ^ (k + 1), j ≠ 0 → A.get [i, j] = 0 := by
      intro i hi j hj hj0
      obtain ⟨x, i', hx, hi', rfl⟩ := split i hi
      rw [gA x i' j hx hi' hj]
      refine h0 i' hi' _ ?_ (by omega)
      rcases lt_two_cases hx with e | e <;> rw [e] <;> omega
    have hAn : ∑ i ∈ range (2 * D), ‖A.get [i, 0]‖ ^ 2 = ∑ i ∈ range D, ‖c.get [i, 0]‖ ^ 2 := by
      rw [sum_stack D (f := fun i => ‖A.get [i, 0]‖ ^ 2), Finset.sum_range_succ, Finset.sum_range_one]
      have e1 : ∑ i ∈ range D, ‖A.get [1 * D + i, 0]‖ ^ 2 = 0 := by
        refine Finset.sum_eq_zero fun i hi => ?_
        have hi := Finset.mem_range.1 hi
        rw [gA 1 i 0 (by omega) hi hp, h0 i hi _ (by omega) (by omega)]; simp
      rw [e1, add_zero]
      refine Finset.sum_congr rfl fun i hi => ?_
      rw [gA 0 i 0 (by omega) (Finset.mem_range.1 hi) hp, Nat.zero_mul, Nat.zero_add]
    have hlA : Lossless A := lossless_first_col sA hA0 (by rw [hAn]; exact hn)
    have hs' : ∀ B ∈ s ++ [A], Lossless B := by
      intro B hB
      rcases List.mem_append.1 hB with h | h
      · exact hs B h
      · rw [List.mem_singleton.1 h]; exact hlA
    by_cases hb : bondDim (svd s A).S = 0
    · rw [hz hb]; exact hs'
    · obtain ⟨U, r, t, tr, -, -, he, hok⟩ := h1 hb
      have hE := Nat.pos_of_ne_zero hb
      set E := bondDim (svd s A).S with hEd
      have hex : toMat A (2 * D) (2 ^ (k + 1)) = toMat U (2 * D) E * toMat r E (2 ^ (k + 1)) := by
        ext i j
        rw [Matrix.mul_apply]
        simp only [toMat]
        rw [trunc_exact hv sA hlA s i.isLt j.isLt, Finset.sum_range]
        refine Finset.sum_congr rfl fun q _ => ?_
        rw [tr.getU _ _ i.isLt q.isLt, tr.getR _ _ q.isLt j.isLt]
      have hiso := trunc_iso hv sA tr
      have hr : toMat r E (2 ^ (k + 1)) = (toMat U (2 * D) E)ᴴ * toMat A (2 * D) (2 ^ (k + 1)) := by
        rw [hex, ← Matrix.mul_assoc, hiso, Matrix.one_mul]
      have hgram : (toMat r E (2 ^ (k + 1)))ᴴ * toMat r E (2 ^ (k + 1)) =
          (toMat A (2 * D) (2 ^ (k + 1)))ᴴ * toMat A (2 * D) (2 ^ (k + 1)) := by
        rw [hex, conjTranspose_mul, Matrix.mul_assoc, ← Matrix.mul_assoc _ (toMat U (2 * D) E), hiso,
          Matrix.one_mul]
      have hr0 : ∀ i < E, ∀ j < 2 ^ (k + 1), j ≠ 0 → r.get [i, j] = 0 := by
        intro i hi j hj hj0
        have := congrFun (congrFun hr ⟨i, hi⟩) ⟨j, hj⟩
        rw [Matrix.mul_apply] at this
        refine Eq.trans this (Finset.sum_eq_zero fun x _ => ?_)
        show _ * A.get [(x : ℕ), j] = 0
        rw [hA0 x x.isLt j hj hj0, mul_zero]
      have hrn : ∑ i ∈ range E, ‖r.get [i, 0]‖ ^ 2 = ∑ i ∈ range (2 * D), ‖A.get [i, 0]‖ ^ 2 := by
        have := congrFun (congrFun hgram ⟨0, hp⟩) ⟨0, hp⟩
        rw [Matrix.mul_apply, Matrix.mul_apply] at this
        apply Complex.ofReal_injective
        push_cast
        rw [Finset.sum_range, Finset.sum_range]
        simp only [← Complex.conj_mul']
        exact this
      have hrec := ih E r (s ++ [A]) hE tr.shapeR hr0 (by rw [hrn, hAn]; exact hn) hs'
      rcases hres : StateVec2MPS_loop svd (k + 1) r (s ++ [A]) with ⟨e | l, s'⟩
      · rw [hres] at hrec; rw [he _ _ hres]; exact hrec
      · rw [hres] at hrec; rw [hok _ _ hres]; exact hrec

/-- `StateVec2MPS` of `|0…0⟩` decomposes matrices with singular values 0 and 1 only. -/
theorem zero_state_lossless {svd : SVDOracle} (hv : ValidSVD svd) {N : ℕ} (hN : 0 < N) {psi : Tensor ℂ}
    (h : IsRow psi (fun a : Bits N => if a = 0 then (1 : ℂ) else 0)) (s : List (Tensor ℂ))
    (hs : ∀ A ∈ s, Lossless A) : ∀ A ∈ (StateVec2MPS svd psi N s).2, Lossless A := by
  obtain ⟨k, rfl⟩ : ∃ k, N = k + 1 := ⟨N - 1, by omega⟩
  rw [sv2mps_unfold svd h.1]
  have h00 : enc (0 : Bits (k + 1)) = 0 := by simp [enc]
  refine loop_first_col hv k 1 psi s (by omega) h.1 ?_ ?_ hs
  · intro i hi j hj hj0
    obtain rfl : i = 0 := by omega
    obtain ⟨a, rfl⟩ := exists_enc hj
    rw [h.2 a]
    exact if_neg (by rintro rfl; exact hj0 h00)
  · have := h.2 0
    rw [h00] at this
    beta_reduce at this
    rw [if_pos rfl] at this
    rw [Finset.sum_range_one, this]
    norm_num

end QTN
