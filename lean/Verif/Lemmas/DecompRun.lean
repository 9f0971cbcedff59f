import Verif.Lemmas.SvMps

/-! # The decompositions of two- and three-site tensors, with and without loss -/

namespace QTN

open Finset Spec Matrix

theorem stack_lt {x i n : ℕ} (hx : x < 2) (hi : i < n) : x * n + i < 2 * n := by
  rcases lt_two_cases hx with rfl | rfl <;> omega

/-- Truncation error of one decomposition, entry by entry. -/
theorem trunc_nrm {svd : SVDOracle} (hv : ValidSVD svd) {A U r : Tensor ℂ} {m n : ℕ} {s : List (Tensor ℂ)}
    (hA : A.shape = [m, n]) (t : Trunc A m n (svd s A) U r) :
    nrm m n (fun i j => A.get [i, j] - ∑ k ∈ range (bondDim (svd s A).S), U.get [i, k] * r.get [k, j]) =
      cutLoss (svd s A).S := by
  rw [nrm_eq, ← trunc_loss hv hA t]
  congr 1
  ext i j
  rw [Matrix.sub_apply, Matrix.mul_apply, Finset.sum_range]
  rfl

/-- The remainder of a truncated decomposition is `U^H A`. -/
theorem trunc_remainder {svd : SVDOracle} (hv : ValidSVD svd) {A U r : Tensor ℂ} {m n : ℕ}
    {s : List (Tensor ℂ)} (hA : A.shape = [m, n]) (t : Trunc A m n (svd s A) U r) {k j : ℕ}
    (hk : k < bondDim (svd s A).S) (hj : j < n) :
    r.get [k, j] = ∑ i ∈ range m, star ((svd s A).U.get [i, k]) * A.get [i, j] := by
  have h := hv s A m n hA
  have hk' : k < min m n := by rw [← h.lenS]; exact hk.trans_le (bondDim_le _)
  have e : ∀ i ∈ range m, star ((svd s A).U.get [i, k]) * A.get [i, j] =
      ∑ q ∈ range (min m n), star ((svd s A).U.get [i, k]) * (svd s A).U.get [i, q] *
        ((((svd s A).S.getD q 0 : ℝ) : ℂ) * star ((svd s A).V.get [j, q])) := by
    intro i hi
    rw [svd_entry h (Finset.mem_range.1 hi) hj, Finset.mul_sum]
    exact Finset.sum_congr rfl (fun q _ => by ring)
  rw [Finset.sum_congr rfl e, Finset.sum_comm]
  have e2 : ∀ q ∈ range (min m n), ∑ i ∈ range m, star ((svd s A).U.get [i, k]) * (svd s A).U.get [i, q] *
      ((((svd s A).S.getD q 0 : ℝ) : ℂ) * star ((svd s A).V.get [j, q])) =
      if k = q then (((svd s A).S.getD q 0 : ℝ) : ℂ) * star ((svd s A).V.get [j, q]) else 0 := by
    intro q hq
    rw [← Finset.sum_mul, svd_orthU h hk' (Finset.mem_range.1 hq)]
    split <;> simp
  rw [Finset.sum_congr rfl e2, Finset.sum_ite_eq, if_pos (Finset.mem_range.2 hk'), t.getR k j hk hj]

/-- If no singular value is above the cut-off, the matrix is as small as what is cut. -/
theorem all_cut {svd : SVDOracle} (hv : ValidSVD svd) {A : Tensor ℂ} {m n : ℕ} {s : List (Tensor ℂ)}
    (hA : A.shape = [m, n]) (hb : bondDim (svd s A).S = 0) :
    nrm m n (fun i j => A.get [i, j]) = cutLoss (svd s A).S := by
  have h := hv s A m n hA
  rw [cutLoss_eq h.nonneg h.desc h.lenS, hb, ← fro_svd h.orthU h.orthV, nrm_eq]
  simp only [Nat.not_lt_zero, if_false]
  rw [← h.factor]
  rfl

theorem decomp2_full {svd : SVDOracle} (hv : ValidSVD svd) {t : Tensor ℂ} {l r : ℕ}
    (h : t.shape = [2, 2, l, r]) (hl : 0 < l) (hr : 0 < r) (s : List (Tensor ℂ)) :
    ∃ m, m.shape = [2 * l, 2 * r] ∧
      (∀ x y i j, x < 2 → y < 2 → i < l → j < r → m.get [x * l + i, y * r + j] = t.get [x, y, i, j]) ∧
      (bondDim (svd s m).S = 0 → TensorDecompAfterTwoQbitGate svd t s = (.error .runtimeError, s ++ [m]) ∧
        Real.sqrt (∑ x ∈ range 2, ∑ i ∈ range l, ∑ y ∈ range 2, ∑ j ∈ range r, ‖t.get [x, y, i, j]‖ ^ 2) =
          cutLoss (svd s m).S) ∧
      (bondDim (svd s m).S ≠ 0 → ∃ a b, TensorDecompAfterTwoQbitGate svd t s = (.ok (a, b), s ++ [m]) ∧
        a.shape = [2, l, bondDim (svd s m).S] ∧ b.shape = [2, bondDim (svd s m).S, r] ∧
        (∀ y k j, y < 2 → k < bondDim (svd s m).S → j < r →
          b.get [y, k, j] = ∑ x ∈ range 2, ∑ i ∈ range l, star (a.get [x, i, k]) * t.get [x, y, i, j]) ∧
        (∀ k q, k < bondDim (svd s m).S → q < bondDim (svd s m).S →
          ∑ x ∈ range 2, ∑ i ∈ range l, star (a.get [x, i, k]) * a.get [x, i, q] = if k = q then 1 else 0) ∧
        Real.sqrt (∑ x ∈ range 2, ∑ i ∈ range l, ∑ y ∈ range 2, ∑ j ∈ range r,
          ‖t.get [x, y, i, j] - ∑ k ∈ range (bondDim (svd s m).S), a.get [x, i, k] * b.get [y, k, j]‖ ^ 2) =
            cutLoss (svd s m).S) := by
  obtain ⟨m, hm, sm, gm⟩ := blockMat2_ok h
  obtain ⟨h0, h1⟩ := svdTrunc_run hv sm (by omega) (by omega) s
  refine ⟨m, sm, gm, fun hb => ⟨?_, ?_⟩, fun hb => ?_⟩
  · unfold TensorDecompAfterTwoQbitGate
    rw [hm, TNM.lift_ok_bind, TNM.bind_error (h0 hb)]
  · rw [← all_cut hv sm hb]
    unfold nrm
    rw [sum_stack]
    simp only [sum_stack r]
    congr 1
    apply Finset.sum_congr rfl; intro x hx
    apply Finset.sum_congr rfl; intro i hi
    apply Finset.sum_congr rfl; intro y hy
    apply Finset.sum_congr rfl; intro j hj
    rw [gm x y i j (Finset.mem_range.1 hx) (Finset.mem_range.1 hy) (Finset.mem_range.1 hi)
      (Finset.mem_range.1 hj)]
  · obtain ⟨U, c, e, tr⟩ := h1 hb
    have hD := Nat.pos_of_ne_zero hb
    obtain ⟨a, ea, sa, ga⟩ := view_site hD tr.shapeU
    obtain ⟨c', ec, sc', gc⟩ := foldHalves_ok hr tr.shapeR
    obtain ⟨b, eb, sb, gb⟩ := view_site hr sc'
    refine ⟨a, b, ?_, sa, sb, ?_, ?_, ?_⟩
    · unfold TensorDecompAfterTwoQbitGate
      rw [hm, TNM.lift_ok_bind, TNM.bind_ok e]
      show ((liftM (U.view [2, -1, (U.shape.getD 1 0 : ℤ)]) : TNM _) >>= _) _ = _
      rw [ea, TNM.lift_ok_bind, ec, TNM.lift_ok_bind, eb, TNM.lift_ok_bind, TNM.pure_apply]
    · intro y k j hy hk hj
      rw [gb y k j hy hk hj, gc y k j hy hk hj, trunc_remainder hv sm tr hk (stack_lt hy hj), sum_stack]
      refine Finset.sum_congr rfl (fun x hx => Finset.sum_congr rfl (fun i hi => ?_))
      have hx := Finset.mem_range.1 hx
      have hi := Finset.mem_range.1 hi
      rw [gm x y i j hx hy hi hj, ga x i k hx hi hk, tr.getU _ _ (stack_lt hx hi) hk]
    · intro k q hk hq
      have hv' := hv s m _ _ sm
      have hle := bondDim_le (svd s m).S
      rw [← svd_orthU hv' (r := k) (q := q) (by rw [← hv'.lenS]; omega) (by rw [← hv'.lenS]; omega),
        sum_stack]
      apply Finset.sum_congr rfl
      intro x hx
      apply Finset.sum_congr rfl
      intro i hi
      have hx := Finset.mem_range.1 hx
      have hi := Finset.mem_range.1 hi
      rw [ga x i k hx hi hk, ga x i q hx hi hq, tr.getU _ _ (stack_lt hx hi) hk,
        tr.getU _ _ (stack_lt hx hi) hq]
    · rw [← trunc_nrm hv sm tr]
      unfold nrm
      rw [sum_stack]
      simp only [sum_stack r]
      congr 1
      apply Finset.sum_congr rfl; intro x hx
      apply Finset.sum_congr rfl; intro i hi
      apply Finset.sum_congr rfl; intro y hy
      apply Finset.sum_congr rfl; intro j hj
      have hx := Finset.mem_range.1 hx
      have hi := Finset.mem_range.1 hi
      have hy := Finset.mem_range.1 hy
      have hj := Finset.mem_range.1 hj
      rw [gm x y i j hx hy hi hj]
      congr 3
      apply Finset.sum_congr rfl; intro k hk
      have hk := Finset.mem_range.1 hk
      rw [ga x i k hx hi hk, gb y k j hy hk hj, gc y k j hy hk hj]

theorem decomp2_run {svd : SVDOracle} (hv : ValidSVD svd) {t : Tensor ℂ} {l r : ℕ}
    (h : t.shape = [2, 2, l, r]) (hl : 0 < l) (hr : 0 < r) (s : List (Tensor ℂ)) :
    ∃ m, m.shape = [2 * l, 2 * r] ∧
      (∀ x y i j, x < 2 → y < 2 → i < l → j < r → m.get [x * l + i, y * r + j] = t.get [x, y, i, j]) ∧
      (bondDim (svd s m).S = 0 → TensorDecompAfterTwoQbitGate svd t s = (.error .runtimeError, s ++ [m])) ∧
      (bondDim (svd s m).S ≠ 0 → ∃ a b, TensorDecompAfterTwoQbitGate svd t s = (.ok (a, b), s ++ [m]) ∧
        a.shape = [2, l, bondDim (svd s m).S] ∧ b.shape = [2, bondDim (svd s m).S, r] ∧
        (∀ k q, k < bondDim (svd s m).S → q < bondDim (svd s m).S →
          ∑ x ∈ range 2, ∑ i ∈ range l, star (a.get [x, i, k]) * a.get [x, i, q] = if k = q then 1 else 0) ∧
        Real.sqrt (∑ x ∈ range 2, ∑ i ∈ range l, ∑ y ∈ range 2, ∑ j ∈ range r,
          ‖t.get [x, y, i, j] - ∑ k ∈ range (bondDim (svd s m).S), a.get [x, i, k] * b.get [y, k, j]‖ ^ 2) =
            cutLoss (svd s m).S) := by
  obtain ⟨m, sm, gm, h0, h1⟩ := decomp2_full hv h hl hr s
  refine ⟨m, sm, gm, fun hb => (h0 hb).1, fun hb => ?_⟩
  obtain ⟨a, b, e, sa, sb, -, h2⟩ := h1 hb
  exact ⟨a, b, e, sa, sb, h2⟩

/-- Two truncated decompositions, one after the other: the errors add up. -/
theorem trunc_two {svd : SVDOracle} (hv : ValidSVD svd) {A U c B U2 d : Tensor ℂ} {l R : ℕ}
    {s s2 : List (Tensor ℂ)} (hR : 0 < R) (hA : A.shape = [2 * l, 2 * R])
    (tr : Trunc A (2 * l) (2 * R) (svd s A) U c)
    (hB : B.shape = [2 * bondDim (svd s A).S, R])
    (hBc : ∀ y k j, y < 2 → k < bondDim (svd s A).S → j < R →
      B.get [y * bondDim (svd s A).S + k, j] = c.get [k, y * R + j])
    (tr2 : Trunc B (2 * bondDim (svd s A).S) R (svd s2 B) U2 d) :
    nrm (2 * l) (2 * R) (fun i J => A.get [i, J] - ∑ k ∈ range (bondDim (svd s A).S), U.get [i, k] *
      ∑ q ∈ range (bondDim (svd s2 B).S), U2.get [(J / R) * bondDim (svd s A).S + k, q] * d.get [q, J % R]) ≤
      cutLoss (svd s A).S + cutLoss (svd s2 B).S := by
  set D := bondDim (svd s A).S with hD
  set E := bondDim (svd s2 B).S with hE
  have e1 : nrm (2 * l) (2 * R) (fun i J => A.get [i, J] - ∑ k ∈ range D, U.get [i, k] *
      ∑ q ∈ range E, U2.get [(J / R) * D + k, q] * d.get [q, J % R]) =
      fro ((toMat A (2 * l) (2 * R) - toMat U (2 * l) D * toMat c D (2 * R)) +
        toMat U (2 * l) D * Matrix.of (fun (k : Fin D) (J : Fin (2 * R)) =>
          c.get [(k : ℕ), (J : ℕ)] - ∑ q ∈ range E, U2.get [((J : ℕ) / R) * D + k, q] * d.get [q, (J : ℕ) % R])) := by
    rw [nrm_eq]
    congr 1
    ext i j
    rw [Matrix.add_apply, Matrix.sub_apply, Matrix.mul_apply, Matrix.mul_apply, Finset.sum_range]
    simp only [toMat, Matrix.of_apply, mul_sub, Finset.sum_sub_distrib]
    ring
  rw [e1]
  refine (fro_add_le _ _).trans ?_
  rw [trunc_loss hv hA tr, fro_iso (trunc_iso hv hA tr)]
  have e2 : nrm D (2 * R) (fun k J => c.get [k, J] - ∑ q ∈ range E, U2.get [(J / R) * D + k, q] * d.get [q, J % R]) =
      cutLoss (svd s2 B).S := by
    rw [← trunc_nrm hv hB tr2]
    apply nrm_fold
    intro x i j hx hi hj
    beta_reduce
    rw [hBc x i j hx hi hj, show (x * R + j) / R = x by
        rw [mul_comm, Nat.mul_add_div hR, Nat.div_eq_of_lt hj, add_zero],
      show (x * R + j) % R = j by rw [mul_comm, Nat.mul_add_mod, Nat.mod_eq_of_lt hj]]
  rw [nrm_eq] at e2
  exact add_le_add_right (le_of_eq e2) _

theorem decomp3_full {svd : SVDOracle} (hv : ValidSVD svd) {t : Tensor ℂ} {l r : ℕ}
    (h : t.shape = [2, 2, 2, l, r]) (hl : 0 < l) (hr : 0 < r) (s : List (Tensor ℂ)) :
    ∃ m, m.shape = [2 * l, 2 * (2 * r)] ∧
      (∀ x y z i j, x < 2 → y < 2 → z < 2 → i < l → j < r →
        m.get [x * l + i, y * (2 * r) + (z * r + j)] = t.get [x, y, z, i, j]) ∧
      (bondDim (svd s m).S = 0 →
        TensorDecompAfterThreeQbitGate svd t s = (.error .runtimeError, s ++ [m]) ∧
        Real.sqrt (∑ x ∈ range 2, ∑ i ∈ range l, ∑ y ∈ range 2, ∑ z ∈ range 2, ∑ j ∈ range r,
            ‖t.get [x, y, z, i, j]‖ ^ 2) = cutLoss (svd s m).S) ∧
      (bondDim (svd s m).S ≠ 0 → ∃ m', m'.shape = [2 * bondDim (svd s m).S, 2 * r] ∧
        (∀ y k z j, y < 2 → k < bondDim (svd s m).S → z < 2 → j < r →
          m'.get [y * bondDim (svd s m).S + k, z * r + j] =
            ∑ x ∈ range 2, ∑ i ∈ range l, star ((svd s m).U.get [x * l + i, k]) * t.get [x, y, z, i, j]) ∧
        (bondDim (svd (s ++ [m]) m').S = 0 →
          TensorDecompAfterThreeQbitGate svd t s = (.error .runtimeError, s ++ [m] ++ [m']) ∧
          Real.sqrt (∑ x ∈ range 2, ∑ i ∈ range l, ∑ y ∈ range 2, ∑ z ∈ range 2, ∑ j ∈ range r,
            ‖t.get [x, y, z, i, j]‖ ^ 2) ≤ cutLoss (svd s m).S + cutLoss (svd (s ++ [m]) m').S) ∧
        (bondDim (svd (s ++ [m]) m').S ≠ 0 → ∃ a b c,
          TensorDecompAfterThreeQbitGate svd t s = (.ok (a, b, c), s ++ [m] ++ [m']) ∧
          a.shape = [2, l, bondDim (svd s m).S] ∧
          b.shape = [2, bondDim (svd s m).S, bondDim (svd (s ++ [m]) m').S] ∧
          c.shape = [2, bondDim (svd (s ++ [m]) m').S, r] ∧
          (∀ x i k, x < 2 → i < l → k < bondDim (svd s m).S →
            a.get [x, i, k] = (svd s m).U.get [x * l + i, k]) ∧
          (∀ z q j, z < 2 → q < bondDim (svd (s ++ [m]) m').S → j < r → c.get [z, q, j] =
            ∑ y ∈ range 2, ∑ k ∈ range (bondDim (svd s m).S), star (b.get [y, k, q]) *
              m'.get [y * bondDim (svd s m).S + k, z * r + j]) ∧
          (∀ k q, k < bondDim (svd s m).S → q < bondDim (svd s m).S →
            ∑ x ∈ range 2, ∑ i ∈ range l, star (a.get [x, i, k]) * a.get [x, i, q] = if k = q then 1 else 0) ∧
          (∀ k q, k < bondDim (svd (s ++ [m]) m').S → q < bondDim (svd (s ++ [m]) m').S →
            ∑ x ∈ range 2, ∑ i ∈ range (bondDim (svd s m).S), star (b.get [x, i, k]) * b.get [x, i, q] =
              if k = q then 1 else 0) ∧
          Real.sqrt (∑ x ∈ range 2, ∑ i ∈ range l, ∑ y ∈ range 2, ∑ z ∈ range 2, ∑ j ∈ range r,
            ‖t.get [x, y, z, i, j] - ∑ k ∈ range (bondDim (svd s m).S), a.get [x, i, k] *
              ∑ q ∈ range (bondDim (svd (s ++ [m]) m').S), b.get [y, k, q] * c.get [z, q, j]‖ ^ 2) ≤
            cutLoss (svd s m).S + cutLoss (svd (s ++ [m]) m').S)) := by
  obtain ⟨m, hm, sm, gm⟩ := blockMat3_ok h
  have hrank : t.rank = 5 := by simp [Tensor.rank, h]
  obtain ⟨h0, h1⟩ := svdTrunc_run hv sm (by omega) (by omega) s
  have hn : nrm (2 * l) (2 * (2 * r)) (fun i j => m.get [i, j]) =
      Real.sqrt (∑ x ∈ range 2, ∑ i ∈ range l, ∑ y ∈ range 2, ∑ z ∈ range 2, ∑ j ∈ range r,
        ‖t.get [x, y, z, i, j]‖ ^ 2) := by
    unfold nrm
    rw [sum_stack]
    simp only [sum_stack (2 * r), sum_stack r]
    congr 1
    apply Finset.sum_congr rfl; intro x hx
    apply Finset.sum_congr rfl; intro i hi
    apply Finset.sum_congr rfl; intro y hy
    apply Finset.sum_congr rfl; intro z hz
    apply Finset.sum_congr rfl; intro j hj
    rw [gm x y z i j (Finset.mem_range.1 hx) (Finset.mem_range.1 hy) (Finset.mem_range.1 hz)
      (Finset.mem_range.1 hi) (Finset.mem_range.1 hj)]
  refine ⟨m, sm, gm, fun hb => ⟨?_, ?_⟩, fun hb => ?_⟩
  · unfold TensorDecompAfterThreeQbitGate
    rw [raiseIf_false (by simp [hrank]), TNM.lift_ok_bind, hm, TNM.lift_ok_bind, TNM.bind_error (h0 hb)]
  · rw [← hn, all_cut hv sm hb]
  · obtain ⟨U, c, e, tr⟩ := h1 hb
    have hD := Nat.pos_of_ne_zero hb
    obtain ⟨a, ea, sa, ga⟩ := view_site hD tr.shapeU
    obtain ⟨c', ec, sc', gc⟩ := foldHalves_ok (by omega) tr.shapeR
    obtain ⟨h2, h3⟩ := svdTrunc_run hv sc' (by omega) (by omega) (s ++ [m])
    refine ⟨c', sc', fun y k z j hy hk hz hj => ?_, fun hb' => ⟨?_, ?_⟩, fun hb' => ?_⟩
    · rw [gc y k _ hy hk (stack_lt hz hj), trunc_remainder hv sm tr hk (stack_lt hy (stack_lt hz hj)), sum_stack]
      refine Finset.sum_congr rfl (fun x hx => Finset.sum_congr rfl (fun i hi => ?_))
      rw [gm x y z i j (Finset.mem_range.1 hx) hy hz (Finset.mem_range.1 hi) hj]
    · unfold TensorDecompAfterThreeQbitGate
      rw [raiseIf_false (by simp [hrank]), TNM.lift_ok_bind, hm, TNM.lift_ok_bind, TNM.bind_ok e]
      show ((liftM (U.view [2, -1, (U.shape.getD 1 0 : ℤ)]) : TNM _) >>= _) _ = _
      rw [ea, TNM.lift_ok_bind, ec, TNM.lift_ok_bind, TNM.bind_error (h2 hb')]
    · rw [← hn, ← all_cut hv sc' hb', ← nrm_fold (f := fun k J => c.get [k, J])
        (fun y k j hy hk hj => (gc y k j hy hk hj).symm), ← trunc_loss hv sm tr, nrm_eq, nrm_eq]
      have e1 := fro_add_le (toMat m (2 * l) (2 * (2 * r)) -
        toMat U (2 * l) (bondDim (svd s m).S) * toMat c (bondDim (svd s m).S) (2 * (2 * r)))
        (toMat U (2 * l) (bondDim (svd s m).S) * toMat c (bondDim (svd s m).S) (2 * (2 * r)))
      rw [fro_iso (trunc_iso hv sm tr), sub_add_cancel] at e1
      exact e1
    · obtain ⟨U2, d, e2, tr2⟩ := h3 hb'
      have hE := Nat.pos_of_ne_zero hb'
      obtain ⟨b, eb, sb, gb⟩ := view_site hE tr2.shapeU
      obtain ⟨d', ed, sd', gd⟩ := foldHalves_ok hr tr2.shapeR
      obtain ⟨f, ef, sf, gf⟩ := view_site hr sd'
      refine ⟨a, b, f, ?_, sa, sb, sf, fun x i k hx hi hk => ?_, fun z q j hz hq hj => ?_, ?_, ?_, ?_⟩
      · unfold TensorDecompAfterThreeQbitGate
        rw [raiseIf_false (by simp [hrank]), TNM.lift_ok_bind, hm, TNM.lift_ok_bind, TNM.bind_ok e]
        show ((liftM (U.view [2, -1, (U.shape.getD 1 0 : ℤ)]) : TNM _) >>= _) _ = _
        rw [ea, TNM.lift_ok_bind, ec, TNM.lift_ok_bind, TNM.bind_ok e2]
        show ((liftM (U2.view [2, -1, (U2.shape.getD 1 0 : ℤ)]) : TNM _) >>= _) _ = _
        rw [eb, TNM.lift_ok_bind, ed, TNM.lift_ok_bind, ef, TNM.lift_ok_bind, TNM.pure_apply]
      · rw [ga x i k hx hi hk, tr.getU _ _ (stack_lt hx hi) hk]
      · rw [gf z q j hz hq hj, gd z q j hz hq hj, trunc_remainder hv sc' tr2 hq (stack_lt hz hj), sum_stack]
        refine Finset.sum_congr rfl (fun y hy => Finset.sum_congr rfl (fun k hk => ?_))
        have hy := Finset.mem_range.1 hy
        have hk := Finset.mem_range.1 hk
        rw [gb y k q hy hk hq, tr2.getU _ _ (stack_lt hy hk) hq]
      · intro k q hk hq
        have hv' := hv s m _ _ sm
        have hle := bondDim_le (svd s m).S
        rw [← svd_orthU hv' (r := k) (q := q) (by rw [← hv'.lenS]; omega) (by rw [← hv'.lenS]; omega),
          sum_stack]
        apply Finset.sum_congr rfl
        intro x hx
        apply Finset.sum_congr rfl
        intro i hi
        have hx := Finset.mem_range.1 hx
        have hi := Finset.mem_range.1 hi
        rw [ga x i k hx hi hk, ga x i q hx hi hq, tr.getU _ _ (stack_lt hx hi) hk,
          tr.getU _ _ (stack_lt hx hi) hq]
      · intro k q hk hq
        have hv' := hv (s ++ [m]) c' _ _ sc'
        have hle := bondDim_le (svd (s ++ [m]) c').S
        rw [← svd_orthU hv' (r := k) (q := q) (by rw [← hv'.lenS]; omega) (by rw [← hv'.lenS]; omega),
          sum_stack]
        apply Finset.sum_congr rfl
        intro x hx
        apply Finset.sum_congr rfl
        intro i hi
        have hx := Finset.mem_range.1 hx
        have hi := Finset.mem_range.1 hi
        rw [gb x i k hx hi hk, gb x i q hx hi hq, tr2.getU _ _ (stack_lt hx hi) hk,
          tr2.getU _ _ (stack_lt hx hi) hq]
      · have e3 := trunc_two hv (l := l) (R := 2 * r) (by omega) sm tr sc'
          (fun y k j hy hk hj => gc y k j hy hk hj) tr2
        refine le_of_eq_of_le ?_ e3
        unfold nrm
        rw [sum_stack]
        simp only [sum_stack (2 * r), sum_stack r]
        congr 1
        apply Finset.sum_congr rfl; intro x hx
        apply Finset.sum_congr rfl; intro i hi
        apply Finset.sum_congr rfl; intro y hy
        apply Finset.sum_congr rfl; intro z hz
        apply Finset.sum_congr rfl; intro j hj
        have hx := Finset.mem_range.1 hx
        have hi := Finset.mem_range.1 hi
        have hy := Finset.mem_range.1 hy
        have hz := Finset.mem_range.1 hz
        have hj := Finset.mem_range.1 hj
        have hzj := stack_lt hz hj
        rw [gm x y z i j hx hy hz hi hj]
        congr 3
        apply Finset.sum_congr rfl; intro k hk
        have hk := Finset.mem_range.1 hk
        rw [ga x i k hx hi hk]
        congr 1
        apply Finset.sum_congr rfl; intro q hq
        have hq := Finset.mem_range.1 hq
        rw [show (y * (2 * r) + (z * r + j)) / (2 * r) = y by
            rw [mul_comm, Nat.mul_add_div (by omega), Nat.div_eq_of_lt hzj, add_zero],
          show (y * (2 * r) + (z * r + j)) % (2 * r) = z * r + j by
            rw [mul_comm, Nat.mul_add_mod, Nat.mod_eq_of_lt hzj],
          gb y k q hy hk hq, gf z q j hz hq hj, gd z q j hz hq hj]

theorem decomp3_run {svd : SVDOracle} (hv : ValidSVD svd) {t : Tensor ℂ} {l r : ℕ}
    (h : t.shape = [2, 2, 2, l, r]) (hl : 0 < l) (hr : 0 < r) (s : List (Tensor ℂ)) :
    ∃ m, m.shape = [2 * l, 2 * (2 * r)] ∧
      (∀ x y z i j, x < 2 → y < 2 → z < 2 → i < l → j < r →
        m.get [x * l + i, y * (2 * r) + (z * r + j)] = t.get [x, y, z, i, j]) ∧
      (bondDim (svd s m).S = 0 →
        TensorDecompAfterThreeQbitGate svd t s = (.error .runtimeError, s ++ [m])) ∧
      (bondDim (svd s m).S ≠ 0 → ∃ m', m'.shape = [2 * bondDim (svd s m).S, 2 * r] ∧
        (∀ y k z j, y < 2 → k < bondDim (svd s m).S → z < 2 → j < r →
          m'.get [y * bondDim (svd s m).S + k, z * r + j] =
            ∑ x ∈ range 2, ∑ i ∈ range l, star ((svd s m).U.get [x * l + i, k]) * t.get [x, y, z, i, j]) ∧
        (bondDim (svd (s ++ [m]) m').S = 0 →
          TensorDecompAfterThreeQbitGate svd t s = (.error .runtimeError, s ++ [m] ++ [m'])) ∧
        (bondDim (svd (s ++ [m]) m').S ≠ 0 → ∃ a b c,
          TensorDecompAfterThreeQbitGate svd t s = (.ok (a, b, c), s ++ [m] ++ [m']) ∧
          a.shape = [2, l, bondDim (svd s m).S] ∧
          b.shape = [2, bondDim (svd s m).S, bondDim (svd (s ++ [m]) m').S] ∧
          c.shape = [2, bondDim (svd (s ++ [m]) m').S, r] ∧
          (∀ k q, k < bondDim (svd s m).S → q < bondDim (svd s m).S →
            ∑ x ∈ range 2, ∑ i ∈ range l, star (a.get [x, i, k]) * a.get [x, i, q] = if k = q then 1 else 0) ∧
          (∀ k q, k < bondDim (svd (s ++ [m]) m').S → q < bondDim (svd (s ++ [m]) m').S →
            ∑ x ∈ range 2, ∑ i ∈ range (bondDim (svd s m).S), star (b.get [x, i, k]) * b.get [x, i, q] =
              if k = q then 1 else 0) ∧
          Real.sqrt (∑ x ∈ range 2, ∑ i ∈ range l, ∑ y ∈ range 2, ∑ z ∈ range 2, ∑ j ∈ range r,
            ‖t.get [x, y, z, i, j] - ∑ k ∈ range (bondDim (svd s m).S), a.get [x, i, k] *
              ∑ q ∈ range (bondDim (svd (s ++ [m]) m').S), b.get [y, k, q] * c.get [z, q, j]‖ ^ 2) ≤
            cutLoss (svd s m).S + cutLoss (svd (s ++ [m]) m').S)) := by
  obtain ⟨m, sm, gm, h0, h1⟩ := decomp3_full hv h hl hr s
  refine ⟨m, sm, gm, fun hb => (h0 hb).1, fun hb => ?_⟩
  obtain ⟨m', sm', gm', h2, h3⟩ := h1 hb
  refine ⟨m', sm', gm', fun hb' => (h2 hb').1, fun hb' => ?_⟩
  obtain ⟨a, b, c, e, sa, sb, sc, -, -, h4⟩ := h3 hb'
  exact ⟨a, b, c, e, sa, sb, sc, h4⟩

end QTN
