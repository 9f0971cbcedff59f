import Verif.Lemmas.DecompRun
import Verif.Lemmas.LosslessEx
import Verif.Lemmas.SvdExists

/-! # Property C51: the decompositions of merged tensors -/

namespace QTN.Props

open QTN QTN.Spec Matrix Finset

/-- The number of values above the cut-off `1e-8`. -/
noncomputable def above (S : List ℝ) : ℕ := (S.filter (fun σ => decide (σ > 1e-8))).length

/-- `m` is the matrix of a two-site tensor: rows `(x, i)`, columns `(y, j)`. -/
def Unfolds2 (t m : Tensor ℂ) (l r : ℕ) : Prop :=
  m.shape = [2 * l, 2 * r] ∧
    ∀ x y i j, x < 2 → y < 2 → i < l → j < r → m.get [x * l + i, y * r + j] = t.get [x, y, i, j]

/-- `m` is the matrix of a three-site tensor: rows `(x, i)`, columns `(y, z, j)`. -/
def Unfolds3 (t m : Tensor ℂ) (l r : ℕ) : Prop :=
  m.shape = [2 * l, 2 * (2 * r)] ∧
    ∀ x y z i j, x < 2 → y < 2 → z < 2 → i < l → j < r →
      m.get [x * l + i, y * (2 * r) + (z * r + j)] = t.get [x, y, z, i, j]

/-- A site tensor of shape `[2, l, D]` whose `2l × D` matrix has orthonormal columns. -/
def LeftIsometry (a : Tensor ℂ) (l D : ℕ) : Prop :=
  a.shape = [2, l, D] ∧ ∀ k q, k < D → q < D →
    ∑ x ∈ range 2, ∑ i ∈ range l, star (a.get [x, i, k]) * a.get [x, i, q] = if k = q then 1 else 0

theorem above_eq {svd : SVDOracle} (hv : ValidSVD svd) {A : Tensor ℂ} {m n : ℕ} (hA : A.shape = [m, n])
    (s : List (Tensor ℂ)) : bondDim (svd s A).S = above (svd s A).S := by
  unfold bondDim above
  congr 1
  apply List.filter_congr
  intro σ hσ
  rw [abs_of_nonneg ((hv s A m n hA).nonneg σ hσ)]
  rfl

theorem above_zero {svd : SVDOracle} (hv : ValidSVD svd) {A : Tensor ℂ} {m n : ℕ} (hA : A.shape = [m, n])
    (hm : 0 < m) (hn : 0 < n) (s : List (Tensor ℂ)) (h : ∀ σ, SingularValue A σ → σ ≤ 1e-8) :
    bondDim (svd s A).S = 0 := by
  have hs := hv s A m n hA
  have hk : 0 < min m n := by omega
  by_contra hb
  have h1 := (bondDim_iff hs.nonneg hs.desc (by rw [hs.lenS]; exact hk)).1 (Nat.pos_of_ne_zero hb)
  exact absurd (h _ (svd_singular hA hs hk)) (not_le.2 h1)

theorem cutLoss_lossless {svd : SVDOracle} (hv : ValidSVD svd) {A : Tensor ℂ} {m n : ℕ}
    (hA : A.shape = [m, n]) (hl : Lossless A) (s : List (Tensor ℂ)) : cutLoss (svd s A).S = 0 := by
  have hs := hv s A m n hA
  unfold cutLoss
  rw [List.sum_eq_zero, Real.sqrt_zero]
  intro x hx
  obtain ⟨σ, hσ, rfl⟩ := List.mem_map.1 hx
  obtain ⟨hσ, hle⟩ := List.mem_filter.1 hσ
  obtain ⟨i, hi, e⟩ := List.getElem_of_mem hσ
  have hsv := svd_singular hA hs (r := i) (by rw [← hs.lenS]; exact hi)
  rw [List.getD_eq_getElem?_getD, List.getElem?_eq_getElem hi, Option.getD_some, e] at hsv
  rcases hl σ hsv with h | h
  · rw [h]; ring
  · exact absurd (of_decide_eq_true hle) (not_le.2 h)

theorem sum_sq_zero {α : Type} {S : Finset α} {f : α → ℝ} (h0 : ∀ x ∈ S, 0 ≤ f x)
    (h : ∑ x ∈ S, f x = 0) : ∀ x ∈ S, f x = 0 := (Finset.sum_eq_zero_iff_of_nonneg h0).1 h

/-- C51, two sites: the tensor `t` is unfolded to a matrix `m`, one SVD is made, and
* if all singular values of `m` are negligible the call raises RuntimeError;
* otherwise, with `D` the number of singular values above `1e-8`, it raises if `D = 0` and else
  returns a left isometry with bond dimension `D` and a right factor; the contraction of the two differs
  from `t` by exactly the root-sum-square of the discarded singular values, and equals `t` if no non-zero
  singular value is discarded. -/
theorem C51_two_sites {svd : SVDOracle} (hv : ValidSVD svd) {t : Tensor ℂ} {l r : ℕ}
    (h : t.shape = [2, 2, l, r]) (hl : 0 < l) (hr : 0 < r) (s : List (Tensor ℂ)) :
    ∃ m, Unfolds2 t m l r ∧
      ((∀ σ, SingularValue m σ → σ ≤ 1e-8) →
        TensorDecompAfterTwoQbitGate svd t s = (.error .runtimeError, s ++ [m])) ∧
      (above (svd s m).S = 0 →
        TensorDecompAfterTwoQbitGate svd t s = (.error .runtimeError, s ++ [m])) ∧
      (above (svd s m).S ≠ 0 → ∃ a b, TensorDecompAfterTwoQbitGate svd t s = (.ok (a, b), s ++ [m]) ∧
        LeftIsometry a l (above (svd s m).S) ∧ b.shape = [2, above (svd s m).S, r] ∧
        Real.sqrt (∑ x ∈ range 2, ∑ i ∈ range l, ∑ y ∈ range 2, ∑ j ∈ range r,
          ‖t.get [x, y, i, j] - ∑ k ∈ range (above (svd s m).S), a.get [x, i, k] * b.get [y, k, j]‖ ^ 2) =
            cutLoss (svd s m).S ∧
        (Lossless m → ∀ x y i j, x < 2 → y < 2 → i < l → j < r →
          ∑ k ∈ range (above (svd s m).S), a.get [x, i, k] * b.get [y, k, j] = t.get [x, y, i, j])) := by
  obtain ⟨m, sm, gm, h0, h1⟩ := decomp2_run hv h hl hr s
  rw [above_eq hv sm s] at h0 h1
  refine ⟨m, ⟨sm, gm⟩, fun hz => h0 ?_, h0, fun hb => ?_⟩
  · rw [← above_eq hv sm s]; exact above_zero hv sm (by omega) (by omega) s hz
  · obtain ⟨a, b, e, sa, sb, iso, err⟩ := h1 hb
    refine ⟨a, b, e, ⟨sa, iso⟩, sb, err, fun hll => ?_⟩
    rw [cutLoss_lossless hv sm hll s, Real.sqrt_eq_zero (by positivity)] at err
    intro x y i j hx hy hi hj
    have e1 := sum_sq_zero (fun _ _ => by positivity) err x (mem_range.2 hx)
    have e2 := sum_sq_zero (fun _ _ => by positivity) e1 i (mem_range.2 hi)
    have e3 := sum_sq_zero (fun _ _ => by positivity) e2 y (mem_range.2 hy)
    have e4 := sum_sq_zero (fun _ _ => by positivity) e3 j (mem_range.2 hj)
    rw [sq_eq_zero_iff, norm_eq_zero, sub_eq_zero] at e4
    exact e4.symm

/-- The merged tensor of `(p|0⟩ + q|1⟩)|0⟩` after CNOT meets the hypotheses, loses nothing and does
not raise. -/
example : ∃ svd, ValidSVD svd ∧ ∃ t : Tensor ℂ, t.shape = [2, 2, 1, 1] ∧
    ∃ m, Unfolds2 t m 1 1 ∧ Lossless m ∧ above (svd [] m).S ≠ 0 := by
  obtain ⟨svd, hv⟩ := exists_validSVD
  refine ⟨svd, hv, Tensor.ofFn [2, 2, 1, 1] (fun i => if i.getD 0 0 = i.getD 1 0 then 1 else 0), rfl, ?_⟩
  obtain ⟨m, hu, h0, h1, h2⟩ := C51_two_sites hv
    (t := Tensor.ofFn [2, 2, 1, 1] (fun i => if i.getD 0 0 = i.getD 1 0 then 1 else 0)) (l := 1) (r := 1) rfl
    (by omega) (by omega) []
  have g : toMat m 2 2 = diagonal ![1, 1] := by
    ext i j
    have := hu.2 i j 0 0 i.isLt j.isLt (by omega) (by omega)
    simp only [mul_one, add_zero] at this
    refine this.trans ?_
    rw [Tensor.get_ofFn (by fin_cases i <;> fin_cases j <;> rfl)]
    fin_cases i <;> fin_cases j <;> simp
  have hll : Lossless m := lossless_diag2 hu.1 (by norm_num) (by norm_num) g
  refine ⟨m, hu, hll, fun hz => ?_⟩
  have hs := hv [] m 2 2 hu.1
  have e := trunc_exact hv hu.1 hll [] (i := 0) (j := 0) (by omega) (by omega)
  rw [above_eq hv hu.1, hz] at e
  have g0 : m.get [0, 0] = 1 := by
    have := congrFun (congrFun g 0) 0
    simpa [toMat] using this
  rw [g0] at e
  simp at e

/-- C51, three sites: the tensor is unfolded to a matrix `m`, decomposed, the remainder `U^H m` is regrouped
to a matrix `m'` and decomposed again.  A negligible `m` or `m'` raises RuntimeError.  Otherwise two
left isometries and a last factor are returned, whose bond dimensions are the numbers of singular values
above `1e-8`; the contraction differs from `t` by at most the discarded parts, and equals `t` if no non-zero
singular value is discarded. -/
theorem C51_three_sites {svd : SVDOracle} (hv : ValidSVD svd) {t : Tensor ℂ} {l r : ℕ}
    (h : t.shape = [2, 2, 2, l, r]) (hl : 0 < l) (hr : 0 < r) (s : List (Tensor ℂ)) :
    ∃ m, Unfolds3 t m l r ∧
      ((∀ σ, SingularValue m σ → σ ≤ 1e-8) →
        TensorDecompAfterThreeQbitGate svd t s = (.error .runtimeError, s ++ [m])) ∧
      (above (svd s m).S = 0 →
        TensorDecompAfterThreeQbitGate svd t s = (.error .runtimeError, s ++ [m])) ∧
      (above (svd s m).S ≠ 0 → ∃ m', m'.shape = [2 * above (svd s m).S, 2 * r] ∧
        (∀ y k z j, y < 2 → k < above (svd s m).S → z < 2 → j < r →
          m'.get [y * above (svd s m).S + k, z * r + j] =
            ∑ x ∈ range 2, ∑ i ∈ range l, star ((svd s m).U.get [x * l + i, k]) * t.get [x, y, z, i, j]) ∧
        ((∀ σ, SingularValue m' σ → σ ≤ 1e-8) →
          TensorDecompAfterThreeQbitGate svd t s = (.error .runtimeError, s ++ [m] ++ [m'])) ∧
        (above (svd (s ++ [m]) m').S = 0 →
          TensorDecompAfterThreeQbitGate svd t s = (.error .runtimeError, s ++ [m] ++ [m'])) ∧
        (above (svd (s ++ [m]) m').S ≠ 0 → ∃ a b c,
          TensorDecompAfterThreeQbitGate svd t s = (.ok (a, b, c), s ++ [m] ++ [m']) ∧
          LeftIsometry a l (above (svd s m).S) ∧
          LeftIsometry b (above (svd s m).S) (above (svd (s ++ [m]) m').S) ∧
          c.shape = [2, above (svd (s ++ [m]) m').S, r] ∧
          Real.sqrt (∑ x ∈ range 2, ∑ i ∈ range l, ∑ y ∈ range 2, ∑ z ∈ range 2, ∑ j ∈ range r,
            ‖t.get [x, y, z, i, j] - ∑ k ∈ range (above (svd s m).S), a.get [x, i, k] *
              ∑ q ∈ range (above (svd (s ++ [m]) m').S), b.get [y, k, q] * c.get [z, q, j]‖ ^ 2) ≤
            cutLoss (svd s m).S + cutLoss (svd (s ++ [m]) m').S ∧
          (Lossless m → Lossless m' → ∀ x y z i j, x < 2 → y < 2 → z < 2 → i < l → j < r →
            ∑ k ∈ range (above (svd s m).S), a.get [x, i, k] *
              ∑ q ∈ range (above (svd (s ++ [m]) m').S), b.get [y, k, q] * c.get [z, q, j] =
            t.get [x, y, z, i, j]))) := by
  obtain ⟨m, sm, gm, h0, h1⟩ := decomp3_run hv h hl hr s
  rw [above_eq hv sm s] at h0 h1
  refine ⟨m, ⟨sm, gm⟩, fun hz => h0 ?_, h0, fun hb => ?_⟩
  · rw [← above_eq hv sm s]; exact above_zero hv sm (by omega) (by omega) s hz
  · obtain ⟨m', sm', gm', h2, h3⟩ := h1 hb
    rw [above_eq hv sm' (s ++ [m])] at h2 h3
    refine ⟨m', sm', gm', fun hz => h2 ?_, h2, fun hb' => ?_⟩
    · rw [← above_eq hv sm' (s ++ [m])]
      exact above_zero hv sm' (by have := Nat.pos_of_ne_zero hb; omega) (by omega) _ hz
    · obtain ⟨a, b, c, e, sa, sb, sc, isoa, isob, err⟩ := h3 hb'
      refine ⟨a, b, c, e, ⟨sa, isoa⟩, ⟨sb, isob⟩, sc, err, fun hll hll' => ?_⟩
      rw [cutLoss_lossless hv sm hll s, cutLoss_lossless hv sm' hll' _, add_zero] at err
      have err := le_antisymm err (Real.sqrt_nonneg _)
      rw [Real.sqrt_eq_zero (by positivity)] at err
      intro x y z i j hx hy hz hi hj
      have e1 := sum_sq_zero (fun _ _ => by positivity) err x (mem_range.2 hx)
      have e2 := sum_sq_zero (fun _ _ => by positivity) e1 i (mem_range.2 hi)
      have e3 := sum_sq_zero (fun _ _ => by positivity) e2 y (mem_range.2 hy)
      have e4 := sum_sq_zero (fun _ _ => by positivity) e3 z (mem_range.2 hz)
      have e5 := sum_sq_zero (fun _ _ => by positivity) e4 j (mem_range.2 hj)
      rw [sq_eq_zero_iff, norm_eq_zero, sub_eq_zero] at e5
      exact e5.symm

/-- The tensor of `|111⟩` meets the hypotheses and loses nothing (`decomp3_basis`). -/
example : ∃ svd, ValidSVD svd ∧ ∃ t : Tensor ℂ, t.shape = [2, 2, 2, 1, 1] ∧ t.get [1, 1, 1, 0, 0] ≠ 0 ∧
    ∀ A ∈ (TensorDecompAfterThreeQbitGate svd t []).2, Lossless A := by
  obtain ⟨svd, hv⟩ := exists_validSVD
  refine ⟨svd, hv, Tensor.ofFn [2, 2, 2, 1, 1]
    (fun i => if i.getD 0 0 = 1 ∧ i.getD 1 0 = 1 ∧ i.getD 2 0 = 1 then 1 else 0), rfl, ?_,
    decomp3_basis hv (p := 1) (q := 1) (r := 1) (by omega) (by omega) (by omega) rfl ?_⟩
  · rw [Tensor.get_ofFn rfl]; simp
  · intro x y z hx hy hz
    rw [Tensor.get_ofFn (by simp [hx, hy, hz])]
    simp

/-- C51, error branch: a tensor of the wrong rank is rejected by the three-site function. -/
theorem C51_rank (svd : SVDOracle) (t : Tensor ℂ) (h : t.rank ≠ 5) (s : List (Tensor ℂ)) :
    TensorDecompAfterThreeQbitGate svd t s = (.error .valueError, s) := by
  unfold TensorDecompAfterThreeQbitGate
  rw [raiseIf_true h, TNM.lift_error_bind]

example : (Tensor.zeros [2, 2, 1, 1] : Tensor ℂ).rank ≠ 5 := by decide

end QTN.Props
