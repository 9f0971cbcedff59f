import Verif.Lemmas.RhoCanon
import Verif.Props.RhoMps
import Verif.Props.PTrace
import Verif.Props.Schmidt
import Mathlib.Algebra.Order.Chebyshev

/-! # Property C97: the conversion of a density matrix is canonical and minimal, and its error is known -/

namespace QTN.Props

open QTN QTN.Spec Matrix

variable {N : ℕ}

theorem frob_fro (r : QOp N) : frob r = fro r := rfl

theorem frob_sq (r : QOp N) : frob r ^ 2 = ∑ x, ∑ y, ‖r x y‖ ^ 2 :=
  Real.sq_sqrt (Finset.sum_nonneg fun _ _ => Finset.sum_nonneg fun _ _ => by positivity)

theorem frob_nonneg (r : QOp N) : 0 ≤ frob r := Real.sqrt_nonneg _

theorem frob_smul (c : ℂ) (r : QOp N) : frob (c • r) = ‖c‖ * frob r := by
  have h : frob (c • r) ^ 2 = (‖c‖ * frob r) ^ 2 := by
    rw [mul_pow, frob_sq, frob_sq, Finset.mul_sum]
    refine Finset.sum_congr rfl fun x _ => ?_
    rw [Finset.mul_sum]
    refine Finset.sum_congr rfl fun y _ => ?_
    show ‖c * r x y‖ ^ 2 = _
    rw [norm_mul, mul_pow]
  exact (pow_left_inj₀ (frob_nonneg _) (mul_nonneg (norm_nonneg _) (frob_nonneg _)) two_ne_zero).1 h

theorem tr_le (r : QOp N) : ‖tr r‖ ≤ Real.sqrt (2 ^ N) * frob r := by
  refine abs_le_of_sq_le_sq' ?_ (mul_nonneg (Real.sqrt_nonneg _) (frob_nonneg r)) |>.2
  rw [mul_pow, Real.sq_sqrt (by positivity), frob_sq]
  have h1 : ‖tr r‖ ≤ ∑ a, ‖r a a‖ := norm_sum_le _ _
  calc ‖tr r‖ ^ 2 ≤ (∑ a, ‖r a a‖) ^ 2 := by gcongr
    _ ≤ (Finset.univ : Finset (Bits N)).card * ∑ a, ‖r a a‖ ^ 2 := sq_sum_le_card_mul_sum_sq
    _ = 2 ^ N * ∑ a, ‖r a a‖ ^ 2 := by simp
    _ ≤ 2 ^ N * ∑ x, ∑ y, ‖r x y‖ ^ 2 := by
        gcongr with a
        exact Finset.single_le_sum (f := fun y => ‖r a y‖ ^ 2) (fun _ _ => by positivity) (Finset.mem_univ a)

theorem sq2_one (f : Bits N × Bits N → ℂ) : sq2 1 N (fun _ c => f c) = ∑ x, ∑ y, ‖f (x, y)‖ ^ 2 := by
  unfold sq2
  rw [Finset.sum_range_one, Fintype.sum_prod_type]

theorem norm_colPhase {svd : SVDOracle} (hv : ValidSVD svd) {u : ℂ} (h : ColumnPhase svd u) : ‖u‖ = 1 := by
  have := h.norm hv
  rw [Complex.star_def, Complex.conj_mul'] at this
  have h2 : ‖u‖ ^ 2 = 1 := by exact_mod_cast this
  exact (pow_eq_one_iff_of_nonneg (norm_nonneg u) two_ne_zero).1 h2

/-- C97: whatever is discarded, the conversion of a `2^N × 2^N` matrix `r` makes `N` decompositions and
gives `N` sites, all of them isometries from their right bonds, so that the operator `w` they hold has
Frobenius norm 1 for every `r`.  No bond exceeds the operator Schmidt rank of `r` at this place.  `r`
itself is within the square root of the sum of the squares of the discarded singular values from a
multiple of `w`, exactly, and the factor is a positive number times a phase chosen by the SVD
routine. -/
theorem C97_canonical {svd : SVDOracle} (hv : ValidSVD svd) (hN : 0 < N) (rho : Tensor ℂ) (r : QOp N)
    (h : Represents rho r) (s s' mps : List (Tensor ℂ)) (e : Rho2MPS svd rho N s = (.ok mps, s')) :
    ∃ (D : ℕ → ℕ) (As : List (Tensor ℂ)) (w : QOp N) (σ : ℝ) (u : ℂ), HoldsOp mps D w ∧ s' = s ++ As ∧ As.length = N ∧
      (∀ (i : ℕ) (hi : i < mps.length), SiteIsometry mps[i] (D i) (D (i + 1))) ∧
      (∀ k, 0 < k → k < N → D k ≤ opRank r k) ∧
      frob w = 1 ∧ 1e-8 < σ ∧ ColumnPhase svd u ∧
      frob (r - (σ * star u) • w) ^ 2 = lossSq svd s As ∧
      frob r ^ 2 = σ ^ 2 + lossSq svd s As := by
  obtain ⟨t, et, st, gt⟩ := rho_view h
  rw [rho_unfold svd h et] at e
  obtain ⟨E, As, z, rfl, hAs, hl, hch, e0, hp, hs, hiso, hrk, hsq, hnm, hun, hlast⟩ :=
    rho_canon hv N 1 t s mps s' (by omega) st e
  obtain ⟨e1, ⟨log, A, m, σ, hA, hm, hσ, hz⟩, hlt⟩ := hlast hN
  have hu : ColumnPhase svd ((svd log A).V.get [0, 0]) := ⟨log, A, m, hA, hm, rfl⟩
  have hun1 := norm_colPhase hv hu
  set u := (svd log A).V.get [0, 0] with hud
  have hzn : ‖z 0‖ = σ := by
    rw [hz, norm_mul, norm_star, hun1, mul_one, Complex.norm_real, Real.norm_eq_abs, abs_of_pos hσ]
  have hget : ∀ x y : Bits N, t.get [0, pe (x, y)] = r x y := fun x y => gt x y
  refine ⟨E, As, fun x y => amp4 mps (bl x) (bl y) 0 0, σ, u,
    ⟨hl, e0, e1, hp, hs, fun x y => amp4_entry hl e0 e1 hs x y⟩, rfl, hAs, hiso, fun k h1 h2 =>
    (hrk k h1 h2.le).trans (cutC4_rank gt k), ?_, hzn ▸ hlt, hu, ?_, ?_⟩
  · have := hun (fun _ => 1)
    rw [e1] at this
    simp only [Finset.sum_range_one, mul_one, norm_one, one_pow] at this
    unfold sq2 at this
    rw [Finset.sum_range_one, Fintype.sum_prod_type] at this
    unfold frob
    rw [this, Real.sqrt_one]
  · rw [frob_sq, ← hsq, e1]
    unfold sq2
    rw [Finset.sum_range_one, Fintype.sum_prod_type]
    refine Finset.sum_congr rfl fun x _ => Finset.sum_congr rfl fun y _ => ?_
    show ‖r x y - (σ * star u) * amp4 mps (bl x) (bl y) 0 0‖ ^ 2 = ‖t.get [0, pe (x, y)] - ∑ q ∈ Finset.range 1,
      amp4 mps (bl x) (bl y) 0 q * z q‖ ^ 2
    rw [hget, Finset.sum_range_one, hz, mul_comm (amp4 _ _ _ _ _)]
  · rw [e1] at hnm
    unfold sq2 at hnm
    rw [Finset.sum_range_one, Finset.sum_range_one, Fintype.sum_prod_type, hzn] at hnm
    rw [frob_sq, ← hnm]
    refine Finset.sum_congr rfl fun x _ => Finset.sum_congr rfl fun y _ => ?_
    show ‖r x y‖ ^ 2 = ‖t.get [0, pe (x, y)]‖ ^ 2
    rw [hget]

/-- C97: at most `2^N` singular values of at most `1e-8` are discarded in each of the `N`
decompositions. -/
theorem C97_loss {svd : SVDOracle} (hv : ValidSVD svd) (rho : Tensor ℂ) (r : QOp N)
    (h : Represents rho r) (s As mps : List (Tensor ℂ)) (e : Rho2MPS svd rho N s = (.ok mps, s ++ As)) :
    lossSq svd s As ≤ N * (2 ^ N * 1e-16) := by
  obtain ⟨t, et, st, gt⟩ := rho_view h
  rw [rho_unfold svd h et] at e
  exact (rho_budget hv N N 1 t s (by omega) (by omega) st).1 mps As e

/-- C97: the conversion returns for every matrix that is larger than what can be discarded. -/
theorem C97_returns {svd : SVDOracle} (hv : ValidSVD svd) (rho : Tensor ℂ) (r : QOp N)
    (h : Represents rho r) (hr : N * (2 ^ N * 1e-16) < frob r ^ 2) (s : List (Tensor ℂ)) :
    ∃ mps As, Rho2MPS svd rho N s = (.ok mps, s ++ As) := by
  obtain ⟨t, et, st, gt⟩ := rho_view h
  rw [rho_unfold svd h et]
  refine (rho_budget hv N N 1 t s (by omega) (by omega) st).2.1 (hr.trans_eq ?_)
  rw [frob_sq]
  unfold sq2
  rw [Finset.sum_range_one, Fintype.sum_prod_type]
  exact Finset.sum_congr rfl fun x _ => Finset.sum_congr rfl fun y _ => by rw [← gt]; rfl

theorem tr_one_frob {r : QOp N} (ht : tr r = 1) : 1 ≤ 2 ^ N * frob r ^ 2 := by
  have h := tr_le r
  rw [ht, norm_one] at h
  have h2 : (1 : ℝ) ^ 2 ≤ (Real.sqrt (2 ^ N) * frob r) ^ 2 := by gcongr
  rwa [one_pow, mul_pow, Real.sq_sqrt (by positivity)] at h2

theorem budget_small (hN : N ≤ 24) : (N : ℝ) * (2 ^ N * 1e-16) * 2 ^ N < 1 := by
  have h1 : (2 : ℝ) ^ N ≤ 2 ^ 24 := pow_le_pow_right₀ (by norm_num) hN
  have h2 : (N : ℝ) ≤ 24 := by exact_mod_cast hN
  calc (N : ℝ) * (2 ^ N * 1e-16) * 2 ^ N ≤ 24 * (2 ^ 24 * 1e-16) * 2 ^ 24 := by gcongr
    _ < 1 := by norm_num

/-- C97: the conversion returns for every matrix of trace 1 of at most 24 qubits. -/
theorem C97_density {svd : SVDOracle} (hv : ValidSVD svd) (hN : N ≤ 24) (rho : Tensor ℂ) (r : QOp N)
    (h : Represents rho r) (ht : tr r = 1) (s : List (Tensor ℂ)) :
    ∃ mps As, Rho2MPS svd rho N s = (.ok mps, s ++ As) := by
  refine C97_returns hv rho r h ?_ s
  have h1 := tr_one_frob ht
  have h2 := budget_small hN
  have h3 : (0 : ℝ) < 2 ^ N := by positivity
  by_contra hc
  push Not at hc
  nlinarith

/-- The density matrix of `(|00⟩ + |11⟩)/√2`. -/
noncomputable def bellRho : QOp 2 := fun x y => if x 0 = x 1 ∧ y 0 = y 1 then 1 / 2 else 0

theorem bellRho_tr : tr bellRho = 1 := by
  unfold tr
  rw [sum_bits_split, Fin.sum_univ_two]
  simp only [sum_bits_split (n := 0), Fin.sum_univ_two]
  simp [bellRho]
  norm_num

/-- `C97_canonical`, `C97_loss` and `C97_density` apply to the Bell state. -/
example : ∃ svd rho mps As, ValidSVD svd ∧ Represents rho bellRho ∧ tr bellRho = 1 ∧ 2 ≤ 24 ∧
    Rho2MPS svd rho 2 [] = (.ok mps, [] ++ As) := by
  obtain ⟨svd, hv⟩ := exists_validSVD
  obtain ⟨rho, h⟩ := exists_represents bellRho
  obtain ⟨mps, As, e⟩ := C97_density hv (by omega) rho bellRho h bellRho_tr []
  exact ⟨svd, rho, mps, As, hv, h, bellRho_tr, by omega, e⟩

/-- `C97_returns` applies to matrices of any trace: the operator `X` on one qubit. -/
example : ∃ rho, Represents rho (onQubit (0 : Fin 1) Spec.X) ∧
    ((1 : ℕ) : ℝ) * (2 ^ 1 * 1e-16) < frob (onQubit (0 : Fin 1) Spec.X) ^ 2 := by
  obtain ⟨rho, h⟩ := exists_represents (onQubit (0 : Fin 1) Spec.X)
  refine ⟨rho, h, ?_⟩
  have : ‖onQubit (0 : Fin 1) Spec.X ![0] ![1]‖ ^ 2 ≤ frob (onQubit (0 : Fin 1) Spec.X) ^ 2 := by
    rw [frob_sq]
    refine (Finset.single_le_sum (f := fun y => ‖onQubit (0 : Fin 1) Spec.X ![0] y‖ ^ 2) (fun _ _ => by positivity)
      (Finset.mem_univ ![1])).trans (Finset.single_le_sum (f := fun x => ∑ y, ‖onQubit (0 : Fin 1) Spec.X x y‖ ^ 2)
      (fun _ _ => Finset.sum_nonneg fun _ _ => by positivity) (Finset.mem_univ ![0]))
  refine lt_of_lt_of_le ?_ this
  have e : onQubit (0 : Fin 1) Spec.X ![0] ![1] = 1 := by simp [onQubit, Spec.X]
  rw [e]
  norm_num

/-- C97: a matrix of Frobenius norm at most `1e-8` is rejected. -/
theorem C97_raises {svd : SVDOracle} (hv : ValidSVD svd) (hN : 0 < N) (rho : Tensor ℂ) (r : QOp N)
    (h : Represents rho r) (hr : frob r ≤ 1e-8) (s : List (Tensor ℂ)) :
    ∃ s', Rho2MPS svd rho N s = (.error .runtimeError, s') := by
  rcases e : Rho2MPS svd rho N s with ⟨er | mps, s'⟩
  · obtain ⟨t, et, st, gt⟩ := rho_view h
    rw [rho_unfold svd h et] at e
    rw [(rho_budget hv N N 1 t s (by omega) (by omega) st).2.2 er s' e]
    exact ⟨s', rfl⟩
  · exfalso
    obtain ⟨D, As, w, σ, u, -, -, -, -, -, -, hσ, -, hd, hn⟩ := C97_canonical hv hN rho r h s s' mps e
    have h0 : 0 ≤ lossSq svd s As := by rw [← hd]; exact sq_nonneg _
    have h1 : frob r ^ 2 ≤ (1e-8 : ℝ) ^ 2 := by
      have := frob_nonneg r
      gcongr
    have h2 : (1e-8 : ℝ) ^ 2 < σ ^ 2 := by gcongr
    linarith

/-- The zero matrix, and a small one that is not zero. -/
example : (∃ rho, Represents rho (0 : QOp 2) ∧ frob (0 : QOp 2) ≤ 1e-8) ∧
    ∃ rho, Represents rho ((1e-9 : ℂ) • bellRho) ∧ frob ((1e-9 : ℂ) • bellRho) ≤ 1e-8 := by
  refine ⟨(exists_represents 0).imp fun t ht => ⟨ht, ?_⟩, (exists_represents _).imp fun t ht => ⟨ht, ?_⟩⟩
  · simp [frob]; norm_num
  · have h1 : frob bellRho ≤ 1 := by
      unfold frob
      rw [Real.sqrt_le_one]
      simp only [sum_bits_split (n := 1), sum_bits_split (n := 0), Fin.sum_univ_two]
      simp [bellRho]
      norm_num
    rw [frob_smul]
    have : ‖(1e-9 : ℂ)‖ = 1e-9 := by norm_num
    rw [this]
    linarith

/-- C97: no matrix product operator, however obtained, holds `r` with a bond smaller than the
operator Schmidt rank of `r` at this place. -/
theorem C97_lower_bound {mps : List (Tensor ℂ)} {D : ℕ → ℕ} {r : QOp N} (h : HoldsOp mps D r) {k : ℕ} (hk : k < N) :
    opRank r k ≤ D k := opRank_le h hk

theorem opRank_smul {c : ℂ} (hc : c ≠ 0) (r : QOp N) (k : ℕ) : opRank (c • r) k = opRank r k := by
  have e : opCut (c • r) k = c • opCut r k := rfl
  unfold opRank
  rw [e]
  exact Matrix.rank_smul_of_mem_nonZeroDivisors _ (mem_nonZeroDivisors_of_ne_zero hc)

/-- C97: if no non-zero singular value is discarded, the sites hold exactly the matrix divided by its
Frobenius norm, up to the phase, every inner bond is the operator Schmidt rank of the matrix at this
place, and no matrix product operator of the matrix has a smaller bond anywhere. -/
theorem C97_minimal {svd : SVDOracle} (hv : ValidSVD svd) (hN : 0 < N) (rho : Tensor ℂ) (r : QOp N)
    (h : Represents rho r) (h0 : r ≠ 0) (s : List (Tensor ℂ))
    (hl : ∀ A ∈ (Rho2MPS svd rho N s).2, Lossless A) :
    ∃ (mps s' : List (Tensor ℂ)) (D : ℕ → ℕ) (w : QOp N) (u : ℂ), Rho2MPS svd rho N s = (.ok mps, s') ∧
      ColumnPhase svd u ∧ HoldsOp mps D w ∧ r = (frob r * star u) • w ∧
      (∀ k, 0 < k → k < N → D k = opRank r k) ∧
      ∀ (mps' : List (Tensor ℂ)) (D' : ℕ → ℕ), HoldsOp mps' D' r → ∀ k, 0 < k → k < N → D k ≤ D' k := by
  obtain ⟨t, et, st, gt⟩ := rho_view h
  have hunf := rho_unfold svd h et
  rw [hunf] at hl
  have hne : ∃ x y, r x y ≠ 0 := by
    by_contra hno
    push Not at hno
    exact h0 (by ext x y; exact hno x y)
  obtain ⟨x0, y0, hxy⟩ := hne
  obtain ⟨ts, s', D', c, e, hlen, hch, hamp, hlast⟩ := rho_loop hv N 1 t s st (by omega)
    ⟨0, x0, y0, by omega, by rw [gt]; exact hxy⟩ hl
  obtain ⟨rfl, log, A, m, σ, hA, hm, hσ, hc⟩ := hlast hN
  rw [← hunf] at e
  obtain ⟨D, As, w, σ', u', hw, -, -, -, hrk, hw1, -⟩ := C97_canonical hv hN rho r h s s' ts e
  have hu : ColumnPhase svd ((svd log A).V.get [0, 0]) := ⟨log, A, m, hA, hm, rfl⟩
  have hu1 := norm_colPhase hv hu
  set u := (svd log A).V.get [0, 0] with hud
  have hr : r = (σ * star u) • w := by
    ext x y
    show r x y = (σ * star u) * w x y
    rw [hw.2.2.2.2.2, ← amp4_entry hw.1 hw.2.1 hw.2.2.1 hw.2.2.2.2.1, ← gt, hamp 0 x y (by omega),
      Finset.sum_range_one, hc, mul_comm]
  have hσr : frob r = σ := by
    conv_lhs => rw [hr]
    rw [frob_smul, hw1, mul_one, norm_mul, norm_star, hu1, mul_one, Complex.norm_real, Real.norm_eq_abs,
      abs_of_pos hσ]
  have hc0 : (σ * star u : ℂ) ≠ 0 := by
    rw [← norm_ne_zero_iff, norm_mul, norm_star, hu1, mul_one, Complex.norm_real]
    exact (norm_pos_iff.2 hσ.ne').ne'
  refine ⟨ts, s', D, w, u, e, hu, hw, by rw [hσr]; exact hr, fun k h1 h2 => le_antisymm (hrk k h1 h2) ?_,
    fun mps' D' hm' k h1 h2 => (hrk k h1 h2).trans (C97_lower_bound hm' h2)⟩
  rw [hr, opRank_smul hc0]
  exact C97_lower_bound hw h2

/-- `|0⟩⟨0|` loses nothing. -/
example : ∃ svd rho, ValidSVD svd ∧ Represents rho zeroRho ∧ zeroRho ≠ 0 ∧
    ∀ A ∈ (Rho2MPS svd rho 1 []).2, Lossless A := by
  obtain ⟨svd, hv⟩ := exists_validSVD
  obtain ⟨rho, h⟩ := exists_represents zeroRho
  refine ⟨svd, rho, hv, h, fun hz => ?_, zeroRho_lossless hv h⟩
  have := zeroRho_tr
  rw [hz] at this
  simp [tr] at this

theorem opRank_product (f : Fin N → Mat2) (k : ℕ) : opRank (onEach f) k ≤ 1 := by
  have e : opCut (onEach f) k = Matrix.vecMulVec
      (fun a : Bits N × Bits N => ∏ i : Fin N, if (i : ℕ) < k then f i (a.1 i) (a.2 i) else 1)
      (fun b : Bits N × Bits N => ∏ i : Fin N, if (i : ℕ) < k then 1 else f i (b.1 i) (b.2 i)) := by
    ext a b
    show ∏ i, f i (splice k a.1 b.1 i) (splice k a.2 b.2 i) = _
    rw [Matrix.vecMulVec_apply, ← Finset.prod_mul_distrib]
    refine Finset.prod_congr rfl fun i _ => ?_
    unfold splice
    split <;> simp
  unfold opRank
  rw [e]
  exact Matrix.rank_vecMulVec_le _ _

theorem shapes_of_bonds {mps : List (Tensor ℂ)} {D : ℕ → ℕ} {w : QOp N} (hw : HoldsOp mps D w)
    (h : ∀ k, 0 < k → k < N → D k ≤ 1) : ∀ t ∈ mps, t.shape = [2, 2, 1, 1] := by
  obtain ⟨hl, d0, dN, hp, hsh, -⟩ := hw
  have hD : ∀ k ≤ N, D k = 1 := by
    intro k hk
    rcases Nat.eq_zero_or_pos k with rfl | h1
    · exact d0
    · rcases hk.lt_or_eq with h2 | rfl
      · exact le_antisymm (h k h1 h2) (hp k)
      · exact dN
  intro t ht
  obtain ⟨i, hi, rfl⟩ := List.mem_iff_getElem.1 ht
  rw [hsh i hi, hD i (by omega), hD (i + 1) (by omega)]

/-- C97: the density matrix of unentangled and uncorrelated qubits is always converted to sites of
shape `[2, 2, 1, 1]`. -/
theorem C97_product {svd : SVDOracle} (hv : ValidSVD svd) (hN : 0 < N) (rho : Tensor ℂ) (f : Fin N → Mat2)
    (h : Represents rho (onEach f)) (s s' mps : List (Tensor ℂ))
    (e : Rho2MPS svd rho N s = (.ok mps, s')) : mps.length = N ∧ ∀ t ∈ mps, t.shape = [2, 2, 1, 1] := by
  obtain ⟨D, As, w, σ', u', hw, -, -, -, hrk, -⟩ := C97_canonical hv hN rho _ h s s' mps e
  exact ⟨hw.1, shapes_of_bonds hw fun k h1 h2 => (hrk k h1 h2).trans (opRank_product f k)⟩

/-- C97: the bonds of the conversion of a pure state are at most the squares of its Schmidt ranks; if
nothing is discarded they are these squares. -/
theorem C97_pure {svd : SVDOracle} (hv : ValidSVD svd) (hN : 0 < N) (rho : Tensor ℂ) (v : QState N)
    (h : Represents rho (pureOp v)) (s s' mps : List (Tensor ℂ))
    (e : Rho2MPS svd rho N s = (.ok mps, s')) :
    ∃ (D : ℕ → ℕ) (w : QOp N), HoldsOp mps D w ∧ (∀ k, 0 < k → k < N → D k ≤ schmidtRank v k ^ 2) ∧
      ((∀ A ∈ s', Lossless A) → ∀ k, 0 < k → k < N → D k = schmidtRank v k ^ 2) := by
  obtain ⟨D, As, w, σ, u', hw, -, -, -, hrk, -, hσ, -, hd, hn⟩ := C97_canonical hv hN rho _ h s s' mps e
  refine ⟨D, w, hw, fun k h1 h2 => (hrk k h1 h2).trans (opRank_pure v k).le, fun hl k h1 h2 => ?_⟩
  have h0 : (pureOp v) ≠ 0 := by
    intro hz
    have h3 : 0 ≤ lossSq svd s As := by rw [← hd]; exact sq_nonneg _
    rw [hz] at hn
    have h4 : frob (0 : QOp N) = 0 := by simp [frob]
    rw [h4] at hn
    have : (0 : ℝ) < σ := lt_trans (by norm_num) hσ
    nlinarith
  obtain ⟨mps2, s2, D2, w2, u2, e2, -, hw2, -, hD2, -⟩ := C97_minimal hv hN rho _ h h0 s (by rw [e]; exact hl)
  rw [e] at e2
  obtain ⟨rfl, -⟩ : mps = mps2 ∧ s' = s2 := by simpa using e2
  rw [← opRank_pure v k, ← hD2 k h1 h2]
  have a1 := hw.2.2.2.2.1 k (by rw [hw.1]; exact h2)
  rw [hw2.2.2.2.2.1 k (by rw [hw2.1]; exact h2)] at a1
  simp at a1
  exact a1.1.symm

/-- A product of two different states, and the Bell state as a pure state. -/
example : (∃ rho, Represents rho (onEach (![!![1, 0; 0, 0], !![1 / 2, 0; 0, 1 / 2]] : Fin 2 → Mat2))) ∧
    ∃ svd rho mps As, ValidSVD svd ∧ Represents rho (pureOp (fun x : Bits 2 => if x 0 = x 1 then 1 else 0)) ∧
      Rho2MPS svd rho 2 [] = (.ok mps, [] ++ As) := by
  refine ⟨exists_represents _, ?_⟩
  obtain ⟨svd, hv⟩ := exists_validSVD
  obtain ⟨rho, h⟩ := exists_represents (pureOp (fun x : Bits 2 => if x 0 = x 1 then 1 else 0))
  obtain ⟨mps, As, e⟩ := C97_returns hv rho _ h (by
    rw [frob_sq]
    simp only [sum_bits_split (n := 1), sum_bits_split (n := 0), Fin.sum_univ_two]
    simp [pureOp]
    norm_num) []
  exact ⟨svd, rho, mps, As, hv, h, e⟩

/-! ## The round trip with truncation -/

theorem tr_sub (r w : QOp N) : tr (r - w) = tr r - tr w := by
  unfold tr
  rw [← Finset.sum_sub_distrib]
  rfl

theorem tr_smul (c : ℂ) (r : QOp N) : tr (c • r) = c * tr r := by
  unfold tr
  rw [Finset.mul_sum]
  rfl

/-- C97: contracting the sites of a matrix of trace 1 gives a matrix whose trace has real part 1 and
which is, up to the stated error, the given one times `u / Re u` for the phase `u` chosen by the SVD
routine.  Here `ε` is the root of the sum of the squares of the discarded singular values. -/
theorem C97_round_trip {svd : SVDOracle} (hv : ValidSVD svd) (hN : 0 < N) (rho : Tensor ℂ) (r : QOp N)
    (h : Represents rho r) (ht : tr r = 1) (s s' mps : List (Tensor ℂ)) (e : Rho2MPS svd rho N s = (.ok mps, s')) :
    ∃ (As : List (Tensor ℂ)) (u : ℂ), s' = s ++ As ∧ ColumnPhase svd u ∧ ∀ ε η : ℝ, ε = Real.sqrt (lossSq svd s As) →
      η = Real.sqrt (2 ^ N) * ε → η < |u.re| → ∃ (t : Tensor ℂ) (r' : QOp N), MPS2Rho mps = .ok t ∧ Represents t r' ∧
        (tr r').re = 1 ∧ frob (r' - (u / (u.re : ℂ)) • r) ≤ (ε + η / |u.re| * frob r) / (|u.re| - η) := by
  obtain ⟨D, As, w, σ, u, hw, rfl, -, -, -, hw1, hσ, hu, hd, hn⟩ := C97_canonical hv hN rho r h s s' mps e
  have hu1 := norm_colPhase hv hu
  have huu := hu.norm hv
  refine ⟨As, u, rfl, hu, fun ε η hε hη hlt => ?_⟩
  have hσ0 : (0 : ℝ) < σ := lt_trans (by norm_num) hσ
  have hσc : (σ : ℂ) ≠ 0 := by exact_mod_cast hσ0.ne'
  have hε' : frob (r - (σ * star u) • w) = ε := by
    rw [hε, ← hd, Real.sqrt_sq (frob_nonneg _)]
  have hε0 : 0 ≤ ε := hε' ▸ frob_nonneg _
  have hη0 : 0 ≤ η := by rw [hη]; positivity
  set W : QOp N := (σ * star u) • w with hW
  have hwW : w = (u / σ) • W := by
    rw [hW, smul_smul, show u / σ * (σ * star u) = star u * u * (σ / σ) by ring, huu, div_self hσc, mul_one, one_smul]
  set T : ℝ := (u * tr W).re with hT
  have hTd : |T - u.re| ≤ η := by
    have e1 : T - u.re = -(u * tr (r - W)).re := by
      rw [tr_sub, ht, hT]
      simp [mul_sub]
    rw [e1, abs_neg]
    refine (Complex.abs_re_le_norm _).trans ?_
    rw [norm_mul, hu1, one_mul, hη, ← hε']
    exact tr_le _
  have hTκ : |u.re| - η ≤ |T| := by
    have := abs_sub_abs_le_abs_sub u.re T
    rw [abs_sub_comm] at this
    linarith
  have hT0 : T ≠ 0 := fun h0 => by rw [h0, abs_zero] at hTκ; linarith
  have hκ : 0 < |u.re| := lt_of_le_of_lt hη0 hlt
  have hre : u.re ≠ 0 := abs_pos.1 hκ
  obtain ⟨t, etp, rt⟩ := mps2rho_rep hN hw.1 (by
    have := chain4_of_dims mps D hw.2.2.2.1 hw.2.2.2.2.1
    rwa [hw.2.1, hw.1, hw.2.2.1] at this) w (fun x y => by
      rw [hw.2.2.2.2.2, ← amp4_entry hw.1 hw.2.1 hw.2.2.1 hw.2.2.2.2.1])
  have htw : (∑ a, w a a).re = T / σ := by
    have : ∑ a, w a a = u / σ * tr W := by
      rw [← tr_smul, ← hwW]
      rfl
    rw [this, hT, show u / σ * tr W = (u * tr W) / σ by ring, Complex.div_ofReal_re]
  have hr' : (((1.0 / (∑ a, w a a).re : ℝ)) : ℂ) • w = (u / (T : ℂ)) • W := by
    have hTc : (T : ℂ) ≠ 0 := by exact_mod_cast hT0
    rw [htw]
    conv_lhs => rw [hwW]
    rw [smul_smul]
    congr 1
    push_cast
    field_simp
    norm_num
  rw [hr'] at rt
  refine ⟨t, (u / (T : ℂ)) • W, etp, rt, ?_, ?_⟩
  · rw [tr_smul, show u / (T : ℂ) * tr W = (u * tr W) / T by ring, Complex.div_ofReal_re, ← hT, div_self hT0]
  · have hTc : (T : ℂ) ≠ 0 := by exact_mod_cast hT0
    have hrc : (u.re : ℂ) ≠ 0 := by exact_mod_cast hre
    have e1 : (u / (T : ℂ)) • W - (u / (u.re : ℂ)) • r =
        (-(u / (T : ℂ))) • (r - W) + (u * ((u.re : ℂ) - T) / (T * u.re)) • r := by
      have e2 : u * ((u.re : ℂ) - T) / (T * u.re) = u / T - u / u.re := by field_simp
      rw [e2]
      ext x y
      show u / T * W x y - u / u.re * r x y = -(u / T) * (r x y - W x y) + (u / T - u / u.re) * r x y
      ring
    rw [e1]
    refine (fro_add_le _ _).trans ?_
    rw [← frob_fro, ← frob_fro, frob_smul, frob_smul, hε', norm_neg, norm_div, norm_div, norm_mul, norm_mul, hu1,
      Complex.norm_real, Complex.norm_real, one_mul, ← Complex.ofReal_sub, Complex.norm_real, Real.norm_eq_abs,
      Real.norm_eq_abs, Real.norm_eq_abs, abs_sub_comm]
    have hpos : 0 < |u.re| - η := by linarith
    have hTp : 0 < |T| := lt_of_lt_of_le hpos hTκ
    have hf := frob_nonneg r
    calc 1 / |T| * ε + |T - u.re| / (|T| * |u.re|) * frob r ≤
        1 / (|u.re| - η) * ε + η / ((|u.re| - η) * |u.re|) * frob r := by gcongr
      _ = (ε + η / |u.re| * frob r) / (|u.re| - η) := by field_simp

/-- C97: with an SVD routine that chooses real phases, every matrix of trace 1 and Frobenius norm at
most 1 (every density matrix) of at most 22 qubits is converted and contracted to a matrix within
`3 √N 2^N 1e-8` of it. -/
theorem C97_accuracy {svd : SVDOracle} (hv : ValidSVD svd)
    (hreal : ∀ (log : List (Tensor ℂ)) (A : Tensor ℂ) (m : ℕ), A.shape = [m, 1] → 0 < m →
      ((svd log A).V.get [0, 0]).im = 0)
    (hN : 0 < N) (hN' : N ≤ 22) (rho : Tensor ℂ) (r : QOp N) (h : Represents rho r) (ht : tr r = 1)
    (hr : frob r ≤ 1) (s : List (Tensor ℂ)) :
    ∃ (mps s' : List (Tensor ℂ)) (t : Tensor ℂ) (r' : QOp N), Rho2MPS svd rho N s = (.ok mps, s') ∧
      MPS2Rho mps = .ok t ∧ Represents t r' ∧ (tr r').re = 1 ∧
      frob (r' - r) ≤ 3 * (Real.sqrt N * 2 ^ N * 1e-8) := by
  obtain ⟨mps, As, e⟩ := C97_density hv (by omega) rho r h ht s
  obtain ⟨As', u, hs, hu, key⟩ := C97_round_trip hv hN rho r h ht s _ mps e
  obtain rfl : As' = As := (List.append_cancel_left hs).symm
  have hu1 := norm_colPhase hv hu
  have him : u.im = 0 := by
    obtain ⟨log, A, m, hA, hm, rfl⟩ := hu
    exact hreal log A m hA hm
  have huu : u = (u.re : ℂ) := Complex.ext rfl (by simpa using him)
  have hκ : |u.re| = 1 := by
    rw [huu, Complex.norm_real] at hu1
    simpa using hu1
  have hre : (u.re : ℂ) ≠ 0 := by
    have : u.re ≠ 0 := fun h0 => by rw [h0, abs_zero] at hκ; exact zero_ne_one hκ
    exact_mod_cast this
  have hdiv : u / (u.re : ℂ) = 1 := by
    conv_lhs => rw [huu]
    rw [Complex.ofReal_re, div_self hre]
  have hloss := C97_loss hv rho r h s As' mps e
  set ε := Real.sqrt (lossSq svd s As') with hε
  have hε0 : 0 ≤ ε := Real.sqrt_nonneg _
  have hs1 : (1 : ℝ) ≤ Real.sqrt (2 ^ N) := by
    rw [Real.one_le_sqrt]
    exact one_le_pow₀ (by norm_num)
  have hηle : Real.sqrt (2 ^ N) * ε ≤ Real.sqrt N * 2 ^ N * 1e-8 := by
    have h1 : ε ≤ Real.sqrt (N * (2 ^ N * 1e-16)) := Real.sqrt_le_sqrt hloss
    have h2 : Real.sqrt (N * (2 ^ N * 1e-16)) = Real.sqrt N * (Real.sqrt (2 ^ N) * 1e-8) := by
      rw [Real.sqrt_mul (by positivity), Real.sqrt_mul (by positivity), show (1e-16 : ℝ) = 1e-8 ^ 2 by norm_num,
        Real.sqrt_sq (by norm_num)]
    calc Real.sqrt (2 ^ N) * ε ≤ Real.sqrt (2 ^ N) * (Real.sqrt N * (Real.sqrt (2 ^ N) * 1e-8)) := by
          rw [← h2]; gcongr
      _ = Real.sqrt N * (Real.sqrt (2 ^ N) * Real.sqrt (2 ^ N)) * 1e-8 := by ring
      _ = _ := by rw [Real.mul_self_sqrt (by positivity)]
  set η := Real.sqrt (2 ^ N) * ε with hη
  have hη3 : η ≤ 1 / 3 := by
    refine hηle.trans ?_
    have h1 : (2 : ℝ) ^ N ≤ 2 ^ 22 := pow_le_pow_right₀ (by norm_num) hN'
    have h2 : Real.sqrt N ≤ 5 := by
      rw [Real.sqrt_le_iff]
      refine ⟨by norm_num, ?_⟩
      have : (N : ℝ) ≤ 22 := by exact_mod_cast hN'
      linarith
    calc Real.sqrt N * 2 ^ N * 1e-8 ≤ 5 * 2 ^ 22 * 1e-8 := by gcongr
      _ ≤ 1 / 3 := by norm_num
  have hεη : ε ≤ η := by
    calc ε = 1 * ε := (one_mul _).symm
      _ ≤ _ := by rw [hη]; gcongr
  obtain ⟨t, r', et, rt, htr, hb⟩ := key ε η rfl rfl (by rw [hκ]; linarith)
  refine ⟨mps, _, t, r', e, et, rt, htr, ?_⟩
  rw [hdiv, one_smul, hκ, div_one] at hb
  refine hb.trans ?_
  rw [div_le_iff₀ (by linarith)]
  have hη0 : 0 ≤ η := hε0.trans hεη
  have : η * frob r ≤ η := by nlinarith
  nlinarith

/-- An SVD routine with real phases and the Bell state. -/
example : ∃ (svd : SVDOracle) (rho : Tensor ℂ), ValidSVD svd ∧
    (∀ (log : List (Tensor ℂ)) (A : Tensor ℂ) (m : ℕ), A.shape = [m, 1] → 0 < m →
      ((svd log A).V.get [0, 0]).im = 0) ∧ Represents rho bellRho ∧ tr bellRho = 1 ∧ frob bellRho ≤ 1 := by
  obtain ⟨svd, hv⟩ := exists_validSVD
  obtain ⟨rho, h⟩ := exists_represents bellRho
  refine ⟨_, rho, rephase_valid hv (z := 1) (by simp), fun log A m hA hm => ?_, h, bellRho_tr, ?_⟩
  · rw [rephase_phase hv ⟨log, A, m, hA, hm, rfl⟩]
    simp
  · unfold frob
    rw [Real.sqrt_le_one]
    simp only [sum_bits_split (n := 1), sum_bits_split (n := 0), Fin.sum_univ_two]
    simp [bellRho]
    norm_num

end QTN.Props
