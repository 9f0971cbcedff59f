import Verif.SpecTN
import Verif.Lemmas.Bits
import Mathlib.Analysis.Matrix.Spectrum

/-! # Every complex matrix has a singular value decomposition

So the hypothesis `ValidSVD svd` of the tensor-network theorems is met by some oracle. -/

namespace QTN

open Finset Spec Matrix

/-- The thin decomposition of a tall matrix. -/
theorem exists_svd_tall {m n : ℕ} (h : n ≤ m) (A : Matrix (Fin m) (Fin n) ℂ) :
    ∃ (U : Matrix (Fin m) (Fin n) ℂ) (V : Matrix (Fin n) (Fin n) ℂ) (S : Fin n → ℝ),
      Uᴴ * U = 1 ∧ Vᴴ * V = 1 ∧ (∀ i, 0 ≤ S i) ∧ Antitone S ∧
      A = U * diagonal (fun i => (S i : ℂ)) * Vᴴ := by
  have hH : (Aᴴ * A).IsHermitian := by
    rw [Matrix.IsHermitian, Matrix.conjTranspose_mul, Matrix.conjTranspose_conjTranspose]
  -- sorted eigenvalues
  let q : Fin n ≃ Fin n := (finCongr (Fintype.card_fin n).symm).trans
    (Fintype.equivOfCardEq (Fintype.card_fin (Fintype.card (Fin n))))
  let lam : Fin n → ℝ := fun i => hH.eigenvalues (q i)
  have hlam : Antitone lam := by
    intro i j hij
    show hH.eigenvalues₀ ((Fintype.equivOfCardEq _).symm (q j)) ≤
      hH.eigenvalues₀ ((Fintype.equivOfCardEq _).symm (q i))
    apply hH.eigenvalues₀_antitone
    simp only [q, Equiv.trans_apply, Equiv.symm_apply_apply]
    exact hij
  let w : Fin n → EuclideanSpace ℂ (Fin n) := fun i => hH.eigenvectorBasis (q i)
  have hw : Orthonormal ℂ w := hH.eigenvectorBasis.orthonormal.comp q q.injective
  let V : Matrix (Fin n) (Fin n) ℂ := fun k i => w i k
  have inner_eq : ∀ {d : ℕ} (x y : EuclideanSpace ℂ (Fin d)), inner ℂ x y = ∑ k, star (x k) * y k := by
    intro d x y
    rw [PiLp.inner_apply]
    apply Finset.sum_congr rfl
    intro k _
    simp [mul_comm]
  have hV : Vᴴ * V = 1 := by
    ext i j
    rw [Matrix.mul_apply, Matrix.one_apply]
    show ∑ k, star (w i k) * w j k = _
    rw [← inner_eq]
    exact orthonormal_iff_ite.1 hw i j
  have hVV : V * Vᴴ = 1 := mul_eq_one_comm.1 hV
  have heig : (Aᴴ * A) * V = V * diagonal (fun i => (lam i : ℂ)) := by
    ext k i
    rw [Matrix.mul_diagonal]
    have := congrFun (hH.mulVec_eigenvectorBasis (q i)) k
    simp only [Pi.smul_apply, Complex.real_smul] at this
    rw [mul_comm]
    exact this
  -- the images
  let Y : Matrix (Fin m) (Fin n) ℂ := A * V
  have hY : Yᴴ * Y = diagonal (fun i => (lam i : ℂ)) := by
    simp only [Y, Matrix.conjTranspose_mul]
    rw [Matrix.mul_assoc, ← Matrix.mul_assoc Aᴴ A V, heig, ← Matrix.mul_assoc, hV, Matrix.one_mul]
  have hYe : ∀ i j, ∑ k, star (Y k i) * Y k j = if i = j then (lam i : ℂ) else 0 := by
    intro i j
    have := congrFun (congrFun hY i) j
    rw [Matrix.mul_apply, Matrix.diagonal_apply] at this
    simpa only [Matrix.conjTranspose_apply] using this
  have hnorm : ∀ i, lam i = ∑ k, ‖Y k i‖ ^ 2 := by
    intro i
    have := hYe i i
    rw [if_pos rfl] at this
    have e : (∑ k, star (Y k i) * Y k i) = ((∑ k, ‖Y k i‖ ^ 2 : ℝ) : ℂ) := by
      push_cast
      apply Finset.sum_congr rfl
      intro k _
      rw [Complex.star_def, Complex.conj_mul']
    rw [e] at this
    exact_mod_cast this.symm
  have hpos : ∀ i, 0 ≤ lam i := fun i => by rw [hnorm]; positivity
  let S : Fin n → ℝ := fun i => Real.sqrt (lam i)
  have hS2 : ∀ i, ((S i : ℝ) : ℂ) * (S i : ℂ) = (lam i : ℂ) := by
    intro i
    rw [← Complex.ofReal_mul, Real.mul_self_sqrt (hpos i)]
  let y : Fin m → EuclideanSpace ℂ (Fin m) := fun i =>
    if hi : (i : ℕ) < n then WithLp.toLp 2 (fun k => (S ⟨i, hi⟩ : ℂ)⁻¹ * Y k ⟨i, hi⟩) else 0
  let s : Set (Fin m) := {i | ∃ hi : (i : ℕ) < n, S ⟨i, hi⟩ ≠ 0}
  have hys : Orthonormal ℂ (s.domRestrict y) := by
    rw [orthonormal_iff_ite]
    rintro ⟨i, hi, hSi⟩ ⟨j, hj, hSj⟩
    simp only [Set.domRestrict_apply, y, dif_pos hi, dif_pos hj]
    rw [inner_eq]
    have e : ∀ k, star ((S ⟨i, hi⟩ : ℂ)⁻¹ * Y k ⟨i, hi⟩) * ((S ⟨j, hj⟩ : ℂ)⁻¹ * Y k ⟨j, hj⟩) =
        ((S ⟨i, hi⟩ : ℂ)⁻¹ * (S ⟨j, hj⟩ : ℂ)⁻¹) * (star (Y k ⟨i, hi⟩) * Y k ⟨j, hj⟩) := by
      intro k
      simp only [star_mul', Complex.star_def, map_inv₀, Complex.conj_ofReal]
      ring
    simp only [e]
    rw [← Finset.mul_sum, hYe]
    by_cases hij : i = j
    · subst hij
      rw [if_pos rfl, if_pos rfl, ← hS2]
      have : (S ⟨i, hi⟩ : ℂ) ≠ 0 := by exact_mod_cast hSi
      field_simp
    · rw [if_neg (by simpa [Fin.ext_iff] using hij), if_neg (by simpa using hij), mul_zero]
  obtain ⟨b, hb⟩ := hys.exists_orthonormalBasis_extension_of_card_eq (by simp)
  let U : Matrix (Fin m) (Fin n) ℂ := fun k i => b (Fin.castLE h i) k
  have hU : Uᴴ * U = 1 := by
    ext i j
    rw [Matrix.mul_apply, Matrix.one_apply]
    show ∑ k, star (b (Fin.castLE h i) k) * b (Fin.castLE h j) k = _
    rw [← inner_eq, orthonormal_iff_ite.1 b.orthonormal]
    simp [Fin.castLE_inj]
  have hAV : Y = U * diagonal (fun i => (S i : ℂ)) := by
    ext k i
    rw [Matrix.mul_diagonal]
    by_cases hS0 : S i = 0
    · have h0 : lam i = 0 := by
        have := hS2 i
        rw [hS0] at this
        simpa using this.symm
      rw [hnorm] at h0
      have := (Finset.sum_eq_zero_iff_of_nonneg (fun k _ => by positivity)).1 h0 k (by simp)
      rw [hS0]
      simpa using this
    · have hmem : Fin.castLE h i ∈ s := ⟨i.isLt, hS0⟩
      show Y k i = b (Fin.castLE h i) k * _
      rw [hb _ hmem]
      simp only [y]
      rw [dif_pos (show ((Fin.castLE h i : Fin m) : ℕ) < n from i.isLt)]
      have : (S i : ℂ) ≠ 0 := by exact_mod_cast hS0
      show Y k i = (S i : ℂ)⁻¹ * Y k i * S i
      field_simp
  refine ⟨U, V, S, hU, hV, fun i => Real.sqrt_nonneg _, fun i j hij => Real.sqrt_le_sqrt (hlam hij), ?_⟩
  rw [← hAV, Matrix.mul_assoc, hVV, Matrix.mul_one]

theorem exists_svd_matrix {m n k : ℕ} (hk : k = min m n) (A : Matrix (Fin m) (Fin n) ℂ) :
    ∃ (U : Matrix (Fin m) (Fin k) ℂ) (V : Matrix (Fin n) (Fin k) ℂ) (S : Fin k → ℝ),
      Uᴴ * U = 1 ∧ Vᴴ * V = 1 ∧ (∀ i, 0 ≤ S i) ∧ Antitone S ∧
      A = U * diagonal (fun i => (S i : ℂ)) * Vᴴ := by
  rcases le_total n m with h | h
  · obtain rfl : k = n := by omega
    exact exists_svd_tall h A
  · obtain rfl : k = m := by omega
    obtain ⟨U, V, S, hU, hV, h0, ha, hf⟩ := exists_svd_tall h Aᴴ
    refine ⟨V, U, S, hV, hU, h0, ha, ?_⟩
    have := congrArg Matrix.conjTranspose hf
    rw [Matrix.conjTranspose_conjTranspose, Matrix.conjTranspose_mul, Matrix.conjTranspose_mul,
      Matrix.conjTranspose_conjTranspose, Matrix.diagonal_conjTranspose] at this
    rw [this, Matrix.mul_assoc]
    congr 3
    funext i
    simp

/-- Some SVD routine keeps its promise. -/
theorem exists_validSVD : ∃ svd : SVDOracle, ValidSVD svd := by
  have key : ∀ A : Tensor ℂ, ∃ o : SVDOut, ∀ m n, A.shape = [m, n] → IsSVD A m n o := by
    intro A
    by_cases hA : ∃ m n, A.shape = [m, n]
    · obtain ⟨m, n, hA⟩ := hA
      obtain ⟨U, V, S, hU, hV, h0, ha, hf⟩ := exists_svd_matrix (rfl : min m n = min m n) (toMat A m n)
      let tU : Tensor ℂ := Tensor.ofFn [m, min m n] (fun idx =>
        if h : idx.getD 0 0 < m ∧ idx.getD 1 0 < min m n then U ⟨_, h.1⟩ ⟨_, h.2⟩ else 0)
      let tV : Tensor ℂ := Tensor.ofFn [n, min m n] (fun idx =>
        if h : idx.getD 0 0 < n ∧ idx.getD 1 0 < min m n then V ⟨_, h.1⟩ ⟨_, h.2⟩ else 0)
      have eU : toMat tU m (min m n) = U := by
        ext i j
        simp only [toMat, tU]
        rw [Tensor.get_ofFn (by have := j.isLt; simp; omega)]
        rw [dif_pos ⟨by simp, by simpa using j.isLt⟩]
        rfl
      have eV : toMat tV n (min m n) = V := by
        ext i j
        simp only [toMat, tV]
        rw [Tensor.get_ofFn (by have := j.isLt; simp; omega)]
        rw [dif_pos ⟨by simp, by simpa using j.isLt⟩]
        rfl
      refine ⟨⟨tU, List.ofFn S, tV⟩, fun m' n' h' => ?_⟩
      rw [hA] at h'
      obtain ⟨rfl, rfl⟩ : m = m' ∧ n = n' := by simpa using h'
      refine ⟨rfl, rfl, by simp, by rw [eU]; exact hU, by rw [eV]; exact hV, ?_, ?_, ?_⟩
      · intro s hs
        obtain ⟨i, rfl⟩ := (List.mem_ofFn' S s).1 hs
        exact h0 i
      · exact ha.sortedGE_ofFn.pairwise
      · rw [eU, eV, hf]
        congr 3
        funext r
        have := r.isLt
        simp [show (r : ℕ) < m ∧ (r : ℕ) < n by omega]
    · refine ⟨⟨Tensor.ofFn [] (fun _ => 0), [], Tensor.ofFn [] (fun _ => 0)⟩, fun m n h => ?_⟩
      exact absurd ⟨m, n, h⟩ hA
  choose f hf using key
  exact ⟨fun _ A => f A, fun _ A m n h => hf A m n h⟩

end QTN
