import Verif.Lemmas.Schmidt
import Verif.Props.Decomp
import Verif.Props.Mps
import Verif.Props.Bonds
import Verif.SpecAccuracy

/-! # Property C85: the conversion to a matrix product state is canonical and minimal -/

namespace QTN.Props

open QTN QTN.Spec Matrix

variable {N : ℕ}

/-- `mps` has the bond dimensions `D`, and every site but the last is an isometry from its right bond. -/
def LeftCanonical (N : ℕ) (mps : List (Tensor ℂ)) (D : ℕ → ℕ) : Prop :=
  mps.length = N ∧ D 0 = 1 ∧ D N = 1 ∧ (∀ i, 0 < D i) ∧
    (∀ (i : ℕ) (h : i < mps.length), mps[i].shape = [2, D i, D (i + 1)]) ∧
    ∀ (i : ℕ) (h : i < mps.length), i + 1 < N → LeftIsometry mps[i] (D i) (D (i + 1))

/-- C85: whatever is discarded, the result of the conversion is left-canonical, no bond exceeds the
Schmidt rank of the vector at this place, the squared distance of the result from the vector is exactly
the sum of the squares of the discarded singular values, and the squared norm shrinks by this sum. -/
theorem C85_canonical {svd : SVDOracle} (hv : ValidSVD svd) (hN : 0 < N) (psi : Tensor ℂ)
    (hs : psi.shape = [1, 2 ^ N]) (s s' mps : List (Tensor ℂ))
    (h : StateVec2MPS svd psi N s = (.ok mps, s')) :
    ∃ D As sv, LeftCanonical N mps D ∧ s' = s ++ As ∧ As.length = N - 1 ∧
      (∀ k, 0 < k → k < N → D k ≤ schmidtRank (fun a : Bits N => psi.get [0, enc a]) k) ∧
      MPS2StateVec mps = .ok sv ∧ sv.shape = [1, 2 ^ N] ∧
      dist2 (fun a : Bits N => psi.get [0, enc a]) (fun a => sv.get [0, enc a]) ^ 2 = lossSq svd s As ∧
      norm2 (fun a : Bits N => psi.get [0, enc a]) ^ 2 =
        norm2 (fun a : Bits N => sv.get [0, enc a]) ^ 2 + lossSq svd s As := by
  rw [sv2mps_unfold svd hs] at h
  obtain ⟨k, rfl⟩ : ∃ k, N = k + 1 := ⟨N - 1, by omega⟩
  obtain ⟨E, As, rfl, hAs, hl, hc, e0, e1, hp, hsh, hiso, hrk, hsq, hnm⟩ := loop_canon hv k 1 psi s mps s' (by omega) hs h
  have hm : IsMPS mps (fun a : Bits (k + 1) => amp mps (bl a) 0 0) := ⟨hl, hc, fun _ => rfl⟩
  obtain ⟨sv, esv, rsv⟩ := mps2sv_rep hm hN
  refine ⟨E, As, sv, ⟨hl, e0, e1, hp, hsh, fun i hi hik => ⟨hsh i hi, fun p q hp' hq' =>
    hiso i hi (by omega) p q hp' hq'⟩⟩, rfl, by omega, fun j hj hjk => (hrk j hj hjk).trans (cutC_rank j),
    esv, rsv.1, ?_, ?_⟩
  · rw [← hsq]
    unfold dist2 sqr
    rw [Real.sq_sqrt (Finset.sum_nonneg fun _ _ => by positivity), Finset.sum_range_one]
    refine Finset.sum_congr rfl fun a _ => ?_
    dsimp only
    rw [rsv.2]
  · unfold sqr at hnm
    rw [Finset.sum_range_one, Finset.sum_range_one] at hnm
    unfold norm2
    rw [Real.sq_sqrt (Finset.sum_nonneg fun _ _ => by positivity),
      Real.sq_sqrt (Finset.sum_nonneg fun _ _ => by positivity), hnm]
    congr 1
    refine Finset.sum_congr rfl fun a _ => ?_
    dsimp only
    rw [rsv.2]

/-- A conversion that returns and discards nothing. -/
example : ∃ svd mps s', ValidSVD svd ∧ (bellVec 1 Complex.I).shape = [1, 2 ^ 2] ∧
    StateVec2MPS svd (bellVec 1 Complex.I) 2 [] = (.ok mps, s') := by
  obtain ⟨svd, hv⟩ := exists_validSVD
  obtain ⟨mps, s', e, -⟩ := C16_round_trip hv (by omega) (bellVec 1 Complex.I) rfl ⟨0, by
    rw [show (bellVec 1 Complex.I).get [0, 0] = 1 from Tensor.get_ofFn rfl]; exact one_ne_zero⟩ []
    (bell_lossless hv (by norm_num) (by norm_num))
  exact ⟨svd, mps, s', hv, rfl, e⟩

/-- C85: the conversion never increases the norm. -/
theorem C85_norm_le {svd : SVDOracle} (hv : ValidSVD svd) (hN : 0 < N) (psi : Tensor ℂ)
    (hs : psi.shape = [1, 2 ^ N]) (s s' mps : List (Tensor ℂ))
    (h : StateVec2MPS svd psi N s = (.ok mps, s')) :
    ∃ sv, MPS2StateVec mps = .ok sv ∧
      norm2 (fun a : Bits N => sv.get [0, enc a]) ≤ norm2 (fun a : Bits N => psi.get [0, enc a]) := by
  obtain ⟨D, As, sv, -, -, -, -, esv, -, hd, hn⟩ := C85_canonical hv hN psi hs s s' mps h
  refine ⟨sv, esv, ?_⟩
  refine le_of_sq_le_sq ?_ (Real.sqrt_nonneg _)
  rw [hn, ← hd]
  exact le_add_of_nonneg_right (sq_nonneg _)

/-- C85: no matrix product state, however obtained, holds a state with a bond smaller than the
Schmidt rank of the state at this place. -/
theorem C85_lower_bound {mps : List (Tensor ℂ)} {v : QState N} (h : HoldsState mps v) {D : ℕ → ℕ}
    (hs : ∀ (i : ℕ) (h : i < mps.length), mps[i].shape = [2, D i, D (i + 1)]) {k : ℕ} (hk : k < N) :
    schmidtRank v k ≤ D k := schmidt_le (holds_iff.1 h) hs hk

/-- C85: if no non-zero singular value is discarded, every inner bond of the result is the Schmidt
rank of the vector at this place, and no matrix product state of the vector has a smaller bond
anywhere. -/
theorem C85_minimal {svd : SVDOracle} (hv : ValidSVD svd) (hN : 0 < N) (psi : Tensor ℂ)
    (hs : psi.shape = [1, 2 ^ N]) (h0 : ∃ x, psi.get [0, x] ≠ 0) (s : List (Tensor ℂ))
    (hl : ∀ A ∈ (StateVec2MPS svd psi N s).2, Lossless A) :
    ∃ mps s' D, StateVec2MPS svd psi N s = (.ok mps, s') ∧
      HoldsState mps (fun a : Bits N => psi.get [0, enc a]) ∧ LeftCanonical N mps D ∧
      (∀ k, 0 < k → k < N → D k = schmidtRank (fun a : Bits N => psi.get [0, enc a]) k) ∧
      ∀ (mps' : List (Tensor ℂ)) (D' : ℕ → ℕ), HoldsState mps' (fun a : Bits N => psi.get [0, enc a]) →
        (∀ (i : ℕ) (h : i < mps'.length), mps'[i].shape = [2, D' i, D' (i + 1)]) →
        ∀ k, 0 < k → k < N → D k ≤ D' k := by
  obtain ⟨mps, s', e, hm, -⟩ := C16_round_trip hv hN psi hs h0 s hl
  obtain ⟨D, As, sv, hc, -, -, hrk, -⟩ := C85_canonical hv hN psi hs s s' mps e
  refine ⟨mps, s', D, e, hm, hc, fun k h1 h2 => le_antisymm (hrk k h1 h2) ?_, fun mps' D' hm' hs' k h1 h2 =>
    (hrk k h1 h2).trans (C85_lower_bound hm' hs' h2)⟩
  exact C85_lower_bound hm hc.2.2.2.2.1 h2

/-- `|00⟩ + i|11⟩` meets the hypotheses. -/
example : ∃ svd, ValidSVD svd ∧ (bellVec 1 Complex.I).shape = [1, 2 ^ 2] ∧ (∃ x, (bellVec 1 Complex.I).get [0, x] ≠ 0) ∧
    ∀ A ∈ (StateVec2MPS svd (bellVec 1 Complex.I) 2 []).2, Lossless A := by
  obtain ⟨svd, hv⟩ := exists_validSVD
  refine ⟨svd, hv, rfl, ⟨0, ?_⟩, bell_lossless hv (by norm_num) (by norm_num)⟩
  rw [show (bellVec 1 Complex.I).get [0, 0] = 1 from Tensor.get_ofFn rfl]
  exact one_ne_zero

theorem schmidt_product (f : Fin N → Fin 2 → ℂ) (k : ℕ) :
    schmidtRank (fun a : Bits N => ∏ i, f i (a i)) k ≤ 1 := by
  have e : cutMat (fun a : Bits N => ∏ i, f i (a i)) k = Matrix.vecMulVec
      (fun a : Bits N => ∏ i : Fin N, if (i : ℕ) < k then f i (a i) else 1)
      (fun b : Bits N => ∏ i : Fin N, if (i : ℕ) < k then 1 else f i (b i)) := by
    ext a b
    rw [cutMat, Matrix.vecMulVec_apply, ← Finset.prod_mul_distrib]
    refine Finset.prod_congr rfl fun i _ => ?_
    unfold splice
    split <;> simp
  rw [schmidtRank, e]
  exact Matrix.rank_vecMulVec_le _ _

/-- C85: a product state is always converted to site tensors of shape `[2, 1, 1]`. -/
theorem C85_product {svd : SVDOracle} (hv : ValidSVD svd) (hN : 0 < N) (psi : Tensor ℂ)
    (hs : psi.shape = [1, 2 ^ N]) (f : Fin N → Fin 2 → ℂ)
    (hf : ∀ a : Bits N, psi.get [0, enc a] = ∏ i, f i (a i)) (s s' mps : List (Tensor ℂ))
    (h : StateVec2MPS svd psi N s = (.ok mps, s')) :
    mps.length = N ∧ ∀ t ∈ mps, t.shape = [2, 1, 1] := by
  obtain ⟨D, As, sv, hc, -, -, hrk, -⟩ := C85_canonical hv hN psi hs s s' mps h
  obtain ⟨hl, d0, dN, hp, hsh, -⟩ := hc
  have hD : ∀ k ≤ N, D k = 1 := by
    intro k hk
    rcases Nat.eq_zero_or_pos k with rfl | h1
    · exact d0
    · rcases hk.lt_or_eq with h2 | rfl
      · have := hrk k h1 h2
        rw [show (fun a : Bits N => psi.get [0, enc a]) = fun a => ∏ i, f i (a i) from funext hf] at this
        exact le_antisymm (this.trans (schmidt_product f k)) (hp k)
      · exact dN
  refine ⟨hl, fun t ht => ?_⟩
  obtain ⟨i, hi, rfl⟩ := List.mem_iff_getElem.1 ht
  rw [hsh i hi, hD i (by omega), hD (i + 1) (by omega)]

/-- The product state `(1, 2) ⊗ (1, 2) ⊗ (1, 2)` as a state vector. -/
example : ∃ psi : Tensor ℂ, psi.shape = [1, 2 ^ 3] ∧
    ∀ a : Bits 3, psi.get [0, enc a] = ∏ i, (fun (_ : Fin 3) (x : Fin 2) => (1 + (x : ℕ) : ℂ)) i (a i) := by
  choose d hd using fun y : Fin (2 ^ 3) => exists_enc (N := 3) y.isLt
  refine ⟨Tensor.ofFn [1, 2 ^ 3] (fun idx => if h : idx.getD 1 0 < 2 ^ 3 then
    ∏ i, (1 + ((d ⟨idx.getD 1 0, h⟩ i : Fin 2) : ℕ) : ℂ) else 0), rfl, fun a => ?_⟩
  have hlt := enc_lt a
  rw [Tensor.get_ofFn (by simpa using hlt)]
  simp only [List.getD_cons_succ, List.getD_cons_zero]
  rw [dif_pos hlt, show d ⟨enc a, hlt⟩ = a from enc_injective (hd ⟨enc a, hlt⟩).symm]

theorem schmidt_bell {p q : ℂ} (hp : p ≠ 0) (hq : q ≠ 0) :
    2 ≤ schmidtRank (fun a : Bits 2 => (bellVec p q).get [0, enc a]) 1 := by
  have e : Matrix.diagonal ![p, q] = (cutMat (fun a : Bits 2 => (bellVec p q).get [0, enc a]) 1).submatrix
      (fun x : Fin 2 => ![x, 0]) (fun y : Fin 2 => ![0, y]) := by
    ext x y
    fin_cases x <;> fin_cases y
    · exact (show (bellVec p q).get [0, 0] = p from Tensor.get_ofFn rfl).symm
    · exact (show (bellVec p q).get [0, 1] = 0 from Tensor.get_ofFn rfl).symm
    · exact (show (bellVec p q).get [0, 2] = 0 from Tensor.get_ofFn rfl).symm
    · exact (show (bellVec p q).get [0, 3] = q from Tensor.get_ofFn rfl).symm
  rw [schmidtRank]
  refine le_trans ?_ (Matrix.rank_submatrix_le _ (fun x : Fin 2 => ![x, 0]) (fun y : Fin 2 => ![0, y]))
  rw [← e, Matrix.rank_diagonal, Fintype.card_subtype, Finset.filter_true_of_mem]
  · simp
  · intro i _
    fin_cases i
    · exact hp
    · exact hq

/-- C85: the entangled state `p|00⟩ + q|11⟩` is converted to sites of shapes `[2, 1, 2]` and
`[2, 2, 1]`. -/
theorem C85_bell {svd : SVDOracle} (hv : ValidSVD svd) {p q : ℂ} (hp : 1e-8 < ‖p‖) (hq : 1e-8 < ‖q‖) :
    ∃ a b s', StateVec2MPS svd (bellVec p q) 2 [] = (.ok [a, b], s') ∧
      a.shape = [2, 1, 2] ∧ b.shape = [2, 2, 1] := by
  have hp0 : p ≠ 0 := fun h => by rw [h, norm_zero] at hp; norm_num at hp
  have hq0 : q ≠ 0 := fun h => by rw [h, norm_zero] at hq; norm_num at hq
  obtain ⟨mps, s', D, e, -, ⟨hl, d0, d2, -, hsh, -⟩, hD, -⟩ := C85_minimal hv (by omega) (bellVec p q) rfl ⟨0, by
    rw [show (bellVec p q).get [0, 0] = p from Tensor.get_ofFn rfl]; exact hp0⟩ [] (bell_lossless hv hp hq)
  obtain ⟨a, b, rfl⟩ := List.length_eq_two.1 hl
  have h1 := hD 1 (by omega) (by omega)
  have h2 := schmidt_bell hp0 hq0
  have hle : D 1 ≤ 2 := by
    rcases C56_from_vector hv (N := 2) (by omega) (bellVec p q) rfl [] with ⟨m, t, e', -, D', -, -, -, hb, hs'⟩ | ⟨t, e'⟩
    · rw [e] at e'
      obtain ⟨rfl, -⟩ : [a, b] = m ∧ s' = t := by simpa using e'
      have e1 := hsh 1 (by simp)
      have e2 := hs' 1 (by simp)
      rw [e1] at e2
      have := hb 1 (by omega)
      simp at e2 this
      omega
    · rw [e] at e'; simp at e'
  have hD1 : D 1 = 2 := by omega
  refine ⟨a, b, s', e, ?_, ?_⟩
  · have := hsh 0 (by simp)
    rw [d0, hD1] at this
    exact this
  · have := hsh 1 (by simp)
    rw [d2, hD1] at this
    exact this

example : (1e-8 : ℝ) < ‖(1 : ℂ)‖ ∧ (1e-8 : ℝ) < ‖Complex.I‖ := by norm_num

end QTN.Props
