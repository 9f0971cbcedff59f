import Verif.Lemmas.RhoMps
import Verif.Lemmas.LosslessEx
import Verif.Lemmas.SvdExists
import Verif.SpecTrace

/-! # Property C32: density matrices as matrix product operators -/

namespace QTN.Props

open QTN QTN.Spec Matrix

variable {N : ℕ}

theorem rho_view {rho : Tensor ℂ} {r : QOp N} (h : Represents rho r) :
    ∃ t, rho.view [1, -1] = .ok t ∧ t.shape = [1, 2 ^ N * 2 ^ N] ∧
      ∀ x y : Bits N, t.get [0, enc x * 2 ^ N + enc y] = r x y := by
  refine ⟨_, Tensor.view_neg_last rho 1 (2 ^ N * 2 ^ N) (by simp [Tensor.numel, h.1]) (by omega), rfl,
    fun x y => ?_⟩
  have hx := enc_lt x
  have hy := enc_lt y
  have hb : enc x * 2 ^ N + enc y < 2 ^ N * 2 ^ N := by
    calc enc x * 2 ^ N + enc y < enc x * 2 ^ N + 2 ^ N := by omega
      _ = (enc x + 1) * 2 ^ N := by ring
      _ ≤ 2 ^ N * 2 ^ N := Nat.mul_le_mul_right _ (by omega)
  rw [← h.2 x y]
  apply Tensor.reshapeN_get_eq
  · simp [inB, hb]
  · rw [h.1]; simp [inB, hx, hy]
  · rw [h.1]; simp [ravel]

theorem rho_unfold (svd : SVDOracle) {rho t : Tensor ℂ} {r : QOp N} (h : Represents rho r)
    (ht : rho.view [1, -1] = .ok t) : Rho2MPS svd rho N = Rho2MPS_loop svd N t := by
  funext s
  unfold Rho2MPS
  rw [raiseIf_false (by simp [Tensor.rank, h.1]), TNM.lift_ok_bind, raiseIf_false (by simp [h.1]),
    TNM.lift_ok_bind, ht, TNM.lift_ok_bind]

/-- The single entry of `V` in a decomposition of a one-column matrix. -/
def ColumnPhase (svd : SVDOracle) (u : ℂ) : Prop :=
  ∃ (log : List (Tensor ℂ)) (A : Tensor ℂ) (m : ℕ), A.shape = [m, 1] ∧ 0 < m ∧ u = (svd log A).V.get [0, 0]

theorem ColumnPhase.norm {svd : SVDOracle} (hv : ValidSVD svd) {u : ℂ} (h : ColumnPhase svd u) : star u * u = 1 := by
  obtain ⟨log, A, m, hA, hm, rfl⟩ := h
  have h1 : min m 1 = 1 := by omega
  have := (hv log A m 1 hA).orthV
  rw [h1] at this
  have := congrFun (congrFun this 0) 0
  simpa [Matrix.mul_apply, toMat] using this

/-- C32: what the round trip computes. For every density matrix (any matrix of trace 1) the
conversion to sites returns `N` sites; if no decomposition loses anything, contracting them gives the
matrix multiplied by `u / Re u`, where the number `u` of modulus 1 is the phase the SVD routine chose for `V` in
the last decomposition, a matrix with one column. -/
theorem C32_round_trip_value {svd : SVDOracle} (hv : ValidSVD svd) (hN : 0 < N) (rho : Tensor ℂ) (r : QOp N)
    (h : Represents rho r) (ht : tr r = 1) (s : List (Tensor ℂ))
    (hl : ∀ A ∈ (Rho2MPS svd rho N s).2, Lossless A) :
    ∃ mps s' u, Rho2MPS svd rho N s = (.ok mps, s') ∧ mps.length = N ∧ ColumnPhase svd u ∧ star u * u = 1 ∧
      (u.re ≠ 0 → ∃ t, MPS2Rho mps = .ok t ∧ Represents t ((u / (u.re : ℂ)) • r)) := by
  obtain ⟨t, et, st, gt⟩ := rho_view h
  rw [rho_unfold svd h et] at hl ⊢
  have hne : ∃ x y, r x y ≠ 0 := by
    by_contra hno
    push Not at hno
    have : tr r = 0 := Finset.sum_eq_zero fun a _ => hno a a
    rw [this] at ht
    exact zero_ne_one ht
  obtain ⟨x0, y0, h0⟩ := hne
  obtain ⟨ts, s', D', c, e, hlen, hch, hamp, hlast⟩ := rho_loop hv N 1 t s st (by omega)
    ⟨0, x0, y0, by omega, by rw [gt]; exact h0⟩ hl
  obtain ⟨rfl, log, A, m, σ, hA, hm, hσ, hc⟩ := hlast hN
  have hu : ColumnPhase svd ((svd log A).V.get [0, 0]) := ⟨log, A, m, hA, hm, rfl⟩
  set u := (svd log A).V.get [0, 0] with hud
  have hu1 := hu.norm hv
  refine ⟨ts, s', u, e, hlen, hu, hu1, fun hre => ?_⟩
  have hσ' : (σ : ℂ) ≠ 0 := by exact_mod_cast hσ.ne'
  have hM : ∀ x y, (u / σ) • r x y = amp4 ts (bl x) (bl y) 0 0 := by
    intro x y
    rw [← gt, hamp 0 x y (by omega), Finset.sum_range_one, hc, smul_eq_mul]
    calc u / σ * (amp4 ts (bl x) (bl y) 0 0 * (σ * star u)) =
        amp4 ts (bl x) (bl y) 0 0 * (star u * u) * (σ / σ) := by ring
      _ = _ := by rw [hu1, div_self hσ', mul_one, mul_one]
  obtain ⟨w, ew, rw'⟩ := mps2rho_rep hN hlen hch ((u / σ) • r) (fun x y => hM x y)
  refine ⟨w, ew, ?_⟩
  have htr : ∑ a, ((u / (σ : ℂ)) • r) a a = u / σ := by
    have : ∑ a, ((u / (σ : ℂ)) • r) a a = u / σ * tr r := by
      unfold tr
      rw [Finset.mul_sum]
      rfl
    rw [this, ht, mul_one]
  have hr2 : (u / (σ : ℂ)).re = u.re / σ := by
    rw [Complex.div_ofReal_re]
  rw [htr, hr2, smul_smul] at rw'
  have hre' : (u.re : ℂ) ≠ 0 := by exact_mod_cast hre
  have ek : (((1.0 / (u.re / σ) : ℝ)) : ℂ) * (u / σ) = u / u.re := by
    push_cast
    field_simp
    norm_num
  rwa [ek] at rw'

/-- C32 (partial: the SVD routine chooses a real entry of `V` for matrices with one column): converting
a density matrix to a matrix product operator and back returns exactly the given tensor.
Missing for the full statement: other choices of the phases, which the contract of `torch.svd` allows and
for which it is false (`C32_phase_lost`). -/
theorem C32_round_trip_partial {svd : SVDOracle} (hv : ValidSVD svd)
    (hreal : ∀ (log : List (Tensor ℂ)) (A : Tensor ℂ) (m : ℕ), A.shape = [m, 1] → 0 < m →
      ((svd log A).V.get [0, 0]).im = 0)
    (hN : 0 < N) (rho : Tensor ℂ) (r : QOp N) (h : Represents rho r) (ht : tr r = 1) (s : List (Tensor ℂ))
    (hl : ∀ A ∈ (Rho2MPS svd rho N s).2, Lossless A) :
    ∃ mps s', Rho2MPS svd rho N s = (.ok mps, s') ∧ mps.length = N ∧ MPS2Rho mps = .ok rho := by
  obtain ⟨mps, s', u, e, hlen, ⟨log, A, m, hA, hm, hu⟩, hu1, hk⟩ := C32_round_trip_value hv hN rho r h ht s hl
  have him : u.im = 0 := by rw [hu]; exact hreal log A m hA hm
  have hre : u.re ≠ 0 := by
    intro hre
    have : u = 0 := Complex.ext hre him
    simp [this] at hu1
  obtain ⟨t, et, rt⟩ := hk hre
  have huu : u = (u.re : ℂ) := Complex.ext rfl (by simpa using him)
  have : u / (u.re : ℂ) = 1 := by
    rw [← huu]
    exact div_self (by rw [huu]; exact_mod_cast hre)
  rw [this, one_smul] at rt
  exact ⟨mps, s', e, hlen, by rw [et, rt.ext h]⟩

/-! ## A routine that chooses another phase -/

/-- Multiply `U` and `V` by `c` in decompositions of one-column matrices. -/
noncomputable def rephase (svd : SVDOracle) (z : ℂ) : SVDOracle := fun log A =>
  if A.shape.getD 1 0 = 1 ∧ A.shape.getD 0 0 ≠ 0 then
    let o := svd log A
    let c := z * star (o.V.get [0, 0])
    { o with U := o.U.smul c, V := o.V.smul c }
  else svd log A

theorem toMat_smul {t : Tensor ℂ} {m n : ℕ} (h : t.shape = [m, n]) (c : ℂ) :
    toMat (t.smul c) m n = c • toMat t m n := by
  ext i j
  have := i.isLt
  have := j.isLt
  unfold toMat Tensor.smul
  rw [Tensor.get_ofFn (by rw [h]; inb)]
  rfl

theorem conj_smul_mul {m n : ℕ} {c : ℂ} (hc : star c * c = 1) (X : Matrix (Fin m) (Fin n) ℂ) :
    (c • X)ᴴ * (c • X) = Xᴴ * X := by
  rw [conjTranspose_smul, Matrix.smul_mul, Matrix.mul_smul, smul_smul, hc, one_smul]

theorem smul_mul_conj {m n k l : ℕ} {c : ℂ} (hc : star c * c = 1) (X : Matrix (Fin m) (Fin n) ℂ)
    (D : Matrix (Fin n) (Fin k) ℂ) (Y : Matrix (Fin l) (Fin k) ℂ) :
    (c • X) * D * (c • Y)ᴴ = X * D * Yᴴ := by
  rw [conjTranspose_smul, Matrix.smul_mul, Matrix.smul_mul, Matrix.mul_smul, smul_smul, mul_comm, hc, one_smul]

theorem rephase_valid {svd : SVDOracle} (hv : ValidSVD svd) {z : ℂ} (hz : star z * z = 1) :
    ValidSVD (rephase svd z) := by
  intro log A m n hA
  have o := hv log A m n hA
  unfold rephase
  by_cases hc : A.shape.getD 1 0 = 1 ∧ A.shape.getD 0 0 ≠ 0
  · rw [if_pos hc]
    have h1 : n = 1 := by simpa [hA] using hc.1
    have h2 : m ≠ 0 := by simpa [hA] using hc.2
    subst h1
    have hu := ColumnPhase.norm hv ⟨log, A, m, hA, by omega, rfl⟩
    set u := (svd log A).V.get [0, 0]
    have hcc : star (z * star u) * (z * star u) = 1 := by
      calc star (z * star u) * (z * star u) = (star z * z) * (star u * u) := by
            rw [star_mul', star_star]; ring
        _ = 1 := by rw [hz, hu, one_mul]
    refine ⟨o.shapeU, o.shapeV, o.lenS, ?_, ?_, o.nonneg, o.desc, ?_⟩
    · rw [toMat_smul o.shapeU, conj_smul_mul hcc, o.orthU]
    · rw [toMat_smul o.shapeV, conj_smul_mul hcc, o.orthV]
    · rw [toMat_smul o.shapeV, toMat_smul o.shapeU, smul_mul_conj hcc]
      exact o.factor
  · rw [if_neg hc]
    exact o

theorem rephase_phase {svd : SVDOracle} (hv : ValidSVD svd) {z u : ℂ} (h : ColumnPhase (rephase svd z) u) : u = z := by
  obtain ⟨log, A, m, hA, hm, rfl⟩ := h
  have hu := ColumnPhase.norm hv ⟨log, A, m, hA, hm, rfl⟩
  have hs := (hv log A m 1 hA).shapeV
  unfold rephase
  rw [if_pos (by rw [hA]; exact ⟨rfl, by simpa using hm.ne'⟩)]
  show (Tensor.smul _ _).get [0, 0] = z
  unfold Tensor.smul
  rw [Tensor.get_ofFn (by rw [hs]; have : min m 1 = 1 := by omega
                          simp [inB, this]), mul_assoc, hu, mul_one]

/-- The matrix decomposed for a one-qubit density matrix. -/
theorem rho_one_log {svd : SVDOracle} (hv : ValidSVD svd) {rho : Tensor ℂ} {r : QOp 1} (h : Represents rho r)
    (s : List (Tensor ℂ)) : ∃ A, (Rho2MPS svd rho 1 s).2 = s ++ [A] ∧ A.shape = [4, 1] ∧
      ∀ x y : Fin 2, A.get [x * 2 + y, 0] = r ![x] ![y] := by
  obtain ⟨t, et, st, gt⟩ := rho_view h
  rw [rho_unfold svd h et]
  obtain ⟨A, eA, sA, gA⟩ := rhoRegroup_ok (r := t) (D := 1) (h := 1) (w := 1) (by omega) (by omega) (by rw [st]; rfl)
  refine ⟨A, ?_, sA, fun x y => ?_⟩
  · have hlog := svdTrunc_log hv sA (by omega) (by omega) s
    unfold Rho2MPS_loop
    have e2 : rhoRegroup t (2 ^ (0 + 1)) = .ok A := eA
    rw [e2, TNM.lift_ok_bind]
    cases hsv : svdTrunc svd A s with
    | mk res s' =>
      rw [hsv] at hlog
      subst hlog
      cases res with
      | error e => rw [TNM.bind_error hsv]
      | ok p =>
        rw [TNM.bind_ok hsv]
        obtain ⟨U, c⟩ := p
        show (((liftM (U.view [2, 2, -1, (U.shape.getD 1 0 : ℤ)]) : TNM _) >>= _) _).2 = _
        cases hview : U.view [2, 2, -1, (U.shape.getD 1 0 : ℤ)] with
        | error e => rfl
        | ok w => rfl
  · have := gA x y 0 0 0 x.isLt y.isLt (by omega) (by omega) (by omega)
    rw [show (x : ℕ) * 2 + y = x * (2 * 1) + (y * 1 + 0) by omega, this, ← gt, enc_one, enc_one]
    simp

theorem rho_one_lossless {svd : SVDOracle} (hv : ValidSVD svd) {rho : Tensor ℂ} {r : QOp 1} (h : Represents rho r)
    (hb : ∑ x : Fin 2, ∑ y : Fin 2, ‖r ![x] ![y]‖ ^ 2 > 1e-16) :
    ∀ A ∈ (Rho2MPS svd rho 1 []).2, Lossless A := by
  obtain ⟨A, e, sA, gA⟩ := rho_one_log hv h []
  rw [e]
  intro B hB
  obtain rfl : B = A := by simpa using hB
  refine lossless_of_gram sA (fun _ => ∑ x : Fin 2, ∑ y : Fin 2, ‖r ![x] ![y]‖ ^ 2) ?_ (fun _ => .inr hb)
  ext i j
  fin_cases i; fin_cases j
  simp only [Fin.sum_univ_two, ← gA]
  simp [Matrix.mul_apply, toMat, Fin.sum_univ_four, Complex.conj_mul']
  ring

/-- `|0⟩⟨0|`. -/
noncomputable def zeroRho : QOp 1 := fun x y => if x = 0 ∧ y = 0 then 1 else 0

theorem zeroRho_tr : tr zeroRho = 1 := by
  unfold tr zeroRho
  simp

theorem zeroRho_lossless {svd : SVDOracle} (hv : ValidSVD svd) {rho : Tensor ℂ} (h : Represents rho zeroRho) :
    ∀ A ∈ (Rho2MPS svd rho 1 []).2, Lossless A := by
  refine rho_one_lossless hv h ?_
  simp [zeroRho, Fin.sum_univ_two]
  norm_num

/-- C32 is false in general: there is an SVD routine satisfying its contract for which the round trip of
`|0⟩⟨0|`, without any loss in the decompositions, returns `(1 + 4i/3)|0⟩⟨0|`. -/
theorem C32_phase_lost : ∃ (svd : SVDOracle) (rho t : Tensor ℂ) (mps s' : List (Tensor ℂ)), ValidSVD svd ∧
    Represents rho zeroRho ∧ (∀ A ∈ (Rho2MPS svd rho 1 []).2, Lossless A) ∧
    Rho2MPS svd rho 1 [] = (.ok mps, s') ∧ MPS2Rho mps = .ok t ∧ t.get [0, 0] = 1 + 4 / 3 * Complex.I ∧ t ≠ rho := by
  obtain ⟨svd, hv⟩ := exists_validSVD
  have hz : star (3 / 5 + 4 / 5 * Complex.I) * (3 / 5 + 4 / 5 * Complex.I) = 1 := by
    apply Complex.ext <;> simp <;> norm_num
  have hv' := rephase_valid hv hz
  have hrho : Represents (Tensor.ofFn [2, 2] (fun i => if i = [0, 0] then (1 : ℂ) else 0)) zeroRho := by
    refine ⟨rfl, fun a b => ?_⟩
    rw [Tensor.get_ofFn (by have := enc_lt a; have := enc_lt b; inb), enc_one, enc_one]
    unfold zeroRho
    refine if_congr ?_ rfl rfl
    revert a b
    decide
  obtain ⟨mps, s', u, e, -, hph, -, hk⟩ := C32_round_trip_value hv' (by omega) _ _ hrho zeroRho_tr []
    (zeroRho_lossless hv' hrho)
  obtain rfl := rephase_phase hv hph
  have hre : (3 / 5 + 4 / 5 * Complex.I).re = 3 / 5 := by simp
  obtain ⟨t, et, rt⟩ := hk (by rw [hre]; norm_num)
  have hval : t.get [0, 0] = 1 + 4 / 3 * Complex.I := by
    have := rt.2 0 0
    have e0 : enc (0 : Bits 1) = 0 := by decide
    rw [e0, hre] at this
    rw [this]
    have e1 : (3 / 5 + 4 / 5 * Complex.I) / ((3 / 5 : ℝ) : ℂ) = 1 + 4 / 3 * Complex.I := by
      push_cast
      ring
    rw [e1]
    simp [zeroRho]
  refine ⟨_, _, t, mps, s', hv', hrho, zeroRho_lossless hv' hrho, e, et, hval, fun hc => ?_⟩
  rw [hc, Tensor.get_ofFn rfl] at hval
  have := congrArg Complex.im hval
  norm_num at this

/-- The hypotheses of `C32_round_trip_partial` can be met: there is an SVD routine satisfying its contract
with real entries for one-column matrices, and `|0⟩⟨0|` loses nothing. -/
example : ∃ (svd : SVDOracle) (rho : Tensor ℂ), ValidSVD svd ∧
    (∀ (log : List (Tensor ℂ)) (A : Tensor ℂ) (m : ℕ), A.shape = [m, 1] → 0 < m →
      ((svd log A).V.get [0, 0]).im = 0) ∧ Represents rho zeroRho ∧ tr zeroRho = 1 ∧
    ∀ A ∈ (Rho2MPS svd rho 1 []).2, Lossless A := by
  obtain ⟨svd, hv⟩ := exists_validSVD
  have hv' := rephase_valid hv (z := 1) (by simp)
  have hrho : Represents (Tensor.ofFn [2, 2] (fun i => if i = [0, 0] then (1 : ℂ) else 0)) zeroRho := by
    refine ⟨rfl, fun a b => ?_⟩
    rw [Tensor.get_ofFn (by have := enc_lt a; have := enc_lt b; inb), enc_one, enc_one]
    unfold zeroRho
    refine if_congr ?_ rfl rfl
    revert a b
    decide
  refine ⟨_, _, hv', fun log A m hA hm => ?_, hrho, zeroRho_tr, zeroRho_lossless hv' hrho⟩
  rw [rephase_phase hv ⟨log, A, m, hA, hm, rfl⟩]
  simp

end QTN.Props
