import Verif.Lemmas.MpsCircuit
import Verif.Lemmas.DecompRun

/-! # Runs in which no decomposition loses anything

Used to show that the hypotheses of the exactness theorems can be met. -/

namespace QTN

open Finset Spec Matrix

/-- Matrices whose columns are orthogonal, with norms zero or above the cut-off. -/
theorem lossless_of_gram {A : Tensor ℂ} {m n : ℕ} (hA : A.shape = [m, n]) (d : Fin n → ℝ)
    (h : (toMat A m n)ᴴ * toMat A m n = diagonal (fun j => (d j : ℂ)))
    (hd : ∀ j, d j = 0 ∨ d j > 1e-16) : Lossless A := by
  rintro σ ⟨h0, m', n', hs, x, hx, e⟩
  rw [hA] at hs
  obtain ⟨rfl, rfl⟩ : m = m' ∧ n = n' := by simpa using hs
  rw [h] at e
  obtain ⟨j, hj⟩ : ∃ j, x j ≠ 0 := by
    by_contra hno
    push Not at hno
    exact hx (funext hno)
  have := congrFun e j
  rw [Matrix.mulVec_diagonal, Pi.smul_apply, smul_eq_mul] at this
  have hσ : d j = σ ^ 2 := by exact_mod_cast mul_right_cancel₀ hj this
  rcases hd j with h1 | h1
  · left
    rw [h1] at hσ
    exact pow_eq_zero_iff (by norm_num) |>.1 hσ.symm
  · right
    rw [hσ] at h1
    by_contra hle
    push Not at hle
    have : σ ^ 2 ≤ (1e-8) ^ 2 := pow_le_pow_left₀ h0 hle 2
    norm_num at this h1
    linarith

theorem lossless_diag2 {A : Tensor ℂ} (sA : A.shape = [2, 2]) {p q : ℂ} (hp : ‖p‖ > 1e-8)
    (hq : ‖q‖ > 1e-8) (gA : toMat A 2 2 = diagonal ![p, q]) : Lossless A := by
  refine lossless_of_gram sA ![‖p‖ ^ 2, ‖q‖ ^ 2] ?_ ?_
  · rw [gA]
    ext i j
    fin_cases i <;> fin_cases j <;> simp [Matrix.mul_apply, Fin.sum_univ_two, Complex.conj_mul']
  · intro j
    right
    have h : ∀ x : ℝ, x > 1e-8 → x ^ 2 > 1e-16 := by
      intro x hx
      have : x ^ 2 > (1e-8) ^ 2 := pow_lt_pow_left₀ hx (by norm_num) (by norm_num)
      norm_num at this ⊢
      exact this
    fin_cases j
    · exact h _ hp
    · exact h _ hq

/-- What `applyTwo` decomposes. -/
theorem applyTwo_log {svd : SVDOracle} (hv : ValidSVD svd) {A B G : Tensor ℂ} {l m r : ℕ} (hl : 0 < l)
    (hr : 0 < r) (hA : A.shape = [2, l, m]) (hB : B.shape = [2, m, r]) {M : QOp 2}
    (hG : Represents G M) (s : List (Tensor ℂ)) :
    ∃ A', (Gate.applyTwo svd G [A, B] 0 s).2 = s ++ [A'] ∧ A'.shape = [2 * l, 2 * r] ∧
      ∀ (x : Bits 2) i j, i < l → j < r → A'.get [x 0 * l + i, x 1 * r + j] =
        ∑ y : Bits 2, M x y * ∑ k ∈ range m, A.get [(y 0 : ℕ), i, k] * B.get [(y 1 : ℕ), k, j] := by
  obtain ⟨t, et, st, gt⟩ := mergeTwo_ok hA hB hG
  obtain ⟨A', sA, gA, h0, h1⟩ := decomp2_run hv st hl hr s
  refine ⟨A', ?_, sA, fun x i j hi hj => by
    rw [gA _ _ _ _ (x 0).isLt (x 1).isLt hi hj, gt x i j hi hj]⟩
  unfold Gate.applyTwo
  have g0 : pyGet [A, B] 0 = .ok A := rfl
  have g1 : pyGet [A, B] (0 + 1) = .ok B := rfl
  rw [g0, TNM.lift_ok_bind, g1, TNM.lift_ok_bind, et, TNM.lift_ok_bind]
  by_cases hb : bondDim (svd s A').S = 0
  · rw [TNM.bind_error (h0 hb)]
  · obtain ⟨a, b, e, -⟩ := h1 hb
    rw [TNM.bind_ok e]
    rfl

/-- A site with bond dimensions 1. -/
noncomputable def site1 (p q : ℂ) : Tensor ℂ := Tensor.ofFn [2, 1, 1] (fun i => if i.getD 0 0 = 0 then p else q)

theorem site1_get0 (p q : ℂ) : (site1 p q).get [0, 0, 0] = p := Tensor.get_ofFn rfl
theorem site1_get1 (p q : ℂ) : (site1 p q).get [1, 0, 0] = q := Tensor.get_ofFn rfl

theorem site1_pair (p q u v : ℂ) : IsMPS [site1 p q, site1 u v]
    (fun a : Bits 2 => (if a 0 = 0 then p else q) * (if a 1 = 0 then u else v)) := by
  refine ⟨rfl, ⟨by omega, 1, rfl, by omega, 1, rfl, rfl⟩, fun a => ?_⟩
  rw [bl_two, amp_pair rfl rfl _ _ _ (by omega : 0 < 1)]
  rw [Finset.sum_range_one]
  have h : ∀ (p q : ℂ) (z : Fin 2), (site1 p q).get [(z : ℕ), 0, 0] = if z = 0 then p else q := by
    intro p q z
    fin_cases z
    · exact site1_get0 p q
    · exact site1_get1 p q
  rw [h, h]

theorem sum_bits2 {M : Type*} [AddCommMonoid M] (f : Bits 2 → M) :
    ∑ y : Bits 2, f y = (f ![0, 0] + f ![0, 1]) + (f ![1, 0] + f ![1, 1]) := by
  rw [← (finTwoArrowEquiv (Fin 2)).symm.sum_comp, Fintype.sum_prod_type]
  simp [Fin.sum_univ_two, finTwoArrowEquiv]

/-- CNOT on `(p|0⟩ + q|1⟩)|0⟩` decomposes the matrix `diag(p, q)`. -/
theorem cnot_run_log {svd : SVDOracle} (hv : ValidSVD svd) (p q : ℂ) (s : List (Tensor ℂ)) :
    ∃ A', ((mkCnot 2 (.list [0, 1])).TN_operation svd [site1 p q, site1 1 0] s).2 = s ++ [A'] ∧
      A'.shape = [2, 2] ∧ toMat A' 2 2 = diagonal ![p, q] := by
  obtain ⟨A', e, sA, gA⟩ := applyTwo_log hv (by omega) (by omega) (A := site1 p q) (B := site1 1 0)
    (l := 1) (m := 1) (r := 1) rfl rfl cnotMat_rep s
  refine ⟨A', e, sA, ?_⟩
  ext i j
  have := gA ![i, j] 0 0 (by omega) (by omega)
  simp only [Matrix.cons_val_zero, Matrix.cons_val_one, mul_one, add_zero, Finset.sum_range_one] at this
  show A'.get [(i : ℕ), (j : ℕ)] = _
  rw [this, sum_bits2]
  fin_cases i <;> fin_cases j <;>
    simp [controlled, onQubit, Spec.X, site1_get0, site1_get1, Fin.forall_fin_two, Matrix.one_apply]

theorem cnot_run_lossless {svd : SVDOracle} (hv : ValidSVD svd) {p q : ℂ} (hp : ‖p‖ > 1e-8)
    (hq : ‖q‖ > 1e-8) :
    ∀ A ∈ ((mkCnot 2 (.list [0, 1])).TN_operation svd [site1 p q, site1 1 0] []).2, Lossless A := by
  obtain ⟨A', e, sA, gA⟩ := cnot_run_log hv p q []
  rw [e]
  intro A hA
  simp only [List.nil_append, List.mem_singleton] at hA
  subst hA
  exact lossless_diag2 sA hp hq gA

/-! ## State vectors of two qubits -/

/-- The vector `p|00⟩ + q|11⟩`. -/
noncomputable def bellVec (p q : ℂ) : Tensor ℂ :=
  Tensor.ofFn [1, 4] (fun i => if i.getD 1 0 = 0 then p else if i.getD 1 0 = 3 then q else 0)

theorem bell_lossless {svd : SVDOracle} (hv : ValidSVD svd) {p q : ℂ} (hp : ‖p‖ > 1e-8)
    (hq : ‖q‖ > 1e-8) : ∀ A ∈ (StateVec2MPS svd (bellVec p q) 2 []).2, Lossless A := by
  rw [sv2mps_unfold svd (N := 2) rfl]
  obtain ⟨A, sA, gA, h0, h1, -⟩ := loop_step (c := bellVec p q) (k := 0) hv (D := 1) (by omega) rfl []
  have hlog : (StateVec2MPS_loop svd 2 (bellVec p q) []).2 = [A] := by
    by_cases hb : bondDim (svd [] A).S = 0
    · rw [h0 hb]; rfl
    · obtain ⟨U, r, t, tr, -, -, -, h2⟩ := h1 hb
      obtain ⟨t', e, -⟩ := loop_last svd (c := r) tr.shapeR ([] ++ [A])
      rw [h2 _ _ e]; rfl
  rw [hlog]
  intro A' hA'
  obtain rfl := List.mem_singleton.1 hA'
  refine lossless_diag2 sA hp hq ?_
  have e : ∀ i j : ℕ, i < 2 → j < 2 → A'.get [i, j] = (bellVec p q).get [0, i * 2 + j] := by
    intro i j hi hj
    have := gA i 0 j hi (by omega) hj
    simpa using this
  ext i j
  show A'.get [(i : ℕ), (j : ℕ)] = _
  rw [e i j i.isLt j.isLt]
  unfold bellVec
  fin_cases i <;> fin_cases j
  · exact Tensor.get_ofFn rfl
  · exact Tensor.get_ofFn rfl
  · exact Tensor.get_ofFn rfl
  · exact Tensor.get_ofFn rfl

/-! ## Toffoli -/

/-- The decomposition of the three-site tensor of `|pqr⟩`. -/
theorem decomp3_basis {svd : SVDOracle} (hv : ValidSVD svd) {t : Tensor ℂ} {p q r : ℕ} (hp : p < 2)
    (hq : q < 2) (hr : r < 2) (h : t.shape = [2, 2, 2, 1, 1])
    (ht : ∀ x y z, x < 2 → y < 2 → z < 2 → t.get [x, y, z, 0, 0] =
      if x = p ∧ y = q ∧ z = r then 1 else 0) :
    ∀ A ∈ (TensorDecompAfterThreeQbitGate svd t []).2, Lossless A := by
  obtain ⟨m, hm, sm, gm⟩ := blockMat3_ok h
  have hrank : t.rank = 5 := by simp [Tensor.rank, h]
  have gm' : ∀ i j, i < 2 → j < 4 → m.get [i, j] = if i = p ∧ j = 2 * q + r then 1 else 0 := by
    intro i j hi hj
    have e := gm i (j / 2) (j % 2) 0 0 hi (by omega) (by omega) (by omega) (by omega)
    rw [ht _ _ _ hi (by omega) (by omega)] at e
    have e1 : i * 1 + 0 = i := by omega
    have e2 : j / 2 * (2 * 1) + (j % 2 * 1 + 0) = j := by omega
    rw [e1, e2] at e
    rw [e]
    congr 1
    apply propext
    constructor
    · rintro ⟨a, b, c⟩; exact ⟨a, by omega⟩
    · rintro ⟨a, b⟩; exact ⟨a, by omega, by omega⟩
  have hl1 : Lossless m := by
    refine lossless_of_gram (m := 2) (n := 4) sm (fun j => if (j : ℕ) = 2 * q + r then 1 else 0) ?_ ?_
    · ext i j
      rw [Matrix.mul_apply, Fin.sum_univ_two]
      simp only [Matrix.conjTranspose_apply, toMat]
      rw [gm' _ _ (by simp) i.isLt, gm' _ _ (by simp) j.isLt, gm' _ _ (by simp) i.isLt, gm' _ _ (by simp) j.isLt]
      rw [Matrix.diagonal_apply]
      by_cases hi : (i : ℕ) = 2 * q + r <;> by_cases hj : (j : ℕ) = 2 * q + r
      · have hij : i = j := Fin.ext (hi.trans hj.symm)
        interval_cases p <;> simp [hj, hij]
      · have hij : i ≠ j := fun e => hj (e ▸ hi)
        simp [hj, hij]
      · have hij : i ≠ j := fun e => hi (e ▸ hj)
        simp [hi, hij]
      · simp [hi]
    · intro j
      by_cases hj : (j : ℕ) = 2 * q + r
      · right; simp [hj]; norm_num
      · left; simp [hj]
  obtain ⟨U, c, D, e, hD, sU, sc, hex, hiso, hDeq⟩ := svdTrunc_lossless hv sm hl1
    ⟨p, 2 * q + r, by omega, by omega, by rw [gm' _ _ (by omega) (by omega)]; simp⟩ []
  obtain ⟨a, ea, sa, ga⟩ := view_site hD sU
  obtain ⟨c', ec, sc', gc⟩ := foldHalves_ok (by omega) sc
  have hc : ∀ k j, k < D → j < 4 → c.get [k, j] = if j = 2 * q + r then star (U.get [p, k]) else 0 := by
    intro k j hk hj
    have : c.get [k, j] = ∑ i ∈ range 2, star (U.get [i, k]) * m.get [i, j] := by
      have h1 : ∀ i ∈ range 2, star (U.get [i, k]) * m.get [i, j] =
          ∑ q ∈ range D, star (U.get [i, k]) * U.get [i, q] * c.get [q, j] := by
        intro i hi
        rw [← hex i j (Finset.mem_range.1 hi) hj, Finset.mul_sum]
        exact Finset.sum_congr rfl (fun q _ => by ring)
      rw [Finset.sum_congr rfl h1, Finset.sum_comm]
      have h2 : ∀ q ∈ range D, ∑ i ∈ range 2, star (U.get [i, k]) * U.get [i, q] * c.get [q, j] =
          if k = q then c.get [q, j] else 0 := by
        intro q hq
        rw [← Finset.sum_mul]
        have := hiso k q hk (Finset.mem_range.1 hq)
        rw [show (2 * 1 : ℕ) = 2 from rfl] at this
        rw [this]
        split <;> simp
      rw [Finset.sum_congr rfl h2, Finset.sum_ite_eq, if_pos (Finset.mem_range.2 hk)]
    rw [this, Finset.sum_range_succ, Finset.sum_range_one, gm' _ _ (by omega) hj, gm' _ _ (by omega) hj]
    interval_cases p <;> by_cases hj3 : j = 2 * q + r <;> simp [hj3]
  have hnorm : ∑ k ∈ range D, star (star (U.get [p, k])) * star (U.get [p, k]) = 1 := by
    have := hex p (2 * q + r) (by omega) (by omega)
    rw [gm' _ _ (by omega) (by omega), if_pos ⟨rfl, rfl⟩] at this
    rw [← this]
    apply Finset.sum_congr rfl
    intro k hk
    rw [hc k (2 * q + r) (Finset.mem_range.1 hk) (by omega), if_pos rfl, star_star]
  have gc' : ∀ y k z, y < 2 → k < D → z < 2 → c'.get [y * D + k, z] =
      if y = q ∧ z = r then star (U.get [p, k]) else 0 := by
    intro y k z hy hk hz
    rw [gc y k z hy hk (by omega), hc _ _ hk (by omega)]
    congr 1
    apply propext
    constructor
    · intro hh; omega
    · rintro ⟨rfl, rfl⟩; omega
  have hl2 : Lossless c' := by
    refine lossless_of_gram (m := 2 * D) (n := 2) sc' (fun j => if (j : ℕ) = r then 1 else 0) ?_ ?_
    · ext i j
      rw [Matrix.mul_apply]
      simp only [Matrix.conjTranspose_apply, toMat]
      rw [Finset.sum_fin_eq_sum_range]
      refine Eq.trans (Finset.sum_congr (g := fun q => star (c'.get [q, (i : ℕ)]) * c'.get [q, (j : ℕ)]) rfl
        (fun q hq => dif_pos (Finset.mem_range.1 hq))) ?_
      rw [sum_stack]
      have e1 : ∀ y ∈ range 2, ∑ k ∈ range D, star (c'.get [y * D + k, (i : ℕ)]) * c'.get [y * D + k, (j : ℕ)] =
          if y = q ∧ (i : ℕ) = r ∧ (j : ℕ) = r then 1 else 0 := by
        intro y hy
        have hy' := Finset.mem_range.1 hy
        have e2 : ∀ k ∈ range D, star (c'.get [y * D + k, (i : ℕ)]) * c'.get [y * D + k, (j : ℕ)] =
            if y = q ∧ (i : ℕ) = r ∧ (j : ℕ) = r then star (star (U.get [p, k])) * star (U.get [p, k]) else 0 := by
          intro k hk
          rw [gc' y k i hy' (Finset.mem_range.1 hk) i.isLt, gc' y k j hy' (Finset.mem_range.1 hk) j.isLt]
          by_cases h1 : y = q <;> by_cases hi : (i : ℕ) = r <;> by_cases hj : (j : ℕ) = r <;> simp [h1, hi, hj]
        rw [Finset.sum_congr rfl e2]
        split
        · exact hnorm
        · exact Finset.sum_const_zero
      rw [Finset.sum_congr rfl e1, Matrix.diagonal_apply]
      by_cases hi : (i : ℕ) = r <;> by_cases hj : (j : ℕ) = r
      · have hij : i = j := Fin.ext (hi.trans hj.symm)
        subst hij
        simp only [hi, and_self, and_true, Finset.sum_ite_eq', if_true]
        rw [if_pos (Finset.mem_range.2 hq)]
        simp
      · have hij : i ≠ j := fun e => hj (e ▸ hi)
        simp [hj, hij]
      · have hij : i ≠ j := fun e => hi (e ▸ hj)
        simp [hi, hij]
      · simp [hi]
    · intro j
      by_cases hj : (j : ℕ) = r
      · right; simp [hj]; norm_num
      · left; simp [hj]
  intro A hA
  unfold TensorDecompAfterThreeQbitGate at hA
  rw [raiseIf_false (by simp [hrank]), TNM.lift_ok_bind, hm, TNM.lift_ok_bind, TNM.bind_ok e] at hA
  change A ∈ (((liftM (U.view [2, -1, (U.shape.getD 1 0 : ℤ)]) : TNM _) >>= _) _).2 at hA
  rw [ea, TNM.lift_ok_bind, ec, TNM.lift_ok_bind] at hA
  have hlog := svdTrunc_log hv sc' (by omega) (by omega) ([] ++ [m])
  have hin : A ∈ [m, c'] := by
    rcases hr : svdTrunc svd c' ([] ++ [m]) with ⟨er | ⟨U2, d⟩, s'⟩
    · rw [TNM.bind_error hr] at hA
      rw [hr] at hlog
      cases hlog
      exact hA
    · rw [TNM.bind_ok hr] at hA
      rw [hr] at hlog
      cases hlog
      have hmono : ∀ {α : Type} (p : Py α) (f : α → TNM (Tensor ℂ × Tensor ℂ × Tensor ℂ)) (s : List (Tensor ℂ)),
          (∀ a, (f a s).2 = s) → ((liftM p >>= f : TNM _) s).2 = s := by
        intro α p f s hf
        cases p with
        | error e => exact congrArg Prod.snd (TNM.lift_error_bind e f s)
        | ok a => rw [TNM.lift_ok_bind]; exact hf a
      have := hmono (U2.view [2, -1, (U2.shape.getD 1 0 : ℤ)]) _ ([] ++ [m] ++ [c']) (fun b =>
        hmono (foldHalves d) _ ([] ++ [m] ++ [c']) (fun d' =>
          hmono (d'.view [2, -1, (d'.shape.getD 1 0 : ℤ)]) (fun f => pure (a, b, f)) ([] ++ [m] ++ [c']) (fun _ => rfl)))
      exact (this ▸ hA : A ∈ [] ++ [m] ++ [c'])
  rcases List.mem_cons.1 hin with rfl | hin
  · exact hl1
  · obtain rfl := List.mem_singleton.1 hin
    exact hl2

theorem sum_bits3 (f : Bits 3 → ℂ) : ∑ y : Bits 3, f y =
    ∑ a : Fin 2, ∑ b : Fin 2, ∑ c : Fin 2, f ![a, b, c] := by
  rw [← (Fin.consEquiv (fun _ : Fin 3 => Fin 2)).sum_comp, Fintype.sum_prod_type]
  refine Finset.sum_congr rfl (fun a _ => ?_)
  rw [show (∑ y : (i : Fin 2) → Fin 2, f ((Fin.consEquiv (fun _ : Fin 3 => Fin 2)) (a, y))) =
    ∑ y : Bits 2, f (Matrix.vecCons a y) from rfl, sum_bits2]
  simp [Fin.sum_univ_two]

/-- The run of toffoli on a basis state. -/
theorem toffoli_run_basis {svd : SVDOracle} (hv : ValidSVD svd) {g : Gate}
    (hg : mkToffoli 3 (.list [0, 1, 2]) = .ok g) {A B C : Tensor ℂ} (hA : A.shape = [2, 1, 1])
    (hB : B.shape = [2, 1, 1]) (hC : C.shape = [2, 1, 1]) {p q r : ℕ} (hp : p < 2) (hq : q < 2) (hr : r < 2)
    (hM : ∀ (x y z : ℕ) (hx : x < 2) (hy : y < 2) (hz : z < 2),
      ∑ a : Bits 3, controlled [(0 : Fin 3), 1] 2 Spec.X ![⟨x, hx⟩, ⟨y, hy⟩, ⟨z, hz⟩] a *
      (A.get [(a 0 : ℕ), 0, 0] * B.get [(a 1 : ℕ), 0, 0] * C.get [(a 2 : ℕ), 0, 0]) =
      if x = p ∧ y = q ∧ z = r then 1 else 0) :
    ∀ M ∈ (g.TN_operation svd [A, B, C] []).2, Lossless M := by
  obtain ⟨t, et, st, gt⟩ := mergeThree_ok (A := A) (B := B) (C := C)
    (l := 1) (m := 1) (n := 1) (r := 1) hA hB hC toffoliMat_rep
  have ht : ∀ x y z, x < 2 → y < 2 → z < 2 → t.get [x, y, z, 0, 0] =
      if x = p ∧ y = q ∧ z = r then 1 else 0 := by
    intro x y z hx hy hz
    have := gt ![⟨x, hx⟩, ⟨y, hy⟩, ⟨z, hz⟩] 0 0 (by omega) (by omega)
    simp only [Finset.sum_range_one] at this
    exact Eq.trans this (hM x y z hx hy hz)
  have hl := decomp3_basis hv hp hq hr st ht
  have e : (g.TN_operation svd [A, B, C] []).2 =
      (TensorDecompAfterThreeQbitGate svd t []).2 := by
    cases hg
    have hs : ([0, 1, 2] : List ℤ).mergeSort (· ≤ ·) = [0, 1, 2] := sort3 (by decide) (by decide) (List.Perm.refl _)
    show (Gate.toffoli_TN_operation svd _ _ []).2 = _
    unfold Gate.toffoli_TN_operation
    rw [guard_list (N := 3) (g := ⟨.toffoli, 3, .list [0, 1, 2], [], toffoliMat, noMat⟩) rfl rfl, TNM.lift_ok_bind,
      asList_list, TNM.lift_ok_bind, hs]
    have s0 : pyGet ([0, 1, 2] : List ℤ) 0 = .ok 0 := rfl
    have s1 : pyGet ([0, 1, 2] : List ℤ) 1 = .ok 1 := rfl
    have s2 : pyGet ([0, 1, 2] : List ℤ) 2 = .ok 2 := rfl
    have hG : Gate.toffoliG 2 1 2 = .ok toffoliMat := rfl
    rw [s0, TNM.lift_ok_bind, s1, TNM.lift_ok_bind, s2, TNM.lift_ok_bind]
    have r1 : pyRange2 0 (1 - 1) = [] := rfl
    have r2 : pyRangeDown 2 (1 + 1) = [] := rfl
    have r3 : pyRangeDown (1 - 1) 0 = [] := rfl
    have r4 : pyRange2 (1 + 1) 2 = [] := rfl
    simp only [r1, r2, r3, r4, List.foldlM_nil, TNM.lift_ok_bind, hG]
    show ((Gate.applyThree svd toffoliMat [A, B, C] 1 >>= fun mps => _) []).2 = _
    unfold Gate.applyThree
    have p0 : pyGet [A, B, C] (1 - 1) = .ok A := rfl
    have p1 : pyGet [A, B, C] 1 = .ok B := rfl
    have p2 : pyGet [A, B, C] (1 + 1) = .ok C := rfl
    rw [p0, TNM.lift_ok_bind, p1, TNM.lift_ok_bind, p2, TNM.lift_ok_bind, et, TNM.lift_ok_bind]
    rcases hr : TensorDecompAfterThreeQbitGate svd t [] with ⟨er | ⟨a, b, c⟩, s'⟩
    · rw [TNM.bind_error (TNM.bind_error hr _)]
    · have : (TensorDecompAfterThreeQbitGate svd t >>= fun __discr => (do
          let mps ← (pySet [A, B, C] (1 - 1) __discr.1 : Py _)
          let mps ← (pySet mps 1 __discr.2.1 : Py _)
          (pySet mps (1 + 1) __discr.2.2 : Py _) : TNM _)) [] = (.ok [a, b, c], s') := by
        rw [TNM.bind_ok hr]; rfl
      rw [TNM.bind_ok this]
      rfl
  rw [e]; exact hl

/-- The run of toffoli on `|110⟩`. -/
theorem toffoli_run_lossless {svd : SVDOracle} (hv : ValidSVD svd) {g : Gate}
    (hg : mkToffoli 3 (.list [0, 1, 2]) = .ok g) :
    ∀ A ∈ (g.TN_operation svd [site1 0 1, site1 0 1, site1 1 0] []).2, Lossless A := by
  refine toffoli_run_basis hv hg rfl rfl rfl (p := 1) (q := 1) (r := 1) (by omega) (by omega) (by omega) ?_
  intro x y z hx hy hz
  rw [sum_bits3]
  simp only [Fin.sum_univ_two]
  interval_cases x <;> interval_cases y <;> interval_cases z <;>
    simp [controlled, onQubit, Spec.X, site1_get0, site1_get1, Fin.forall_fin_succ, Matrix.one_apply]

/-- The run of toffoli on `|010⟩`. -/
theorem toffoli_run_010 {svd : SVDOracle} (hv : ValidSVD svd) {g : Gate}
    (hg : mkToffoli 3 (.list [0, 1, 2]) = .ok g) :
    ∀ A ∈ (g.TN_operation svd [site1 1 0, site1 0 1, site1 1 0] []).2, Lossless A := by
  refine toffoli_run_basis hv hg rfl rfl rfl (p := 0) (q := 1) (r := 0) (by omega) (by omega) (by omega) ?_
  intro x y z hx hy hz
  rw [sum_bits3]
  simp only [Fin.sum_univ_two]
  interval_cases x <;> interval_cases y <;> interval_cases z <;>
    simp [controlled, onQubit, Spec.X, site1_get0, site1_get1, Fin.forall_fin_succ, Matrix.one_apply]

/-- CNOT on a two-qubit matrix product state of `v` decomposes the matrix of amplitudes of `CNOT v`. -/
theorem cnot_log_state {svd : SVDOracle} (hv : ValidSVD svd) {mps : List (Tensor ℂ)} {v : QState 2}
    (h : IsMPS mps v) (s : List (Tensor ℂ)) :
    ∃ A', ((mkCnot 2 (.list [0, 1])).TN_operation svd mps s).2 = s ++ [A'] ∧ A'.shape = [2, 2] ∧
      toMat A' 2 2 = fun i j => (controlled [(0 : Fin 2)] 1 Spec.X *ᵥ v) ![i, j] := by
  obtain ⟨hlen, hc, ha⟩ := h
  match mps, hlen with
  | [A, B], _ =>
    obtain ⟨hl, m, hA, hm, r, hB, rfl⟩ := hc
    obtain ⟨A', e, sA, gA⟩ := applyTwo_log hv (by omega) (by omega) hA hB cnotMat_rep s
    refine ⟨A', e, sA, ?_⟩
    ext i j
    have := gA ![i, j] 0 0 (by omega) (by omega)
    simp only [Matrix.cons_val_zero, Matrix.cons_val_one, mul_one, add_zero] at this
    show A'.get [(i : ℕ), (j : ℕ)] = _
    rw [this]
    simp only [Matrix.mulVec, dotProduct]
    refine Finset.sum_congr rfl (fun y _ => ?_)
    rw [← ha y, bl_two, amp_pair hA hB _ _ _ (by omega)]
end QTN
