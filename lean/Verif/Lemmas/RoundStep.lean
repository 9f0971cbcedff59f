import Verif.Lemmas.RoundRing
import Verif.SpecRoundLayers

/-! # One multiplication with a matrix that has several entries in every row -/

namespace QTN

open Spec Matrix Complex Finset

variable {N : ℕ}

/-- At most `r` entries in every row. -/
def Rows (r : ℕ) (M : QOp N) : Prop := ∀ a, (Finset.univ.filter (fun b => M a b ≠ 0)).card ≤ r

theorem rows_all (M : QOp N) : Rows (2 ^ N) M := fun a =>
  (Finset.card_filter_le _ _).trans (by simp [Bits])

namespace Arith

variable {A : Arith}

theorem dotOp_rows {s t : Tensor ℂ} {G V : QOp N} (hs : Represents s G) (ht : Represents t V) {r : ℕ}
    (hG : Rows r G) {B : ℝ} (hB : Bnd B (absOp G)) (b : Bits N) :
    norm2 (fun a => (dotOp A s t : QOp N) a b - (G *ᵥ fun c => V c b) a) ≤
      sumErr A.u r * (B * norm2 (fun c => V c b)) := by
  have hγ := sumErr_nonneg A.u_nonneg r
  have h2 : norm2 (fun c => ((‖V c b‖ : ℝ) : ℂ)) = norm2 (fun c => V c b) := by unfold norm2; simp
  have h3 : ∀ a, ‖(dotOp A s t : QOp N) a b - (G *ᵥ fun c => V c b) a‖ ≤
      ‖((((sumErr A.u r : ℝ) : ℂ)) • (absOp G *ᵥ fun c => ((‖V c b‖ : ℝ) : ℂ))) a‖ := by
    intro a
    have hcard : ((range (2 ^ N)).filter (fun k => s.get [enc a, k] ≠ 0)).card ≤ r := by
      refine le_trans ?_ (hG a)
      refine le_trans (Finset.card_le_card (t := (univ.filter (fun c => G a c ≠ 0)).image enc) ?_) card_image_le
      intro k hk
      obtain ⟨hk1, hk2⟩ := mem_filter.1 hk
      obtain ⟨c, rfl⟩ := exists_enc (mem_range.1 hk1)
      rw [hs.2] at hk2
      exact mem_image.2 ⟨c, by simpa using hk2, rfl⟩
    have h := dot_err' (A := A) (2 ^ N) (fun x => s.get [enc a, x]) (fun x => t.get [x, enc b]) r hcard
    rw [sum_enc, sum_enc] at h
    simp only [hs.2, ht.2] at h
    have e : ((((sumErr A.u r : ℝ) : ℂ)) • (absOp G *ᵥ fun c => ((‖V c b‖ : ℝ) : ℂ))) a =
        ((sumErr A.u r * ∑ c, ‖G a c‖ * ‖V c b‖ : ℝ) : ℂ) := by
      simp [Matrix.mulVec, dotProduct, absOp]
    rw [e, Complex.norm_real, Real.norm_of_nonneg (mul_nonneg hγ (Finset.sum_nonneg fun _ _ => by positivity))]
    exact h
  refine (norm2_mono h3).trans ?_
  rw [norm2_smul, Complex.norm_real, Real.norm_of_nonneg hγ]
  refine mul_le_mul_of_nonneg_left ?_ hγ
  rw [← h2]
  exact hB _

/-- A matrix computed for the operator `op`: exact, or with an error that adds `c` to the error of every column when it
is multiplied with the circuit so far. -/
def CompG (A : Arith) (p : Py (Tensor ℂ)) (op : QOp N) (c : ℝ) : Prop :=
  ∃ U G, p = .ok U ∧ Represents U G ∧ 0 ≤ c ∧
    ((G = op ∧ SignM G ∧ Mono G) ∨
     ∃ r e B, Rows r G ∧ Bnd B (absOp G) ∧ Bnd e (G - op) ∧ e + sumErr A.u r * B ≤ c)

/-- The entries are floating-point numbers. -/
def RepP (A : Arith) (N : ℕ) (p : Py (Tensor ℂ)) : Prop := ∀ U (G : QOp N), p = .ok U → Represents U G → RepM A G

theorem bnd_nonneg {M : QOp N} {c : ℝ} (h : Bnd c M) : 0 ≤ c := by
  have h6 := h (Pi.single 0 1)
  have h7 : norm2 (Pi.single 0 1 : QState N) = 1 := by
    have := norm2_col (isUnitaryOp_one (N := N)) 0
    rw [← this]; congr 1; funext a
    rw [Matrix.one_apply]
    by_cases hab : a = 0
    · subst hab; simp
    · simp [hab]
  rw [h7, mul_one] at h6
  exact (norm2_nonneg _).trans h6

theorem mul_col (M W : QOp N) (b : Bits N) : (fun a => (M * W) a b) = M *ᵥ fun c => W c b := by
  funext a; simp [Matrix.mul_apply, Matrix.mulVec, dotProduct]

theorem step_G {p : Py (Tensor ℂ)} {op : QOp N} {c : ℝ} (hop : IsUnitaryOp op) (hc : CompG A p op c) {acc : Tensor ℂ}
    {W V : QOp N} (hacc : Represents acc W) (hW : RepM A W) (hV : IsUnitaryOp V) {e : ℝ}
    (he : ∀ b, 1 + norm2 (fun a => W a b - V a b) ≤ e) :
    ∃ acc' W', (do A.matmul (← p) acc) = .ok acc' ∧ Represents acc' W' ∧ RepM A W' ∧
      ∀ b, 1 + norm2 (fun a => W' a b - (op * V) a b) ≤ e * (1 + c) := by
  obtain ⟨U, G, rfl, hR, hc0, hG⟩ := hc
  obtain ⟨r, hr, hrep⟩ := matmul_rep (A := A) hR hacc
  refine ⟨r, _, hr, hrep, dotOp_rep _ _, fun b => ?_⟩
  set d := norm2 (fun c => W c b - V c b) with hd
  have hd0 : 0 ≤ d := norm2_nonneg _
  have d3 : norm2 (op *ᵥ (fun c => W c b - V c b)) = d := norm2_unitary hop _
  have d8 : (1 + d) * (1 + c) ≤ e * (1 + c) := mul_le_mul_of_nonneg_right (he b) (by linarith)
  rcases hG with ⟨rfl, hs, hm⟩ | ⟨rows, e', B, h2, hB, hE, hle⟩
  · rw [dotOp_exact hR hacc hs hm hW]
    have e1 : (fun a => (G * W) a b - (G * V) a b) = G *ᵥ (fun c => W c b - V c b) := by
      have : (fun a => (G * W) a b - (G * V) a b) = (fun a => (G * W) a b) - (fun a => (G * V) a b) := rfl
      rw [this, mul_col, mul_col, ← Matrix.mulVec_sub]
      rfl
    rw [e1, d3]
    nlinarith
  · have d1 := dotOp_rows (A := A) hR hacc h2 hB b
    have d2 := hE (fun c => W c b)
    have hn : norm2 (fun c => W c b) ≤ 1 + d := by
      have := norm2_add_le (fun c => V c b) (fun c => W c b - V c b)
      rw [norm2_col hV] at this
      refine le_trans (le_of_eq ?_) this
      congr 1
      funext c
      simp
    have e1 : (fun a => (dotOp A U acc : QOp N) a b - (op * V) a b) =
        (fun a => (dotOp A U acc : QOp N) a b - (G *ᵥ fun c => W c b) a) +
        (((G - op) *ᵥ fun c => W c b) + op *ᵥ (fun c => W c b - V c b)) := by
      have h3 : (fun a => (dotOp A U acc : QOp N) a b - (op * V) a b) =
          (fun a => (dotOp A U acc : QOp N) a b) - (fun a => (op * V) a b) := rfl
      have h4 : (fun a => (dotOp A U acc : QOp N) a b - (G *ᵥ fun c => W c b) a) =
          (fun a => (dotOp A U acc : QOp N) a b) - (G *ᵥ fun c => W c b) := rfl
      have h5 : (fun c => W c b - V c b) = (fun c => W c b) - (fun c => V c b) := rfl
      rw [h3, h4, h5, mul_col, Matrix.mulVec_sub, Matrix.sub_mulVec]
      abel
    have d4 := norm2_add_le (fun a => (dotOp A U acc : QOp N) a b - (G *ᵥ fun c => W c b) a)
      (((G - op) *ᵥ fun c => W c b) + op *ᵥ (fun c => W c b - V c b))
    have d5 := norm2_add_le ((G - op) *ᵥ fun c => W c b) (op *ᵥ (fun c => W c b - V c b))
    rw [← e1] at d4
    set n := norm2 (fun c => W c b) with hn'
    have hn0 : 0 ≤ n := norm2_nonneg _
    have d6 : norm2 (fun a => (dotOp A U acc : QOp N) a b - (op * V) a b) ≤ c * n + d := by
      have := mul_le_mul_of_nonneg_right hle hn0
      linarith
    have d7 : c * n ≤ c * (1 + d) := mul_le_mul_of_nonneg_left hn hc0
    nlinarith

/-- Multiplication with a permutation matrix from the left makes no error and changes none. -/
theorem CompG.perm {p q : Py (Tensor ℂ)} {P op : QOp N} {c : ℝ} {R : Tensor ℂ} (hR : Represents R P) (hs : SignM P)
    (hm : Mono P) (hu : IsUnitaryOp P) (hc : CompG A p op c) (hp : RepP A N p) (hq : q = do A.matmul R (← p)) :
    CompG A q (P * op) c := by
  obtain ⟨U, G, rfl, hU, hc0, h⟩ := hc
  have hG := hp U G rfl hU
  obtain ⟨r, hr, hrep⟩ := matmul_rep (A := A) hR hU
  rw [dotOp_exact hR hU hs hm hG] at hrep
  refine ⟨r, P * G, hq.trans hr, hrep, hc0, ?_⟩
  rcases h with ⟨rfl, h1, h2⟩ | ⟨n, e, B, h1, h2, h3, h4⟩
  · exact Or.inl ⟨rfl, signM_mul hs hm h1, mono_mul hm h2⟩
  · have row : ∀ a, ∃ c, ∀ b, (P * G) a b = P a c * G c b := fun a => by
      obtain ⟨c, hc⟩ := hm a
      refine ⟨c, fun b => ?_⟩
      rw [Matrix.mul_apply, Finset.sum_eq_single c]
      · intro x _ hx; rw [hc x hx, zero_mul]
      · intro h; exact absurd (mem_univ _) h
    refine Or.inr ⟨n, e, B, fun a => ?_, fun v => ?_, fun v => ?_, h4⟩
    · obtain ⟨c, hc⟩ := row a
      refine (Finset.card_le_card fun b hb => ?_).trans (h1 c)
      have : (P * G) a b ≠ 0 := by simpa using hb
      rw [hc] at this
      simpa using right_ne_zero_of_mul this
    · refine le_trans (norm2_mono (w := P *ᵥ (absOp G *ᵥ v)) fun a => le_of_eq ?_) ?_
      · obtain ⟨c, hc⟩ := hm a
        have e1 : ∀ w : QState N, (P *ᵥ w) a = P a c * w c := fun w => by
          rw [Matrix.mulVec, dotProduct, Finset.sum_eq_single c]
          · intro x _ hx; rw [hc x hx, zero_mul]
          · intro h; exact absurd (mem_univ _) h
        have e2 : (absOp (P * G) *ᵥ v) a = ((‖P a c‖ : ℝ) : ℂ) * (absOp G *ᵥ v) c := by
          rw [Matrix.mulVec, dotProduct, Matrix.mulVec, dotProduct, Finset.mul_sum]
          refine Finset.sum_congr rfl fun b _ => ?_
          have : (P * G) a b = P a c * G c b := by
            rw [Matrix.mul_apply, Finset.sum_eq_single c]
            · intro x _ hx; rw [hc x hx, zero_mul]
            · intro h; exact absurd (mem_univ _) h
          unfold absOp
          rw [this, norm_mul, Complex.ofReal_mul, mul_assoc]
        rw [e1, e2, norm_mul, norm_mul, Complex.norm_real, norm_norm]
      · rw [norm2_unitary hu]; exact h2 v
    · rw [← Matrix.mul_sub, ← Matrix.mulVec_mulVec, norm2_unitary hu]
      exact h3 v

/-- A dense matrix whose columns have the error `d`. -/
theorem compG_cols {p : Py (Tensor ℂ)} {U : Tensor ℂ} {W V : QOp N} (hp : p = .ok U) (hU : Represents U W)
    (hV : IsUnitaryOp V) {d : ℝ} (hd : ∀ b, norm2 (fun a => W a b - V a b) ≤ d) :
    CompG A p V (prodErr A.u N d) := by
  have hd0 : 0 ≤ d := (norm2_nonneg _).trans (hd 0)
  have hγ := sumErr_nonneg A.u_nonneg (2 ^ N)
  refine ⟨U, W, hp, hU, ?_, Or.inr ⟨2 ^ N, Real.sqrt (2 ^ N) * d, Real.sqrt (2 ^ N) * (1 + d), rows_all W, ?_, ?_, ?_⟩⟩
  · unfold prodErr; positivity
  · refine bnd_cols (by linarith) fun b => ?_
    have h1 : norm2 (column (absOp W) b) = norm2 (fun a => W a b) := by unfold norm2 column absOp; simp
    rw [h1]
    have := norm2_add_le (fun c => V c b) (fun c => W c b - V c b)
    rw [norm2_col hV] at this
    have h2 : ((fun c => V c b) + fun c => W c b - V c b) = fun c => W c b := by funext c; simp
    rw [h2] at this
    linarith [hd b]
  · exact bnd_cols hd0 hd
  · unfold prodErr
    exact le_of_eq (by ring)

end Arith

end QTN
