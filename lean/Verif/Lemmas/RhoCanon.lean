import Verif.SpecRho
import Verif.Lemmas.RhoMps
import Verif.Lemmas.Schmidt
import Mathlib.LinearAlgebra.Matrix.Transvection
import Mathlib.LinearAlgebra.Matrix.Kronecker

/-! # Canonical form, ranks and exact truncation error of `Rho2MPS` -/

namespace QTN

open Finset Spec Matrix

variable {N : ℕ}

/-- The column of a pair of bit strings. -/
def pe {k : ℕ} (c : Bits k × Bits k) : ℕ := enc c.1 * 2 ^ k + enc c.2

theorem pe_lt {k : ℕ} (c : Bits k × Bits k) : pe c < 2 ^ k * 2 ^ k := by
  have h1 := enc_lt c.1
  have h2 := enc_lt c.2
  unfold pe
  calc enc c.1 * 2 ^ k + enc c.2 < enc c.1 * 2 ^ k + 2 ^ k := by omega
    _ = (enc c.1 + 1) * 2 ^ k := by ring
    _ ≤ 2 ^ k * 2 ^ k := Nat.mul_le_mul_right _ (by omega)

theorem pe_inj {k : ℕ} {c d : Bits k × Bits k} (h : pe c = pe d) : c = d := by
  have h1 := enc_lt c.2
  have h2 := enc_lt d.2
  have hp : 0 < 2 ^ k := by positivity
  unfold pe at h
  have e1 : enc c.1 = enc d.1 := by
    have := congrArg (· / 2 ^ k) h
    simpa [mul_comm _ (2 ^ k), Nat.mul_add_div hp, Nat.div_eq_of_lt h1, Nat.div_eq_of_lt h2] using this
  have e2 : enc c.2 = enc d.2 := by rw [e1] at h; omega
  exact Prod.ext (enc_injective e1) (enc_injective e2)

theorem exists_pe {k j : ℕ} (h : j < 2 ^ k * 2 ^ k) : ∃ c : Bits k × Bits k, j = pe c := by
  have hp : 0 < 2 ^ k := by positivity
  obtain ⟨x, hx⟩ := exists_enc (N := k) (k := j / 2 ^ k) (by rwa [Nat.div_lt_iff_lt_mul hp])
  obtain ⟨y, hy⟩ := exists_enc (N := k) (k := j % 2 ^ k) (Nat.mod_lt _ hp)
  refine ⟨(x, y), ?_⟩
  unfold pe
  simp only [← hx, ← hy]
  rw [mul_comm, Nat.div_add_mod]

theorem sum_pe {M : Type*} [AddCommMonoid M] (k : ℕ) (f : ℕ → M) :
    ∑ j ∈ range (2 ^ k * 2 ^ k), f j = ∑ c : Bits k × Bits k, f (pe c) := by
  symm
  apply Finset.sum_bij (fun c _ => pe c)
  · intro c _; exact mem_range.2 (pe_lt c)
  · intro a _ b _ h; exact pe_inj h
  · intro j hj
    obtain ⟨c, hc⟩ := exists_pe (mem_range.1 hj)
    exact ⟨c, mem_univ _, hc.symm⟩
  · intro c _; rfl

/-- Put one bit in front of each string. -/
def pcons {k : ℕ} (x y : Fin 2) (c : Bits k × Bits k) : Bits (k + 1) × Bits (k + 1) :=
  ((Fin.cons x c.1 : Bits (k + 1)), (Fin.cons y c.2 : Bits (k + 1)))

theorem sum_pairs_split {M : Type*} [AddCommMonoid M] {k : ℕ} (f : Bits (k + 1) × Bits (k + 1) → M) :
    ∑ c, f c = ∑ x : Fin 2, ∑ y : Fin 2, ∑ c : Bits k × Bits k, f (pcons x y c) := by
  rw [Fintype.sum_prod_type, sum_bits_split]
  refine Finset.sum_congr rfl fun x _ => ?_
  simp only [Fintype.sum_prod_type]
  rw [Finset.sum_congr rfl (fun a _ => sum_bits_split (fun b => f ((Fin.cons x a : Bits (k + 1)), b))), Finset.sum_comm]
  rfl

/-- Sum of squared absolute values of a block with rows `i < D` and columns given by pairs. -/
noncomputable def sq2 (D k : ℕ) (f : ℕ → Bits k × Bits k → ℂ) : ℝ := ∑ i ∈ range D, ∑ c, ‖f i c‖ ^ 2

theorem sq2_eq (D k : ℕ) (f : ℕ → Bits k × Bits k → ℂ) :
    sq2 D k f = sqn (Matrix.of fun (i : Fin D) c => f i c) := by
  unfold sq2 sqn
  rw [Finset.sum_range]
  rfl

theorem sq2_congr {D k : ℕ} {f g : ℕ → Bits k × Bits k → ℂ} (h : ∀ i < D, ∀ a, f i a = g i a) :
    sq2 D k f = sq2 D k g := by
  unfold sq2
  refine Finset.sum_congr rfl fun i hi => Finset.sum_congr rfl fun a _ => ?_
  rw [h i (Finset.mem_range.1 hi)]

/-- The row of the regrouped matrix. -/
theorem row4_lt {D x y i : ℕ} (hx : x < 2) (hy : y < 2) (hi : i < D) : x * (2 * D) + (y * D + i) < 2 * (2 * D) := by
  rcases lt_two_cases hx with rfl | rfl <;> rcases lt_two_cases hy with rfl | rfl <;> omega

theorem sum_stack4 {M : Type} [AddCommMonoid M] (D : ℕ) (f : ℕ → M) :
    ∑ i ∈ range (2 * (2 * D)), f i = ∑ x ∈ range 2, ∑ y ∈ range 2, ∑ i ∈ range D, f (x * (2 * D) + (y * D + i)) := by
  rw [sum_stack]
  exact Finset.sum_congr rfl fun x _ => sum_stack D _

theorem sq2_fold {D k : ℕ} {f : ℕ → Bits (k + 1) × Bits (k + 1) → ℂ} {g : ℕ → Bits k × Bits k → ℂ}
    (h : ∀ (x y : Fin 2) (i : ℕ) (c : Bits k × Bits k), i < D →
      f i (pcons x y c) = g (x * (2 * D) + (y * D + i)) c) :
    sq2 D (k + 1) f = sq2 (2 * (2 * D)) k g := by
  unfold sq2
  rw [sum_stack4]
  simp only [sum_pairs_split]
  rw [Finset.sum_range (n := 2), Finset.sum_comm]
  refine Finset.sum_congr rfl fun x _ => ?_
  rw [Finset.sum_range (n := 2), Finset.sum_comm]
  refine Finset.sum_congr rfl fun y _ => Finset.sum_congr rfl fun i hi => Finset.sum_congr rfl fun c _ => ?_
  rw [h x y i c (Finset.mem_range.1 hi)]

/-- The error of one truncation is orthogonal to everything that follows. -/
theorem trunc_pyth4 {svd : SVDOracle} (hv : ValidSVD svd) {A U r : Tensor ℂ} {m n : ℕ}
    {s : List (Tensor ℂ)} (hA : A.shape = [m, 2 ^ n * 2 ^ n]) (t : Trunc A m (2 ^ n * 2 ^ n) (svd s A) U r)
    (R : ℕ → Bits n × Bits n → ℂ) :
    sq2 m n (fun p a => A.get [p, pe a] - ∑ q ∈ range (bondDim (svd s A).S), U.get [p, q] * R q a) =
      cutLoss (svd s A).S ^ 2 +
        sq2 (bondDim (svd s A).S) n (fun q a => r.get [q, pe a] - R q a) := by
  set E := bondDim (svd s A).S with hE
  set MA : Matrix (Fin m) (Bits n × Bits n) ℂ := fun p a => A.get [(p : ℕ), pe a] with hMA
  set MR : Matrix (Fin E) (Bits n × Bits n) ℂ := fun q a => R q a with hMR
  have hr : (toMat U m E)ᴴ * MA = Matrix.of fun (q : Fin E) (a : Bits n × Bits n) => r.get [(q : ℕ), pe a] := by
    ext q a
    rw [Matrix.mul_apply, Matrix.of_apply, trunc_remainder hv hA t q.isLt (pe_lt a), Finset.sum_range]
    refine Finset.sum_congr rfl fun i _ => ?_
    rw [Matrix.conjTranspose_apply, toMat, t.getU _ _ i.isLt q.isLt]
  have h := sqn_proj (trunc_iso hv hA t) MA MR
  rw [hr] at h
  have e1 : sq2 m n (fun p a => A.get [p, pe a] - ∑ q ∈ range E, U.get [p, q] * R q a) =
      sqn (MA - toMat U m E * MR) := by
    rw [sq2_eq]
    congr 1
    ext p a
    rw [Matrix.sub_apply, Matrix.mul_apply, Matrix.of_apply, Finset.sum_range]
    rfl
  have e2 : sqn (MA - toMat U m E * Matrix.of fun (q : Fin E) (a : Bits n × Bits n) => r.get [(q : ℕ), pe a]) =
      cutLoss (svd s A).S ^ 2 := by
    rw [← trunc_nrm hv hA t, nrm, Real.sq_sqrt (Finset.sum_nonneg fun _ _ => Finset.sum_nonneg fun _ _ => by positivity),
      Finset.sum_range, sqn]
    refine Finset.sum_congr rfl fun p _ => ?_
    rw [sum_pe]
    refine Finset.sum_congr rfl fun a _ => ?_
    rw [Matrix.sub_apply, Matrix.mul_apply, Finset.sum_range]
    rfl
  rw [e1, h, e2, sq2_eq]
  rfl

/-- One step of the loop. -/
theorem rho_loop_step {svd : SVDOracle} (hv : ValidSVD svd) {r : Tensor ℂ} {k D : ℕ} (hD : 0 < D)
    (hr : r.shape = [D, 2 ^ (k + 1) * 2 ^ (k + 1)]) (s : List (Tensor ℂ)) :
    ∃ A, A.shape = [2 * (2 * D), 2 ^ k * 2 ^ k] ∧
      (∀ (x y : Fin 2) (i : ℕ) (c : Bits k × Bits k), i < D →
        r.get [i, pe (pcons x y c)] = A.get [x * (2 * D) + (y * D + i), pe c]) ∧
      (bondDim (svd s A).S = 0 → Rho2MPS_loop svd (k + 1) r s = (.error .runtimeError, s ++ [A])) ∧
      (bondDim (svd s A).S ≠ 0 → ∃ U c t, Trunc A (2 * (2 * D)) (2 ^ k * 2 ^ k) (svd s A) U c ∧
        t.shape = [2, 2, D, bondDim (svd s A).S] ∧
        (∀ x y i q, x < 2 → y < 2 → i < D → q < bondDim (svd s A).S →
          t.get [x, y, i, q] = U.get [x * (2 * D) + (y * D + i), q]) ∧
        (∀ e s', Rho2MPS_loop svd k c (s ++ [A]) = (.error e, s') →
          Rho2MPS_loop svd (k + 1) r s = (.error e, s')) ∧
        (∀ l s', Rho2MPS_loop svd k c (s ++ [A]) = (.ok l, s') →
          Rho2MPS_loop svd (k + 1) r s = (.ok (t :: l), s'))) := by
  have hp : 0 < 2 ^ k := by positivity
  obtain ⟨A, eA, sA, gA⟩ := rhoRegroup_ok (r := r) (D := D) (h := 2 ^ k) (w := 2 ^ k) hp hp
    (by rw [hr]; congr 2; ring)
  have e2 : 2 * 2 ^ k = 2 ^ (k + 1) := by ring
  rw [e2] at eA
  have hunf : Rho2MPS_loop svd (k + 1) r = (do
      let (U, r) ← svdTrunc svd A
      let t ← (U.view [2, 2, -1, (U.shape.getD 1 0 : ℤ)] : Py _)
      let rest ← Rho2MPS_loop svd k r
      pure (t :: rest)) := by
    funext s
    conv_lhs => unfold Rho2MPS_loop
    rw [eA, TNM.lift_ok_bind]
  have hrun := svdTrunc_run hv sA (by omega) (by positivity) s
  refine ⟨A, sA, ?_, ?_, ?_⟩
  · intro x y i c hi
    have hcol : pe (pcons x y c) = (x : ℕ) * (2 * 2 ^ k * 2 ^ k) + ((2 * enc c.1 + (y : ℕ)) * 2 ^ k + enc c.2) := by
      unfold pe pcons
      rw [enc_cons, enc_cons]
      ring
    rw [hcol, pe, gA _ _ _ _ _ x.isLt y.isLt hi (enc_lt _) (enc_lt _)]
  · intro hb
    rw [hunf, TNM.bind_error (hrun.1 hb)]
  · intro hb
    obtain ⟨U, c, e, tr⟩ := hrun.2 hb
    obtain ⟨t, et, st, gt⟩ := view_site4 (Nat.pos_of_ne_zero hb) tr.shapeU
    refine ⟨U, c, t, tr, st, gt, fun er s' h => ?_, fun l s' h => ?_⟩
    · rw [hunf, TNM.bind_ok e]
      show ((liftM (U.view [2, 2, -1, (U.shape.getD 1 0 : ℤ)]) : TNM _) >>= _) _ = _
      rw [et, TNM.lift_ok_bind, TNM.bind_error h]
    · rw [hunf, TNM.bind_ok e]
      show ((liftM (U.view [2, 2, -1, (U.shape.getD 1 0 : ℤ)]) : TNM _) >>= _) _ = _
      rw [et, TNM.lift_ok_bind, TNM.bind_ok h]
      rfl

/-- Rows: a row of the matrix and the first `j` bits of both strings; columns: the other bits. -/
def cutC4 (r : Tensor ℂ) (D n j : ℕ) : Matrix (Fin D × (Bits n × Bits n)) (Bits n × Bits n) ℂ :=
  fun p b => r.get [(p.1 : ℕ), pe (splice j p.2.1 b.1, splice j p.2.2 b.2)]

theorem splice_cons {n : ℕ} (j : ℕ) (x y : Fin 2) (a b : Bits n) :
    splice (j + 1) (Fin.cons x a : Bits (n + 1)) (Fin.cons y b : Bits (n + 1)) =
      (Fin.cons x (splice j a b) : Bits (n + 1)) := by
  funext i
  refine Fin.cases ?_ (fun i => ?_) i
  · simp [splice]
  · simp [splice]

/-- What `Rho2MPS` returns on a `D × 4^k` matrix. -/
theorem rho_canon {svd : SVDOracle} (hv : ValidSVD svd) : ∀ (k D : ℕ) (r : Tensor ℂ)
    (s ts s' : List (Tensor ℂ)), 0 < D → r.shape = [D, 2 ^ k * 2 ^ k] →
    Rho2MPS_loop svd k r s = (.ok ts, s') →
    ∃ (E : ℕ → ℕ) (As : List (Tensor ℂ)) (z : ℕ → ℂ), s' = s ++ As ∧ As.length = k ∧ ts.length = k ∧
      Chain4 D ts (E k) ∧ E 0 = D ∧ (∀ j, 0 < E j) ∧
      (∀ (i : ℕ) (h : i < ts.length), ts[i].shape = [2, 2, E i, E (i + 1)]) ∧
      (∀ (i : ℕ) (h : i < ts.length), SiteIsometry ts[i] (E i) (E (i + 1))) ∧
      (∀ j, 0 < j → j ≤ k → E j ≤ (cutC4 r D k j).rank) ∧
      sq2 D k (fun i c => r.get [i, pe c] - ∑ q ∈ range (E k), amp4 ts (bl c.1) (bl c.2) i q * z q) =
        lossSq svd s As ∧
      sq2 D k (fun i c => r.get [i, pe c]) = (∑ q ∈ range (E k), ‖z q‖ ^ 2) + lossSq svd s As ∧
      (∀ w : ℕ → ℂ, sq2 D k (fun i c => ∑ q ∈ range (E k), amp4 ts (bl c.1) (bl c.2) i q * w q) =
        ∑ q ∈ range (E k), ‖w q‖ ^ 2) ∧
      (0 < k → E k = 1 ∧ LastPhase svd (z 0) ∧ 1e-8 < ‖z 0‖) := by
  intro k
  induction k with
  | zero =>
    intro D r s ts s' hD hr h
    obtain ⟨rfl, rfl⟩ : [] = ts ∧ s = s' := by
      have h' : ((Except.ok [] : Except PyErr (List (Tensor ℂ))), s) = (.ok ts, s') := h
      simpa using h'
    have hone : ∀ f : Bits 0 × Bits 0 → ℝ, ∑ c, f c = f (0, 0) := by
      intro f
      rw [Finset.sum_eq_single (0, 0)]
      · intro b _ hb; exact absurd (Subsingleton.elim b (0, 0)) hb
      · simp
    have hpe : pe ((0, 0) : Bits 0 × Bits 0) = 0 := by simp [pe, enc_zero]
    have hamp : ∀ (w : ℕ → ℂ) (i : ℕ) (c : Bits 0 × Bits 0), i < D →
        ∑ q ∈ range D, amp4 [] (bl c.1) (bl c.2) i q * w q = w i := by
      intro w i c hi
      simp [amp4, hi]
    refine ⟨fun _ => D, [], fun q => r.get [q, 0], by simp, rfl, rfl, rfl, rfl, fun _ => hD, by simp, by simp, ?_, ?_, ?_, ?_, by omega⟩
    · intro j h1 h2; omega
    · rw [sq2_congr (g := fun _ _ => 0) (fun i hi c => by
        rw [hamp _ i c hi, show c = (0, 0) from Subsingleton.elim _ _, hpe, sub_self])]
      simp [sq2, lossSq]
    · simp only [sq2, lossSq, hone, add_zero]
      rw [hpe]
    · intro w
      rw [sq2_congr (g := fun i _ => w i) (fun i hi c => hamp w i c hi)]
      simp [sq2]
  | succ k ih =>
    intro D r s ts s' hD hr h
    obtain ⟨A, sA, gA, h0, h1⟩ := rho_loop_step hv hD hr s
    by_cases hb : bondDim (svd s A).S = 0
    · rw [h0 hb] at h; simp at h
    obtain ⟨U, c, t, tr, st, gt, he, hok⟩ := h1 hb
    have hE := Nat.pos_of_ne_zero hb
    rcases hl : Rho2MPS_loop svd k c (s ++ [A]) with ⟨e | l, s''⟩
    · rw [he _ _ hl] at h; simp at h
    rw [hok _ _ hl] at h
    obtain ⟨rfl, rfl⟩ : t :: l = ts ∧ s'' = s' := by simpa using h
    obtain ⟨E', As, z, rfl, hAs, hlen, hch, e0, hpos, hs, hiso, hrk, hsq, hnm, hun, hlast⟩ :=
      ih _ c _ _ _ hE tr.shapeR hl
    set E := bondDim (svd s A).S with hEdef
    have hamp : ∀ (w : ℕ → ℂ) i (x y : Fin 2) (a : Bits k × Bits k), i < D →
        ∑ q ∈ range (E' k), amp4 (t :: l) (bl (pcons x y a).1) (bl (pcons x y a).2) i q * w q =
          ∑ p ∈ range E, U.get [x * (2 * D) + (y * D + i), p] *
            ∑ q ∈ range (E' k), amp4 l (bl a.1) (bl a.2) p q * w q := by
      intro w i x y a hi
      unfold pcons
      simp only [bl_succ, amp4_cons st, Fin.cons_zero, Fin.cons_succ]
      rw [Finset.sum_congr rfl (fun q _ => Finset.sum_mul _ _ _), Finset.sum_comm]
      refine Finset.sum_congr rfl fun p hp => ?_
      rw [Finset.mul_sum]
      refine Finset.sum_congr rfl fun q _ => ?_
      rw [gt _ _ _ _ x.isLt y.isLt hi (Finset.mem_range.1 hp)]
      ring
    refine ⟨fun j => match j with | 0 => D | j + 1 => E' j, A :: As, z, by simp, by simp [hAs], by simp [hlen],
      ⟨hD, E, st, hch⟩, rfl, ?_, ?_, ?_, ?_, ?_, ?_, ?_, ?_⟩
    · intro j
      cases j
      · exact hD
      · exact hpos _
    · intro i hi
      cases i with
      | zero => simpa [e0] using st
      | succ i => simpa using hs i (by simpa using hi)
    · intro i hi
      cases i with
      | succ i => simpa using hiso i (by simpa using hi)
      | zero =>
        intro p q hp' hq'
        simp only [e0] at hp' hq'
        have ho := congrFun (congrFun (trunc_iso hv sA tr) ⟨p, hp'⟩) ⟨q, hq'⟩
        rw [Matrix.mul_apply, Matrix.one_apply] at ho
        simp only [Fin.mk.injEq] at ho
        have ho' : ∑ i ∈ range (2 * (2 * D)), star (U.get [i, p]) * U.get [i, q] = if p = q then 1 else 0 := by
          rw [← ho, Finset.sum_range]
          rfl
        rw [← ho', sum_stack4]
        refine Finset.sum_congr rfl fun x hx => Finset.sum_congr rfl fun y hy => Finset.sum_congr rfl fun i hi => ?_
        rw [List.getElem_cons_zero, gt _ _ _ _ (Finset.mem_range.1 hx) (Finset.mem_range.1 hy) (Finset.mem_range.1 hi) hp',
          gt _ _ _ _ (Finset.mem_range.1 hx) (Finset.mem_range.1 hy) (Finset.mem_range.1 hi) hq']
    · intro j hj hjk
      obtain ⟨j, rfl⟩ : ∃ i, j = i + 1 := ⟨j - 1, by omega⟩
      have hcut : ∀ (x y : Fin 2) (i : Fin D) (a b : Bits k × Bits k) (j : ℕ) (u v : Fin 2),
          cutC4 r D (k + 1) (j + 1) (i, pcons x y a) (pcons u v b) =
            A.get [x * (2 * D) + (y * D + i), pe (splice j a.1 b.1, splice j a.2 b.2)] := by
        intro x y i a b j u v
        rw [← gA x y i _ i.isLt]
        unfold cutC4 pcons
        simp only [splice_cons]
      rcases Nat.eq_zero_or_pos j with rfl | hj
      · show E' 0 ≤ _
        rw [e0]
        refine (bondDim_le_rank (hv s A _ _ sA)).trans ?_
        have hx : ∀ p : Fin (2 * (2 * D)), (p : ℕ) / (2 * D) < 2 := fun p => by
          rw [Nat.div_lt_iff_lt_mul (by omega)]; exact p.isLt
        have hy : ∀ p : Fin (2 * (2 * D)), (p : ℕ) % (2 * D) / D < 2 := fun p => by
          rw [Nat.div_lt_iff_lt_mul hD]; exact Nat.mod_lt _ (by omega)
        have hi : ∀ p : Fin (2 * (2 * D)), (p : ℕ) % (2 * D) % D < D := fun p => Nat.mod_lt _ hD
        choose d hd using fun y : Fin (2 ^ k * 2 ^ k) => exists_pe y.isLt
        have e : toMat A (2 * (2 * D)) (2 ^ k * 2 ^ k) = (cutC4 r D (k + 1) 1).submatrix
            (fun p : Fin (2 * (2 * D)) => (⟨(p : ℕ) % (2 * D) % D, hi p⟩, pcons ⟨(p : ℕ) / (2 * D), hx p⟩ ⟨(p : ℕ) % (2 * D) / D, hy p⟩
              ((fun _ => 0), (fun _ => 0))))
            (fun y : Fin (2 ^ k * 2 ^ k) => pcons 0 0 (d y)) := by
          ext p y
          rw [Matrix.submatrix_apply, hcut]
          have e1 : ∀ f g : Bits k, splice 0 f g = g := fun f g => by funext i; simp [splice]
          dsimp only
          rw [e1, e1, Prod.mk.eta, ← hd y]
          have e2 : (p : ℕ) / (2 * D) * (2 * D) + ((p : ℕ) % (2 * D) / D * D + (p : ℕ) % (2 * D) % D) = p := by
            rw [Nat.div_add_mod', Nat.div_add_mod']
          rw [e2]
          rfl
        rw [e]
        exact Matrix.rank_submatrix_le _ _ _
      · show E' j ≤ _
        refine (hrk j hj (by omega)).trans ?_
        refine rank_le_of_mul (Matrix.of fun (q : Fin E × (Bits k × Bits k)) (p : Fin D × (Bits (k + 1) × Bits (k + 1))) =>
          if ((fun i => p.2.1 (Fin.succ i)), (fun i => p.2.2 (Fin.succ i))) = q.2 then
          star (U.get [(p.2.1 0 : ℕ) * (2 * D) + ((p.2.2 0 : ℕ) * D + p.1), (q.1 : ℕ)]) else 0) _
          (fun b : Bits k × Bits k => pcons 0 0 b) ?_
        ext q b
        rw [Matrix.mul_apply, Fintype.sum_prod_type, cutC4]
        rw [trunc_remainder hv sA tr q.1.isLt (pe_lt _), sum_stack4, Finset.sum_congr rfl (fun x _ => Finset.sum_comm),
          Finset.sum_comm, Finset.sum_range]
        refine Finset.sum_congr rfl fun i _ => ?_
        rw [sum_pairs_split, Finset.sum_range]
        refine Finset.sum_congr rfl fun x _ => ?_
        rw [Finset.sum_range]
        refine Finset.sum_congr rfl fun y _ => ?_
        rw [Finset.sum_eq_single q.2]
        · simp only [Matrix.of_apply, pcons, Fin.cons_succ, Fin.cons_zero, Prod.mk.eta, if_true]
          rw [Matrix.submatrix_apply]
          have := hcut x y i q.2 b j 0 0
          unfold pcons at this
          dsimp only [id]
          rw [this, tr.getU _ _ (row4_lt x.isLt y.isLt i.isLt) q.1.isLt]
        · intro a _ hne
          simp only [Matrix.of_apply, pcons, Fin.cons_succ]
          rw [if_neg hne, zero_mul]
        · intro hno; exact absurd (Finset.mem_univ _) hno
    · rw [lossSq, ← cutLoss_sq, ← hsq, ← trunc_pyth4 hv sA tr]
      exact sq2_fold (fun x y i a hi => by rw [gA x y i a hi, hamp z i x y a hi])
    · rw [sq2_fold (g := fun p a => A.get [p, pe a]) (fun x y i a hi => gA x y i a hi), lossSq, ← cutLoss_sq]
      have h2 := trunc_pyth4 hv sA tr (fun _ _ => 0)
      simp only [mul_zero, Finset.sum_const_zero, sub_zero] at h2
      rw [h2, hnm]
      ring
    · intro w
      rw [sq2_fold (g := fun p a => ∑ q ∈ range E, U.get [p, q] * ∑ q' ∈ range (E' k), amp4 l (bl a.1) (bl a.2) q q' * w q')
        (fun x y i a hi => hamp w i x y a hi), ← hun w, sq2_eq, sq2_eq]
      have := fro_iso (trunc_iso hv sA tr) (Matrix.of fun (q : Fin E) (a : Bits k × Bits k) =>
        ∑ q' ∈ range (E' k), amp4 l (bl a.1) (bl a.2) q q' * w q')
      rw [sqn_fro, sqn_fro, ← this]
      congr 2
      ext p a
      rw [Matrix.mul_apply, Matrix.of_apply, Finset.sum_range]
      rfl
    · intro _
      by_cases hk : 0 < k
      · exact hlast hk
      · obtain rfl : k = 0 := by omega
        obtain rfl : l = [] := List.length_eq_zero_iff.1 hlen
        obtain rfl : As = [] := List.length_eq_zero_iff.1 hAs
        have hS := hv s A _ _ sA
        have hb1 : E ≤ 1 := by
          have := bondDim_le (svd s A).S
          rw [hS.lenS] at this
          simp at this
          omega
        have hE1 : E = 1 := by omega
        refine ⟨by show E' 0 = 1; omega, ?_⟩
        have hz : z 0 = c.get [0, 0] := by
          have hpe : pe ((0, 0) : Bits 0 × Bits 0) = 0 := by simp [pe, enc_zero]
          have h3 := hsq
          simp only [lossSq, sq2] at h3
          rw [Finset.sum_eq_zero_iff_of_nonneg (fun _ _ => Finset.sum_nonneg fun _ _ => by positivity)] at h3
          have h4 := h3 0 (by simp [hE1])
          rw [Finset.sum_eq_zero_iff_of_nonneg (fun _ _ => by positivity)] at h4
          have h5 := h4 (0, 0) (Finset.mem_univ _)
          rw [hpe, e0, hE1] at h5
          simp [amp4] at h5
          exact (sub_eq_zero.1 h5).symm
        have hcut : cutoff < (svd s A).S.getD 0 0 :=
          (bondDim_iff hS.nonneg hS.desc (i := 0) (by rw [hS.lenS]; simp; omega)).1 (by omega)
        have hpos : (0 : ℝ) < cutoff := by norm_num [cutoff]
        have hz2 : z 0 = ((svd s A).S.getD 0 0 : ℝ) * star ((svd s A).V.get [0, 0]) := by
          rw [hz, tr.getR 0 0 (by omega) (by positivity)]
        refine ⟨⟨s, A, 2 * (2 * D), (svd s A).S.getD 0 0, by simpa using sA, by omega, by linarith, hz2⟩, ?_⟩
        have hV : ‖(svd s A).V.get [0, 0]‖ = 1 := by
          have h1 : min (2 * (2 * D)) (2 ^ 0 * 2 ^ 0) = 1 := by simp; omega
          have := hS.orthV
          rw [h1] at this
          have := congrFun (congrFun this 0) 0
          simp [Matrix.mul_apply, toMat, Complex.conj_mul'] at this
          rcases this with h | h
          · exact h
          · have h' : ‖(svd s A).V.get [0, 0]‖ = -1 := by exact_mod_cast h
            have := norm_nonneg ((svd s A).V.get [0, 0])
            linarith
        rw [hz2, norm_mul, norm_star, hV, mul_one, Complex.norm_real, Real.norm_eq_abs, abs_of_pos (by linarith)]
        have : (1e-8 : ℝ) = cutoff := by norm_num [cutoff]
        rwa [this]

theorem cutLoss_sq_le {svd : SVDOracle} (hv : ValidSVD svd) {A : Tensor ℂ} {m n : ℕ} (sA : A.shape = [m, n])
    (s : List (Tensor ℂ)) : cutLoss (svd s A).S ^ 2 ≤ (min m n : ℕ) * 1e-16 := by
  have h := hv s A m n sA
  have key : ∀ S : List ℝ, (∀ x ∈ S, 0 ≤ x) →
      ((S.filter (fun s => decide (s ≤ 1e-8))).map (fun s => s ^ 2)).sum ≤ (S.length : ℝ) * (1e-8 : ℝ) ^ 2 := by
    intro S hS
    induction S with
    | nil => simp
    | cons x S ih =>
      have ih := ih (fun y hy => hS y (by simp [hy]))
      have hx := hS x (by simp)
      by_cases hc : x ≤ 1e-8
      · rw [List.filter_cons_of_pos (by simpa using hc), List.map_cons, List.sum_cons, List.length_cons]
        push_cast
        have : x ^ 2 ≤ (1e-8 : ℝ) ^ 2 := by gcongr
        linarith
      · rw [List.filter_cons_of_neg (by simpa using hc), List.length_cons]
        push_cast
        nlinarith
  rw [cutLoss_sq]
  refine (key _ h.nonneg).trans ?_
  rw [h.lenS]
  norm_num

theorem min_le_of_mul {m n M : ℕ} (h : m * n ≤ M * M) : min m n ≤ M := by
  by_contra hc
  push Not at hc
  have h1 : M < m := hc.trans_le (min_le_left _ _)
  have h2 : M < n := hc.trans_le (min_le_right _ _)
  nlinarith

/-- The loss of a run, and when there is a result. -/
theorem rho_budget {svd : SVDOracle} (hv : ValidSVD svd) (N : ℕ) : ∀ (k D : ℕ) (r : Tensor ℂ)
    (s : List (Tensor ℂ)), 0 < D → D * 4 ^ k ≤ 4 ^ N → r.shape = [D, 2 ^ k * 2 ^ k] →
    (∀ ts As, Rho2MPS_loop svd k r s = (.ok ts, s ++ As) → lossSq svd s As ≤ k * (2 ^ N * 1e-16)) ∧
    (k * (2 ^ N * 1e-16) < sq2 D k (fun i c => r.get [i, pe c]) →
      ∃ ts As, Rho2MPS_loop svd k r s = (.ok ts, s ++ As)) ∧
    (∀ e s', Rho2MPS_loop svd k r s = (.error e, s') → e = .runtimeError) := by
  intro k
  induction k with
  | zero =>
    intro D r s hD hM hr
    have hrun : Rho2MPS_loop svd 0 r s = (.ok [], s) := rfl
    refine ⟨fun ts As h => ?_, fun _ => ⟨[], [], by simpa using hrun⟩, fun e s' h => ?_⟩
    · rw [hrun] at h
      obtain ⟨-, rfl⟩ : [] = ts ∧ As = [] := by simpa using h
      simp [lossSq]
    · rw [hrun] at h; simp at h
  | succ k ih =>
    intro D r s hD hM hr
    obtain ⟨A, sA, gA, h0, h1⟩ := rho_loop_step hv hD hr s
    have hsq : sq2 D (k + 1) (fun i c => r.get [i, pe c]) = sq2 (2 * (2 * D)) k (fun p a => A.get [p, pe a]) :=
      sq2_fold (fun x y i a hi => gA x y i a hi)
    have h4 : (2 : ℕ) ^ k * 2 ^ k = 4 ^ k := by rw [← mul_pow]; norm_num
    have h4N : (2 : ℕ) ^ N * 2 ^ N = 4 ^ N := by rw [← mul_pow]; norm_num
    have hcl : cutLoss (svd s A).S ^ 2 ≤ 2 ^ N * 1e-16 := by
      refine (cutLoss_sq_le hv sA s).trans ?_
      have : min (2 * (2 * D)) (2 ^ k * 2 ^ k) ≤ 2 ^ N := by
        apply min_le_of_mul
        rw [h4, h4N]
        calc 2 * (2 * D) * 4 ^ k = D * 4 ^ (k + 1) := by ring
          _ ≤ 4 ^ N := hM
      gcongr
      exact_mod_cast this
    push_cast
    by_cases hb : bondDim (svd s A).S = 0
    · refine ⟨fun ts As h => ?_, fun h => ?_, fun e s' h => ?_⟩
      · rw [h0 hb] at h; simp at h
      · exfalso
        have hall := all_cut hv sA hb
        have : sq2 (2 * (2 * D)) k (fun p a => A.get [p, pe a]) = cutLoss (svd s A).S ^ 2 := by
          rw [← hall, nrm, Real.sq_sqrt (Finset.sum_nonneg fun _ _ => Finset.sum_nonneg fun _ _ => by positivity)]
          unfold sq2
          exact Finset.sum_congr rfl fun i _ => (sum_pe k (fun j => ‖A.get [i, j]‖ ^ 2)).symm
        rw [hsq, this] at h
        have : (0 : ℝ) ≤ k * (2 ^ N * 1e-16) := by positivity
        linarith
      · rw [h0 hb] at h
        have h2 : (Except.error PyErr.runtimeError : Except PyErr (List (Tensor ℂ))) = .error e := congrArg Prod.fst h
        injection h2 with h2
        exact h2.symm
    · obtain ⟨U, c, t, tr, st, gt, he, hok⟩ := h1 hb
      have hE := Nat.pos_of_ne_zero hb
      have hEle : bondDim (svd s A).S ≤ 4 * D := by
        have := bondDim_le (svd s A).S
        rw [(hv s A _ _ sA).lenS] at this
        have := min_le_left (2 * (2 * D)) (2 ^ k * 2 ^ k)
        omega
      obtain ⟨i1, i2, i3⟩ := ih (bondDim (svd s A).S) c (s ++ [A]) hE (by
        calc bondDim (svd s A).S * 4 ^ k ≤ 4 * D * 4 ^ k := Nat.mul_le_mul_right _ hEle
          _ = D * 4 ^ (k + 1) := by ring
          _ ≤ 4 ^ N := hM) tr.shapeR
      have hpy := trunc_pyth4 hv sA tr (fun _ _ => 0)
      simp only [mul_zero, Finset.sum_const_zero, sub_zero] at hpy
      refine ⟨fun ts As h => ?_, fun h => ?_, fun e s' h => ?_⟩
      · rcases hl : Rho2MPS_loop svd k c (s ++ [A]) with ⟨e | l, s''⟩
        · rw [he _ _ hl] at h; simp at h
        · rw [hok _ _ hl] at h
          obtain ⟨-, hs''⟩ : t :: l = ts ∧ s'' = s ++ As := by simpa using h
          obtain ⟨E', Bs, z, hB, -⟩ := rho_canon hv k _ c _ _ _ hE tr.shapeR hl
          have hAB : As = A :: Bs := by
            rw [hB, List.append_assoc] at hs''
            exact (List.append_cancel_left hs'').symm
          subst hAB
          rw [hB] at hl
          have := i1 l Bs hl
          rw [lossSq, ← cutLoss_sq]
          linarith
      · obtain ⟨ts, As, e⟩ := i2 (by rw [hsq, hpy] at h; linarith)
        exact ⟨t :: ts, A :: As, by rw [hok _ _ e]; simp⟩
      · rcases hl : Rho2MPS_loop svd k c (s ++ [A]) with ⟨e' | l, s''⟩
        · rw [he _ _ hl] at h
          have h2 : (Except.error e' : Except PyErr (List (Tensor ℂ))) = .error e := congrArg Prod.fst h
          injection h2 with h2
          rw [← h2]
          exact i3 _ _ hl
        · rw [hok _ _ hl] at h; simp at h

/-! ## The textbook entries -/

theorem amp4_paths : ∀ (N : ℕ) (mps : List (Tensor ℂ)) (D : ℕ → ℕ), mps.length = N →
    (∀ (i : ℕ) (h : i < mps.length), mps[i].shape = [2, 2, D i, D (i + 1)]) →
    ∀ (a b : Bits N) (i j : ℕ), i < D 0 → j < D N → amp4 mps (bl a) (bl b) i j =
      ∑ k : ((i : Fin (N + 1)) → Fin (D i)), if (k 0 : ℕ) = i ∧ (k (Fin.last N) : ℕ) = j then
        ∏ i : Fin N, (mps.getD i (Tensor.zeros [])).get [(a i : ℕ), (b i : ℕ), (k i.castSucc : ℕ), (k i.succ : ℕ)]
        else 0 := by
  intro N
  induction N with
  | zero =>
    intro mps D hl _ a b i j hi hj
    obtain rfl := List.length_eq_zero_iff.1 hl
    simp only [amp4, Finset.univ_eq_empty, Finset.prod_empty]
    let e : ((i : Fin 1) → Fin (D i)) ≃ Fin (D 0) :=
      { toFun := fun k => k 0, invFun := fun x i => ⟨x, by obtain rfl : i = 0 := Subsingleton.elim _ _; exact x.2⟩,
        left_inv := fun k => by funext i; obtain rfl : i = 0 := Subsingleton.elim _ _; rfl,
        right_inv := fun x => rfl }
    refine Eq.trans ?_ (Fintype.sum_equiv e _ (fun x : Fin (D 0) => if (x : ℕ) = i ∧ (x : ℕ) = j then (1 : ℂ) else 0)
      (fun k => rfl)).symm
    by_cases h : i = j
    · subst h
      rw [Finset.sum_eq_single (⟨i, hi⟩ : Fin (D 0))]
      · simp
      · intro b _ hb
        rw [if_neg]
        rintro ⟨h, -⟩
        exact hb (Fin.ext h)
      · simp
    · rw [if_neg h, Finset.sum_eq_zero]
      intro x _
      rw [if_neg]
      rintro ⟨h1, h2⟩
      exact h (h1.symm.trans h2)
  | succ N ih =>
    intro mps D hl hs a b i j hi hj
    cases mps with
    | nil => simp at hl
    | cons t ts =>
      have hl' : ts.length = N := by simpa using hl
      have ht : t.shape = [2, 2, D 0, D 1] := hs 0 (by simp)
      have hs' : ∀ (i : ℕ) (h : i < ts.length), ts[i].shape = [2, 2, D (i + 1), D (i + 1 + 1)] :=
        fun i h => hs (i + 1) (by simpa using h)
      rw [bl_succ, bl_succ, amp4_cons ht]
      rw [Finset.sum_congr rfl (fun m hm => by
        rw [ih ts (fun i => D (i + 1)) hl' hs' (fun i => a i.succ) (fun i => b i.succ) m j (Finset.mem_range.1 hm) hj,
          Finset.mul_sum]), Finset.sum_comm]
      rw [← (Fin.consEquiv (fun i : Fin (N + 1 + 1) => Fin (D i))).sum_comp, Fintype.sum_prod_type]
      conv_rhs => rw [Finset.sum_comm]
      apply Finset.sum_congr rfl
      intro k _
      have hk := (k 0).isLt
      rw [Finset.sum_eq_single (k 0 : ℕ)]
      · refine Eq.trans ?_ (Finset.sum_eq_single (⟨i, hi⟩ : Fin (D ((0 : Fin (N + 1 + 1)) : ℕ))) ?_ ?_).symm
        · have e1 : (Fin.consEquiv (fun i : Fin (N + 1 + 1) => Fin (D i)) (⟨i, hi⟩, k)) 0 = ⟨i, hi⟩ := rfl
          have e2 : ∀ q : Fin (N + 1), (Fin.consEquiv (fun i : Fin (N + 1 + 1) => Fin (D i)) (⟨i, hi⟩, k)) q.succ = k q :=
            fun q => rfl
          rw [Fin.prod_univ_succ]
          have e3 : (Fin.last (N + 1)) = (Fin.last N).succ := rfl
          rw [e3, e2, Fin.castSucc_zero, e1, e2]
          have e4 : ∀ q : Fin N, (Fin.consEquiv (fun i : Fin (N + 1 + 1) => Fin (D i)) (⟨i, hi⟩, k)) q.succ.castSucc
              = k q.castSucc := fun q => rfl
          simp only [e2, e4]
          by_cases h : (k (Fin.last N) : ℕ) = j
          · rw [if_pos ⟨trivial, h⟩, if_pos ⟨trivial, h⟩]
            rfl
          · rw [if_neg (fun q => h q.2), if_neg (fun q => h q.2), mul_zero]
        · intro b _ hb
          rw [if_neg]
          rintro ⟨h, -⟩
          exact hb (Fin.ext h)
        · exact fun h => absurd (Finset.mem_univ _) h
      · intro m _ hm
        rw [if_neg (fun q => hm q.1.symm), mul_zero]
      · intro h
        exact absurd (Finset.mem_range.2 hk) h

theorem amp4_entry {mps : List (Tensor ℂ)} {D : ℕ → ℕ} (hl : mps.length = N) (h0 : D 0 = 1) (h1 : D N = 1)
    (hs : ∀ (i : ℕ) (h : i < mps.length), mps[i].shape = [2, 2, D i, D (i + 1)]) (a b : Bits N) :
    amp4 mps (bl a) (bl b) 0 0 = mpdoEntry mps D a b := by
  rw [amp4_paths N mps D hl hs a b 0 0 (by omega) (by omega)]
  unfold mpdoEntry
  apply Finset.sum_congr rfl
  intro k _
  rw [if_pos]
  constructor
  · have : (k 0 : ℕ) < D 0 := (k 0).isLt
    omega
  · have : (k (Fin.last N) : ℕ) < D N := (k (Fin.last N)).isLt
    omega

theorem chain4_of_dims : ∀ (mps : List (Tensor ℂ)) (D : ℕ → ℕ), (∀ i, 0 < D i) →
    (∀ (i : ℕ) (h : i < mps.length), mps[i].shape = [2, 2, D i, D (i + 1)]) →
    Chain4 (D 0) mps (D mps.length) := by
  intro mps
  induction mps with
  | nil => intro D _ _; rfl
  | cons t ts ih =>
    intro D hD hs
    exact ⟨hD 0, D 1, hs 0 (by simp), ih (fun i => D (i + 1)) (fun i => hD _)
      (fun i h => hs (i + 1) (by simpa using h))⟩

/-- No matrix product operator holds `r` with a bond smaller than the operator Schmidt rank. -/
theorem opRank_le {mps : List (Tensor ℂ)} {D : ℕ → ℕ} {r : QOp N} (h : HoldsOp mps D r) {k : ℕ} (hk : k < N) :
    opRank r k ≤ D k := by
  obtain ⟨hl, h0, h1, hp, hs, ha⟩ := h
  have hsplit : mps = mps.take k ++ mps.drop k := (List.take_append_drop k mps).symm
  have hlk : (mps.take k).length = k := by rw [List.length_take]; omega
  have c1 : Chain4 1 (mps.take k) (D k) := by
    have := chain4_of_dims (mps.take k) D hp (fun i h => by
      rw [List.getElem_take]; exact hs i (by simp at h; omega))
    rwa [h0, hlk] at this
  have e : opCut r k = (Matrix.of fun (a : Bits N × Bits N) (q : Fin (D k)) =>
        amp4 (mps.take k) ((bl a.1).take k) ((bl a.2).take k) 0 q) *
      (Matrix.of fun (q : Fin (D k)) (b : Bits N × Bits N) =>
        amp4 (mps.drop k) ((bl b.1).drop k) ((bl b.2).drop k) q 0) := by
    ext a b
    rw [opCut, ha, ← amp4_entry hl h0 h1 hs, bl_splice hk.le, bl_splice hk.le, Matrix.mul_apply]
    conv_lhs => rw [hsplit]
    rw [amp4_append c1 _ (by simp; omega) (by simp; omega) _ _ (by omega), Finset.sum_range]
    rfl
  rw [opRank, e]
  refine (Matrix.rank_mul_le_left _ _).trans ((Matrix.rank_le_card_width _).trans ?_)
  simp

theorem cutC4_rank {t : Tensor ℂ} {r : QOp N} (h : ∀ x y : Bits N, t.get [0, enc x * 2 ^ N + enc y] = r x y) (k : ℕ) :
    (cutC4 t 1 N k).rank ≤ opRank r k := by
  have e : cutC4 t 1 N k = (opCut r k).submatrix (fun p => p.2) id := by
    ext p b
    rw [Matrix.submatrix_apply, opCut, ← h]
    simp [cutC4, pe]
  rw [e]
  exact Matrix.rank_submatrix_le _ _ _

/-! ## Ranks of Kronecker products -/

open Kronecker in
theorem rank_kron {n : Type} [Fintype n] [DecidableEq n] (A B : Matrix n n ℂ) :
    (A ⊗ₖ B).rank = A.rank * B.rank := by
  classical
  obtain ⟨L, L', d, hA⟩ := Matrix.Pivot.exists_list_transvec_mul_diagonal_mul_list_transvec A
  obtain ⟨M, M', e, hB⟩ := Matrix.Pivot.exists_list_transvec_mul_diagonal_mul_list_transvec B
  have hu : ∀ L : List (TransvectionStruct n ℂ), IsUnit ((L.map TransvectionStruct.toMatrix).prod).det := by
    intro L; rw [TransvectionStruct.det_toMatrix_prod]; exact isUnit_one
  have key : ∀ (P Q : Matrix n n ℂ) (f : n → ℂ), IsUnit P.det → IsUnit Q.det →
      (P * diagonal f * Q).rank = Fintype.card {i // f i ≠ 0} := by
    intro P Q f hP hQ
    rw [Matrix.rank_mul_eq_left_of_isUnit_det _ _ hQ, Matrix.rank_mul_eq_right_of_isUnit_det _ _ hP, Matrix.rank_diagonal]
  have hk : ∀ (P Q : Matrix n n ℂ), IsUnit P.det → IsUnit Q.det → IsUnit (P ⊗ₖ Q).det := by
    intro P Q hP hQ
    rw [Matrix.det_kronecker]
    exact (hP.pow _).mul (hQ.pow _)
  rw [hA, hB, key _ _ _ (hu _) (hu _), key _ _ _ (hu _) (hu _), Matrix.mul_kronecker_mul, Matrix.mul_kronecker_mul,
    Matrix.rank_mul_eq_left_of_isUnit_det _ _ (hk _ _ (hu _) (hu _)),
    Matrix.rank_mul_eq_right_of_isUnit_det _ _ (hk _ _ (hu _) (hu _)), Matrix.diagonal_kronecker_diagonal,
    Matrix.rank_diagonal, ← Fintype.card_prod]
  refine Fintype.card_congr ⟨fun p => (⟨p.1.1, left_ne_zero_of_mul p.2⟩, ⟨p.1.2, right_ne_zero_of_mul p.2⟩),
    fun q => ⟨(q.1.1, q.2.1), mul_ne_zero q.1.2 q.2.2⟩, fun p => rfl, fun q => rfl⟩

open ComplexOrder in
theorem rank_conj {n : Type} [Fintype n] (A : Matrix n n ℂ) : (A.map star).rank = A.rank := by
  have : A.map star = Aᴴᵀ := rfl
  rw [this, Matrix.rank_transpose, Matrix.rank_conjTranspose]

/-- The operator Schmidt rank of a pure state is the square of its Schmidt rank. -/
theorem opRank_pure (v : QState N) (k : ℕ) :
    opRank (pureOp v) k = schmidtRank v k ^ 2 := by
  have e : opCut (pureOp v) k =
      Matrix.kroneckerMap (· * ·) (cutMat v k) ((cutMat v k).map star) := by
    ext p q
    rfl
  unfold opRank schmidtRank
  rw [e, sq, ← rank_conj (cutMat v k), rank_kron, rank_conj]

end QTN
