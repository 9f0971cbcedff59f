import Verif.SpecCut
import Verif.Lemmas.DecompRun
import Verif.Lemmas.MpsCircuit
import Verif.Lemmas.Holds

/-! # Schmidt ranks, canonical form and exact truncation error of `StateVec2MPS` -/

namespace QTN

open Finset Spec Matrix

variable {N : ℕ}

/-! ## Rank of cuts -/

theorem rank_le_of_mul {p q m n : Type*} [Fintype p] [Fintype q] [Fintype m] [Fintype n]
    (T : Matrix p m ℂ) (A : Matrix m n ℂ) (f : q → n) {B : Matrix p q ℂ}
    (h : B = T * A.submatrix id f) : B.rank ≤ A.rank := by
  rw [h]
  exact (Matrix.rank_mul_le_right _ _).trans (Matrix.rank_submatrix_le A id f)

/-- Rows: a row of the matrix and the first `j` bits of the column; columns: the other bits. -/
def cutC (c : Tensor ℂ) (D n j : ℕ) : Matrix (Fin D × Bits n) (Bits n) ℂ :=
  fun p b => c.get [(p.1 : ℕ), enc (splice j p.2 b)]

theorem enc_splice_cons {n : ℕ} (j : ℕ) (x y : Fin 2) (a b : Bits n) :
    enc (splice (j + 1) (Fin.cons x a : Bits (n + 1)) (Fin.cons y b : Bits (n + 1))) =
      (x : ℕ) * 2 ^ n + enc (splice j a b) := by
  rw [enc_succ]
  have e : (fun i : Fin n => splice (j + 1) (Fin.cons x a : Bits (n + 1)) (Fin.cons y b : Bits (n + 1)) i.succ) =
      splice j a b := by
    funext i
    simp [splice]
  rw [e]
  simp [splice]

theorem enc_cons {n : ℕ} (x : Fin 2) (a : Bits n) :
    enc (Fin.cons x a : Bits (n + 1)) = (x : ℕ) * 2 ^ n + enc a := by
  rw [enc_succ]; simp

theorem sum_bits_split {M : Type*} [AddCommMonoid M] {n : ℕ} (f : Bits (n + 1) → M) :
    ∑ a, f a = ∑ x : Fin 2, ∑ a : Bits n, f (Fin.cons x a : Bits (n + 1)) := by
  rw [← (Fin.consEquiv (fun _ : Fin (n + 1) => Fin 2)).sum_comp, Fintype.sum_prod_type]
  rfl

/-- The number of singular values above the cut-off is at most the rank. -/
theorem bondDim_le_rank {A : Tensor ℂ} {m n : ℕ} {o : SVDOut} (h : IsSVD A m n o) :
    bondDim o.S ≤ (toMat A m n).rank := by
  have hD : bondDim o.S ≤ min m n := by rw [← h.lenS]; exact bondDim_le _
  have e : (toMat o.U m (min m n))ᴴ * toMat A m n * toMat o.V n (min m n) =
      diagonal (fun r : Fin (min m n) => ((o.S.getD r 0 : ℝ) : ℂ)) := by
    rw [h.factor, Matrix.mul_assoc, Matrix.mul_assoc _ _ (toMat o.V n (min m n)), h.orthV, Matrix.mul_one,
      ← Matrix.mul_assoc, h.orthU, Matrix.one_mul]
  calc bondDim o.S = Fintype.card (Fin (bondDim o.S)) := (Fintype.card_fin _).symm
    _ ≤ Fintype.card {r : Fin (min m n) // ((o.S.getD r 0 : ℝ) : ℂ) ≠ 0} := by
        refine Fintype.card_le_of_injective
          (fun i => ⟨⟨i, i.isLt.trans_le hD⟩, ?_⟩) (fun i j hij => ?_)
        · have := (bondDim_iff h.nonneg h.desc (by rw [h.lenS]; exact i.isLt.trans_le hD)).1 i.isLt
          rw [Complex.ofReal_ne_zero]
          have hc : (0 : ℝ) < cutoff := by unfold cutoff; norm_num
          exact (hc.trans this).ne'
        · simpa [Fin.ext_iff] using hij
    _ = (diagonal (fun r : Fin (min m n) => ((o.S.getD r 0 : ℝ) : ℂ))).rank := (Matrix.rank_diagonal _).symm
    _ ≤ (toMat A m n).rank := by
        rw [← e]
        exact (Matrix.rank_mul_le_left _ _).trans (Matrix.rank_mul_le_right _ _)

/-! ## Squared norms -/

section sq
variable {l m n : Type} [Fintype l] [Fintype m] [Fintype n]

/-- Sum of the squared absolute values of the entries. -/
noncomputable def sqn (X : Matrix m n ℂ) : ℝ := ∑ i, ∑ j, ‖X i j‖ ^ 2

theorem sqn_fro (X : Matrix m n ℂ) : sqn X = fro X ^ 2 := by
  unfold fro sqn
  rw [Real.sq_sqrt (Finset.sum_nonneg fun _ _ => Finset.sum_nonneg fun _ _ => by positivity)]

theorem sqn_add {X Y : Matrix m n ℂ} (h : Xᴴ * Y = 0) : sqn (X + Y) = sqn X + sqn Y := by
  apply Complex.ofReal_injective
  have h' : Yᴴ * X = 0 := by
    have := congrArg Matrix.conjTranspose h
    rwa [Matrix.conjTranspose_mul, Matrix.conjTranspose_conjTranspose, Matrix.conjTranspose_zero] at this
  push_cast [sqn]
  have e := fro_sq (X + Y)
  have e1 := fro_sq X
  have e2 := fro_sq Y
  push_cast at e e1 e2
  rw [e, e1, e2, Matrix.conjTranspose_add, Matrix.add_mul, Matrix.mul_add, Matrix.mul_add, h, h']
  simp

/-- Projecting on the columns of an isometry. -/
theorem sqn_proj [DecidableEq m] {U : Matrix l m ℂ} (hU : Uᴴ * U = 1) (A : Matrix l n ℂ) (R : Matrix m n ℂ) :
    sqn (A - U * R) = sqn (A - U * (Uᴴ * A)) + sqn (Uᴴ * A - R) := by
  have e : A - U * R = (A - U * (Uᴴ * A)) + U * (Uᴴ * A - R) := by
    rw [Matrix.mul_sub]; abel
  rw [e, sqn_add, sqn_fro (U * _), fro_iso hU, ← sqn_fro]
  rw [Matrix.conjTranspose_sub, Matrix.conjTranspose_mul, Matrix.conjTranspose_mul,
    Matrix.conjTranspose_conjTranspose, Matrix.sub_mul, Matrix.mul_assoc _ Uᴴ, ← Matrix.mul_assoc Uᴴ, hU,
    Matrix.one_mul, ← Matrix.mul_assoc, sub_self]

end sq

/-- Sum of the squared absolute values of a block with rows `i < D` and columns given by bits. -/
noncomputable def sqr (D n : ℕ) (f : ℕ → Bits n → ℂ) : ℝ := ∑ i ∈ range D, ∑ a, ‖f i a‖ ^ 2

theorem sqr_eq (D n : ℕ) (f : ℕ → Bits n → ℂ) :
    sqr D n f = sqn (Matrix.of fun (i : Fin D) (a : Bits n) => f i a) := by
  unfold sqr sqn
  rw [Finset.sum_range]
  rfl

theorem sqr_congr {D n : ℕ} {f g : ℕ → Bits n → ℂ} (h : ∀ i < D, ∀ a, f i a = g i a) :
    sqr D n f = sqr D n g := by
  unfold sqr
  refine Finset.sum_congr rfl fun i hi => Finset.sum_congr rfl fun a _ => ?_
  rw [h i (Finset.mem_range.1 hi)]

/-- Moving the leading column bit to the rows. -/
theorem sqr_fold {D n : ℕ} {f : ℕ → Bits (n + 1) → ℂ} {g : ℕ → Bits n → ℂ}
    (h : ∀ (x : Fin 2) (i : ℕ) (a : Bits n), i < D → f i (Fin.cons x a : Bits (n + 1)) = g (x * D + i) a) :
    sqr D (n + 1) f = sqr (2 * D) n g := by
  unfold sqr
  rw [sum_stack D, Finset.sum_range (n := 2), Finset.sum_comm (s := univ)]
  refine Finset.sum_congr rfl fun i hi => ?_
  rw [sum_bits_split]
  refine Finset.sum_congr rfl fun x _ => Finset.sum_congr rfl fun a _ => ?_
  rw [h x i a (Finset.mem_range.1 hi)]

theorem cutLoss_sq (S : List ℝ) :
    cutLoss S ^ 2 = ((S.filter (fun s => decide (s ≤ 1e-8))).map (fun s => s ^ 2)).sum := by
  unfold cutLoss
  rw [Real.sq_sqrt]
  apply List.sum_nonneg
  intro x hx
  obtain ⟨y, -, rfl⟩ := List.mem_map.1 hx
  positivity

/-- The error of one truncation is orthogonal to everything that follows. -/
theorem trunc_pyth {svd : SVDOracle} (hv : ValidSVD svd) {A U r : Tensor ℂ} {m n : ℕ}
    {s : List (Tensor ℂ)} (hA : A.shape = [m, 2 ^ n]) (t : Trunc A m (2 ^ n) (svd s A) U r)
    (R : ℕ → Bits n → ℂ) :
    sqr m n (fun p a => A.get [p, enc a] - ∑ q ∈ range (bondDim (svd s A).S), U.get [p, q] * R q a) =
      cutLoss (svd s A).S ^ 2 +
        sqr (bondDim (svd s A).S) n (fun q a => r.get [q, enc a] - R q a) := by
  set E := bondDim (svd s A).S with hE
  set MA : Matrix (Fin m) (Bits n) ℂ := fun p a => A.get [(p : ℕ), enc a] with hMA
  set MR : Matrix (Fin E) (Bits n) ℂ := fun q a => R q a with hMR
  have hr : (toMat U m E)ᴴ * MA = Matrix.of fun (q : Fin E) (a : Bits n) => r.get [(q : ℕ), enc a] := by
    ext q a
    rw [Matrix.mul_apply, Matrix.of_apply, trunc_remainder hv hA t q.isLt (enc_lt a), Finset.sum_range]
    refine Finset.sum_congr rfl fun i _ => ?_
    rw [Matrix.conjTranspose_apply, toMat, t.getU _ _ i.isLt q.isLt]
  have h := sqn_proj (trunc_iso hv hA t) MA MR
  rw [hr] at h
  have e1 : sqr m n (fun p a => A.get [p, enc a] - ∑ q ∈ range E, U.get [p, q] * R q a) =
      sqn (MA - toMat U m E * MR) := by
    rw [sqr_eq]
    congr 1
    ext p a
    rw [Matrix.sub_apply, Matrix.mul_apply, Matrix.of_apply, Finset.sum_range]
    rfl
  have e2 : sqn (MA - toMat U m E * Matrix.of fun (q : Fin E) (a : Bits n) => r.get [(q : ℕ), enc a]) =
      cutLoss (svd s A).S ^ 2 := by
    rw [← trunc_nrm hv hA t, nrm, Real.sq_sqrt (Finset.sum_nonneg fun _ _ => Finset.sum_nonneg fun _ _ => by positivity),
      Finset.sum_range, sqn]
    refine Finset.sum_congr rfl fun p _ => ?_
    rw [sum_enc]
    refine Finset.sum_congr rfl fun a _ => ?_
    rw [Matrix.sub_apply, Matrix.mul_apply, Finset.sum_range]
    rfl
  rw [e1, h, e2, sqr_eq]
  rfl

/-- An isometry does not change the norm. -/
theorem trunc_sqr {svd : SVDOracle} (hv : ValidSVD svd) {A U r : Tensor ℂ} {m n l : ℕ}
    {s : List (Tensor ℂ)} (hA : A.shape = [m, l]) (t : Trunc A m l (svd s A) U r)
    (R : ℕ → Bits n → ℂ) :
    sqr m n (fun p a => ∑ q ∈ range (bondDim (svd s A).S), U.get [p, q] * R q a) =
      sqr (bondDim (svd s A).S) n R := by
  rw [sqr_eq, sqr_eq]
  have := fro_iso (trunc_iso hv hA t) (Matrix.of fun (q : Fin (bondDim (svd s A).S)) (a : Bits n) => R q a)
  rw [sqn_fro, sqn_fro, ← this]
  congr 2
  ext p a
  rw [Matrix.mul_apply, Matrix.of_apply, Finset.sum_range]
  rfl

/-! ## The loop -/

/-- What `StateVec2MPS` returns on a `D × 2^(k+1)` matrix. -/
theorem loop_canon {svd : SVDOracle} (hv : ValidSVD svd) : ∀ (k D : ℕ) (c : Tensor ℂ)
    (s lst s' : List (Tensor ℂ)), 0 < D → c.shape = [D, 2 ^ (k + 1)] →
    StateVec2MPS_loop svd (k + 1) c s = (.ok lst, s') →
    ∃ (E : ℕ → ℕ) (As : List (Tensor ℂ)), s' = s ++ As ∧ As.length = k ∧ lst.length = k + 1 ∧ Chain D lst 1 ∧
      E 0 = D ∧ E (k + 1) = 1 ∧ (∀ j, 0 < E j) ∧
      (∀ (i : ℕ) (h : i < lst.length), lst[i].shape = [2, E i, E (i + 1)]) ∧
      (∀ (i : ℕ) (h : i < lst.length), i < k → ∀ p q, p < E (i + 1) → q < E (i + 1) →
        ∑ x ∈ range 2, ∑ y ∈ range (E i), star (lst[i].get [x, y, p]) * lst[i].get [x, y, q] =
          if p = q then 1 else 0) ∧
      (∀ j, 0 < j → j < k + 1 → E j ≤ (cutC c D (k + 1) j).rank) ∧
      sqr D (k + 1) (fun i a => c.get [i, enc a] - amp lst (bl a) i 0) = lossSq svd s As ∧
      sqr D (k + 1) (fun i a => c.get [i, enc a]) =
        sqr D (k + 1) (fun i a => amp lst (bl a) i 0) + lossSq svd s As := by
  intro k
  induction k with
  | zero =>
    intro D c s lst s' hD hc h
    obtain ⟨t, et, st, gt⟩ := loop_last svd (c := c) (by simpa using hc) s
    rw [et] at h
    obtain ⟨rfl, rfl⟩ : [t] = lst ∧ s = s' := by simpa using h
    have ha : ∀ i < D, ∀ a : Bits 1, c.get [i, enc a] = amp [t] (bl a) i 0 := by
      intro i hi a
      rw [bl_one, amp_single st _ _ (by omega), gt _ _ (a 0).isLt hi, enc_one]
    refine ⟨fun j => if j = 0 then D else 1, [], by simp, rfl, rfl, ⟨hD, 1, st, rfl⟩, rfl, rfl, ?_, ?_, ?_, ?_, ?_, ?_⟩
    · intro j; beta_reduce; split <;> omega
    · intro i hi
      obtain rfl : i = 0 := by simpa using hi
      simpa using st
    · intro i _ hi; omega
    · intro j h1 h2; omega
    · rw [sqr_congr (g := fun _ _ => 0) (fun i hi a => by rw [ha i hi, sub_self])]
      simp [sqr, lossSq]
    · rw [sqr_congr ha]
      simp [lossSq]
  | succ k ih =>
    intro D c s lst s' hD hc h
    have hp : 0 < 2 ^ (k + 1) := by positivity
    obtain ⟨A, sA, gA, h0, h1, -⟩ := loop_step (c := c) (k := k) hv hD (by rw [hc]; congr 2; ring) s
    by_cases hb : bondDim (svd s A).S = 0
    · rw [h0 hb] at h; simp at h
    obtain ⟨U, r, t, tr, st, gt, he, hok⟩ := h1 hb
    have hE := Nat.pos_of_ne_zero hb
    rcases hr : StateVec2MPS_loop svd (k + 1) r (s ++ [A]) with ⟨e | l, s''⟩
    · rw [he _ _ hr] at h; simp at h
    rw [hok _ _ hr] at h
    obtain ⟨rfl, rfl⟩ : t :: l = lst ∧ s'' = s' := by simpa using h
    obtain ⟨E', As, rfl, hAs, hl, hch, e0, e1, hpos, hs, hiso, hrk, hsq, hnm⟩ := ih _ r _ _ _ hE tr.shapeR hr
    set E := bondDim (svd s A).S with hEdef
    have hamp : ∀ i (x : Fin 2) (a : Bits (k + 1)), i < D →
        amp (t :: l) (bl (Fin.cons x a : Bits (k + 2))) i 0 =
          ∑ q ∈ range E, U.get [x * D + i, q] * amp l (bl a) q 0 := by
      intro i x a hi
      rw [bl_succ, amp_cons st]
      refine Finset.sum_congr rfl fun q hq => ?_
      simp only [Fin.cons_zero, Fin.cons_succ]
      rw [gt _ _ _ x.isLt hi (Finset.mem_range.1 hq)]
    have hcA : ∀ i (x : Fin 2) (a : Bits (k + 1)), i < D →
        c.get [i, enc (Fin.cons x a : Bits (k + 2))] = A.get [x * D + i, enc a] := by
      intro i x a hi
      rw [enc_cons, gA _ _ _ x.isLt hi (enc_lt a)]
    have hfold : sqr D (k + 2) (fun i a => c.get [i, enc a]) = sqr (2 * D) (k + 1) (fun p a => A.get [p, enc a]) :=
      sqr_fold (fun x i a hi => hcA i x a hi)
    refine ⟨fun j => match j with | 0 => D | j + 1 => E' j, A :: As, by simp, by simp [hAs], by simp [hl],
      ⟨hD, E, st, hch⟩, rfl, e1, ?_, ?_, ?_, ?_, ?_, ?_⟩
    · intro j
      cases j
      · exact hD
      · exact hpos _
    · intro i hi
      cases i with
      | zero => simpa [e0] using st
      | succ i => simpa using hs i (by simpa using hi)
    · intro i hi hik p q hp' hq'
      cases i with
      | succ i => simpa using hiso i (by simpa using hi) (by omega) p q hp' hq'
      | zero =>
        simp only [e0] at hp' hq'
        have ho := congrFun (congrFun (trunc_iso hv sA tr) ⟨p, hp'⟩) ⟨q, hq'⟩
        rw [Matrix.mul_apply, Matrix.one_apply] at ho
        simp only [Fin.mk.injEq] at ho
        have ho' : ∑ i ∈ range (2 * D), star (U.get [i, p]) * U.get [i, q] = if p = q then 1 else 0 := by
          rw [← ho, Finset.sum_range]
          rfl
        rw [← ho', sum_stack]
        refine Finset.sum_congr rfl fun x hx => Finset.sum_congr rfl fun y hy => ?_
        rw [List.getElem_cons_zero, gt _ _ _ (Finset.mem_range.1 hx) (Finset.mem_range.1 hy) hp',
          gt _ _ _ (Finset.mem_range.1 hx) (Finset.mem_range.1 hy) hq']
    · intro j hj hjk
      obtain ⟨j, rfl⟩ : ∃ i, j = i + 1 := ⟨j - 1, by omega⟩
      rcases Nat.eq_zero_or_pos j with rfl | hj
      · -- the first cut
        show E' 0 ≤ _
        rw [e0]
        refine (bondDim_le_rank (hv s A _ _ sA)).trans ?_
        have hq : ∀ p : Fin (2 * D), (p : ℕ) / D < 2 := fun p => by
          rw [Nat.div_lt_iff_lt_mul hD]; exact p.isLt
        have hm : ∀ p : Fin (2 * D), (p : ℕ) % D < D := fun p => Nat.mod_lt _ hD
        choose d hd using fun y : Fin (2 ^ (k + 1)) => exists_enc y.isLt
        have e : toMat A (2 * D) (2 ^ (k + 1)) = (cutC c D (k + 2) 1).submatrix
            (fun p : Fin (2 * D) => (⟨(p : ℕ) % D, hm p⟩, (Fin.cons ⟨(p : ℕ) / D, hq p⟩ (fun _ => 0) : Bits (k + 2))))
            (fun y : Fin (2 ^ (k + 1)) => (Fin.cons 0 (d y) : Bits (k + 2))) := by
          ext p y
          rw [Matrix.submatrix_apply, cutC]
          dsimp only
          rw [enc_splice_cons, show splice 0 (fun _ => 0) (d y) = d y from by funext i; simp [splice], ← hd y,
            ← gA _ _ _ (hq p) (hm p) y.isLt]
          rw [Nat.div_add_mod' (p : ℕ) D]
          rfl
        rw [e]
        exact Matrix.rank_submatrix_le _ _ _
      · -- the later cuts
        show E' j ≤ _
        refine (hrk j hj (by omega)).trans ?_
        refine rank_le_of_mul (Matrix.of fun (q : Fin E × Bits (k + 1)) (p : Fin D × Bits (k + 2)) => if (fun i => p.2 (Fin.succ i)) = q.2 then
          star (U.get [(p.2 0 : ℕ) * D + p.1, (q.1 : ℕ)]) else 0) _
          (fun b : Bits (k + 1) => (Fin.cons 0 b : Bits (k + 2))) ?_
        ext q b
        rw [Matrix.mul_apply, Fintype.sum_prod_type, cutC]
        rw [trunc_remainder hv sA tr q.1.isLt (enc_lt _), sum_stack, Finset.sum_comm, Finset.sum_range]
        refine Finset.sum_congr rfl fun i _ => ?_
        rw [sum_bits_split, Finset.sum_range]
        refine Finset.sum_congr rfl fun x _ => ?_
        rw [Finset.sum_eq_single q.2]
        · simp only [Matrix.of_apply, Fin.cons_succ, Fin.cons_zero, if_true]
          rw [Matrix.submatrix_apply, cutC]
          dsimp only [id]
          rw [enc_splice_cons, gA _ _ _ x.isLt i.isLt (enc_lt _), tr.getU _ _ (by
            have := x.isLt; have := i.isLt; nlinarith) q.1.isLt]
        · intro a _ hne
          simp only [Matrix.of_apply, Fin.cons_succ]
          rw [if_neg hne, zero_mul]
        · intro hno; exact absurd (Finset.mem_univ _) hno
    · rw [lossSq, ← cutLoss_sq, ← hsq, ← trunc_pyth hv sA tr]
      exact sqr_fold (fun x i a hi => by rw [hcA i x a hi, hamp i x a hi])
    · rw [hfold, lossSq, ← cutLoss_sq]
      have h2 := trunc_pyth hv sA tr (fun _ _ => 0)
      simp only [mul_zero, Finset.sum_const_zero, sub_zero] at h2
      rw [h2, hnm, sqr_fold (g := fun p a => ∑ q ∈ range E, U.get [p, q] * amp l (bl a) q 0)
        (fun x i a hi => hamp i x a hi), trunc_sqr hv sA tr]
      ring

/-! ## Lower bound -/

theorem bl_splice {k : ℕ} (hk : k ≤ N) (a b : Bits N) : bl (splice k a b) = (bl a).take k ++ (bl b).drop k := by
  apply List.ext_getElem
  · simp; omega
  · intro n h1 h2
    simp at h1
    rw [bl_getElem]
    by_cases hn : n < k
    · rw [List.getElem_append_left (by simp; omega)]
      simp [splice, hn, bl]
    · rw [List.getElem_append_right (by simp; omega)]
      simp [splice, hn, List.getElem_drop, bl_getElem]
      have : k + (n - k) = n := by omega
      simp [this, Nat.min_eq_left hk]

theorem chain_dim {r m : ℕ} {ss : List (Tensor ℂ)} {t : Tensor ℂ} {ts : List (Tensor ℂ)}
    (h' : Chain m (t :: ts) r) : ∀ {D : ℕ → ℕ}, (∀ (i : ℕ) (h : i < (ss ++ t :: ts).length),
    (ss ++ t :: ts)[i].shape = [2, D i, D (i + 1)]) → m = D ss.length := by
  intro D hs
  obtain ⟨-, q, ht, -⟩ := h'
  have := hs ss.length (by simp)
  rw [List.getElem_append_right le_rfl] at this
  simp [ht] at this
  exact this.1

/-- No matrix product state of `v` has a bond smaller than the Schmidt rank. -/
theorem schmidt_le {mps : List (Tensor ℂ)} {v : QState N} (h : IsMPS mps v) {D : ℕ → ℕ}
    (hs : ∀ (i : ℕ) (h : i < mps.length), mps[i].shape = [2, D i, D (i + 1)]) {k : ℕ} (hk : k < N) :
    schmidtRank v k ≤ D k := by
  obtain ⟨hl, hc, ha⟩ := h
  have hsplit : mps = mps.take k ++ mps.drop k := (List.take_append_drop k mps).symm
  have hc' := hc
  rw [hsplit] at hc'
  obtain ⟨m, c1, c2⟩ := chain_split hc'
  have hD : m = D k := by
    rcases hd : mps.drop k with _ | ⟨t, ts⟩
    · have := congrArg List.length hd
      simp at this; omega
    · rw [hd] at c2
      have hs' := hs
      rw [hsplit, hd] at hs'
      have := chain_dim c2 hs'
      rwa [List.length_take, Nat.min_eq_left (by omega)] at this
  have e : cutMat v k = (Matrix.of fun (a : Bits N) (q : Fin m) => amp (mps.take k) ((bl a).take k) 0 q) *
      (Matrix.of fun (q : Fin m) (b : Bits N) => amp (mps.drop k) ((bl b).drop k) q 0) := by
    ext a b
    rw [cutMat, ← ha, bl_splice hk.le, Matrix.mul_apply]
    conv_lhs => rw [hsplit]
    rw [amp_append c1 _ (by simp; omega) _ (by omega), Finset.sum_range]
    rfl
  rw [schmidtRank, e, ← hD]
  refine (Matrix.rank_mul_le_left _ _).trans ((Matrix.rank_le_card_width _).trans ?_)
  simp

theorem cutC_rank {psi : Tensor ℂ} (k : ℕ) :
    (cutC psi 1 N k).rank ≤ schmidtRank (fun a : Bits N => psi.get [0, enc a]) k := by
  have e : cutC psi 1 N k = (cutMat (fun a : Bits N => psi.get [0, enc a]) k).submatrix (fun p => p.2) id := by
    ext p b
    simp [cutC, cutMat]
  rw [e]
  exact Matrix.rank_submatrix_le _ _ _

end QTN
