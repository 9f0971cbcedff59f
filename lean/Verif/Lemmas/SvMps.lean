import Verif.Lemmas.Decomp
import Verif.Lemmas.MpsVec
import Verif.Lemmas.MpsOps
import Mathlib.Analysis.InnerProductSpace.PiL2

/-! # From state vectors to matrix product states -/

namespace QTN

open Finset Spec Matrix

/-! ## Frobenius norm -/

/-- Frobenius norm. -/
noncomputable def fro {m n : Type} [Fintype m] [Fintype n] (X : Matrix m n ℂ) : ℝ :=
  Real.sqrt (∑ i, ∑ j, ‖X i j‖ ^ 2)

section fro
variable {l m n : Type} [Fintype l] [Fintype m] [Fintype n]

theorem fro_eq (X : Matrix m n ℂ) :
    fro X = ‖(WithLp.toLp 2 (fun p : m × n => X p.1 p.2) : EuclideanSpace ℂ (m × n))‖ := by
  rw [EuclideanSpace.norm_eq]
  unfold fro
  rw [Fintype.sum_prod_type]

theorem fro_add_le (X Y : Matrix m n ℂ) : fro (X + Y) ≤ fro X + fro Y := by
  simp only [fro_eq]
  have := norm_add_le (WithLp.toLp 2 (fun p : m × n => X p.1 p.2) : EuclideanSpace ℂ (m × n))
    (WithLp.toLp 2 (fun p : m × n => Y p.1 p.2))
  exact this

theorem fro_sq (X : Matrix m n ℂ) : ((∑ i, ∑ j, ‖X i j‖ ^ 2 : ℝ) : ℂ) = (Xᴴ * X).trace := by
  simp only [Matrix.trace, Matrix.diag, Matrix.mul_apply, Matrix.conjTranspose_apply]
  push_cast
  rw [Finset.sum_comm]
  apply Finset.sum_congr rfl; intro j _
  apply Finset.sum_congr rfl; intro i _
  rw [← Complex.conj_mul']
  rfl

theorem fro_congr {m' n' : Type} [Fintype m'] [Fintype n'] {X : Matrix m n ℂ} {Y : Matrix m' n' ℂ}
    (h : (Xᴴ * X).trace = (Yᴴ * Y).trace) : fro X = fro Y := by
  unfold fro
  rw [← fro_sq, ← fro_sq] at h
  rw [Complex.ofReal_injective h]

theorem fro_iso [DecidableEq m] {U : Matrix l m ℂ} (hU : Uᴴ * U = 1) (X : Matrix m n ℂ) :
    fro (U * X) = fro X := by
  apply fro_congr
  rw [Matrix.conjTranspose_mul, Matrix.mul_assoc, ← Matrix.mul_assoc Uᴴ, hU, Matrix.one_mul]

theorem fro_svd [DecidableEq m] {U : Matrix l m ℂ} (hU : Uᴴ * U = 1) {V : Matrix n m ℂ} (hV : Vᴴ * V = 1)
    (d : m → ℝ) : fro (U * diagonal (fun r => (d r : ℂ)) * Vᴴ) = Real.sqrt (∑ r, d r ^ 2) := by
  rw [Matrix.mul_assoc, fro_iso hU]
  unfold fro
  congr 1
  apply Complex.ofReal_injective
  rw [fro_sq, Matrix.conjTranspose_mul, Matrix.conjTranspose_conjTranspose, Matrix.diagonal_conjTranspose,
    Matrix.trace_mul_comm, Matrix.mul_assoc, ← Matrix.mul_assoc Vᴴ, hV, Matrix.one_mul,
    Matrix.diagonal_mul_diagonal, Matrix.trace_diagonal]
  push_cast
  apply Finset.sum_congr rfl
  intro r _
  simp [sq]

end fro

/-! ## The truncated decomposition as matrices -/

theorem cutLoss_eq {S : List ℝ} (h0 : ∀ s ∈ S, 0 ≤ s) (hd : S.Pairwise (· ≥ ·)) {k : ℕ} (hk : S.length = k) :
    cutLoss S = Real.sqrt (∑ r : Fin k, (if (r : ℕ) < bondDim S then (0 : ℝ) else S.getD r 0) ^ 2) := by
  subst hk
  unfold cutLoss
  congr 1
  have h1 : ∀ r : Fin S.length, (if (r : ℕ) < bondDim S then (0 : ℝ) else S.getD r 0) ^ 2 =
      if S[(r : ℕ)] ≤ 1e-8 then S[(r : ℕ)] ^ 2 else 0 := by
    intro r
    have hb := bondDim_iff h0 hd r.isLt
    have e : S.getD (r : ℕ) 0 = S[(r : ℕ)] := by simp
    rw [e] at hb ⊢
    by_cases hc : S[(r : ℕ)] ≤ 1e-8
    · rw [if_neg (by rw [hb]; simpa [cutoff] using hc), if_pos hc]
    · rw [if_pos (by rw [hb]; simpa [cutoff] using hc), if_neg hc]; simp
  simp only [h1]
  rw [Fin.sum_univ_fun_getElem S (fun s => if s ≤ 1e-8 then s ^ 2 else 0)]
  clear h0 hd h1
  induction S with
  | nil => simp
  | cons s S ih =>
    by_cases hs : s ≤ 1e-8
    · simp [hs, ih]
    · simp [hs, ih]

theorem trunc_iso {svd : SVDOracle} (hv : ValidSVD svd) {A U r : Tensor ℂ} {m n : ℕ} {s : List (Tensor ℂ)}
    (hA : A.shape = [m, n]) (t : Trunc A m n (svd s A) U r) :
    (toMat U m (bondDim (svd s A).S))ᴴ * toMat U m (bondDim (svd s A).S) = 1 := by
  have h := hv s A m n hA
  have hD : bondDim (svd s A).S ≤ min m n := by rw [← h.lenS]; exact bondDim_le _
  ext k q
  rw [Matrix.mul_apply, Matrix.one_apply]
  simp only [Matrix.conjTranspose_apply, toMat]
  have := svd_orthU h (r := k) (q := q) (by omega) (by omega)
  rw [Finset.sum_range] at this
  rw [show (if k = q then (1 : ℂ) else 0) = if (k : ℕ) = (q : ℕ) then 1 else 0 by simp only [Fin.val_inj],
    ← this]
  apply Finset.sum_congr rfl
  intro i _
  rw [t.getU _ _ i.isLt k.isLt, t.getU _ _ i.isLt q.isLt]

theorem trunc_loss {svd : SVDOracle} (hv : ValidSVD svd) {A U r : Tensor ℂ} {m n : ℕ} {s : List (Tensor ℂ)}
    (hA : A.shape = [m, n]) (t : Trunc A m n (svd s A) U r) :
    fro (toMat A m n - toMat U m (bondDim (svd s A).S) * toMat r (bondDim (svd s A).S) n) =
      cutLoss (svd s A).S := by
  have h := hv s A m n hA
  have hD : bondDim (svd s A).S ≤ min m n := by rw [← h.lenS]; exact bondDim_le _
  set o := svd s A with ho
  set D := bondDim o.S with hDdef
  rw [cutLoss_eq h.nonneg h.desc h.lenS, ← fro_svd h.orthU h.orthV]
  congr 1
  rw [h.factor]
  ext i j
  rw [Matrix.sub_apply, Matrix.mul_apply, Matrix.mul_apply, Matrix.mul_apply]
  simp only [Matrix.mul_diagonal, Matrix.conjTranspose_apply, toMat]
  have e : ∑ x : Fin D, U.get [(i : ℕ), (x : ℕ)] * r.get [(x : ℕ), (j : ℕ)] =
      ∑ x : Fin (min m n), if (x : ℕ) < D then
        o.U.get [(i : ℕ), (x : ℕ)] * ((o.S.getD x 0 : ℝ) : ℂ) * star (o.V.get [(j : ℕ), (x : ℕ)]) else 0 := by
    rw [← Finset.sum_range (fun x => U.get [(i : ℕ), x] * r.get [x, (j : ℕ)]),
      ← Finset.sum_range (fun x => if x < D then
        o.U.get [(i : ℕ), x] * ((o.S.getD x 0 : ℝ) : ℂ) * star (o.V.get [(j : ℕ), x]) else 0)]
    rw [← Finset.sum_subset (Finset.range_mono hD)]
    · apply Finset.sum_congr rfl
      intro x hx
      have hx := Finset.mem_range.1 hx
      rw [if_pos hx, t.getU _ _ i.isLt hx, t.getR _ _ hx j.isLt]
      ring
    · intro x _ hx
      rw [if_neg (by simpa using hx)]
  rw [e, ← Finset.sum_sub_distrib]
  apply Finset.sum_congr rfl
  intro x _
  by_cases hx : (x : ℕ) < D
  · rw [if_pos hx, if_pos hx]; simp
  · rw [if_neg hx, if_neg hx]; simp

/-! ## The loop -/

/-- Euclidean norm of a block of numbers. -/
noncomputable def nrm (m n : ℕ) (f : ℕ → ℕ → ℂ) : ℝ :=
  Real.sqrt (∑ i ∈ range m, ∑ j ∈ range n, ‖f i j‖ ^ 2)

theorem nrm_eq (m n : ℕ) (f : ℕ → ℕ → ℂ) : nrm m n f = fro (fun (i : Fin m) (j : Fin n) => f i j) := by
  unfold nrm fro
  rw [Finset.sum_range]
  congr 1
  apply Finset.sum_congr rfl
  intro i _
  rw [Finset.sum_range]

theorem nrm_congr {m n : ℕ} {f g : ℕ → ℕ → ℂ} (h : ∀ i < m, ∀ j < n, f i j = g i j) :
    nrm m n f = nrm m n g := by
  unfold nrm
  congr 1
  apply Finset.sum_congr rfl
  intro i hi
  apply Finset.sum_congr rfl
  intro j hj
  rw [h i (Finset.mem_range.1 hi) j (Finset.mem_range.1 hj)]

/-- Moving the leading column bit to the rows. -/
theorem nrm_fold {D n : ℕ} {f g : ℕ → ℕ → ℂ}
    (h : ∀ x i j, x < 2 → i < D → j < n → f i (x * n + j) = g (x * D + i) j) :
    nrm D (2 * n) f = nrm (2 * D) n g := by
  unfold nrm
  congr 1
  rw [sum_stack D, Finset.sum_comm (s := range 2)]
  apply Finset.sum_congr rfl
  intro i hi
  rw [sum_stack]
  apply Finset.sum_congr rfl
  intro x hx
  apply Finset.sum_congr rfl
  intro j hj
  rw [h x i j (Finset.mem_range.1 hx) (Finset.mem_range.1 hi) (Finset.mem_range.1 hj)]

theorem TNM.Mono.svLoop (svd : SVDOracle) (k : ℕ) : ∀ c, TNM.Mono (StateVec2MPS_loop svd k c) := by
  induction k with
  | zero => intro c; exact TNM.Mono.pure _
  | succ k ih =>
    intro c
    unfold StateVec2MPS_loop
    exact (TNM.Mono.lift _).bind (fun c => TNM.Mono.ite ((TNM.Mono.lift _).bind (fun _ => TNM.Mono.pure _))
      ((TNM.Mono.svdTrunc _ _).bind (fun _ => (TNM.Mono.lift _).bind (fun _ => (ih _).bind
        (fun _ => TNM.Mono.pure _)))))

theorem loop_last (svd : SVDOracle) {c : Tensor ℂ} {D : ℕ} (hc : c.shape = [D, 2])
    (s : List (Tensor ℂ)) :
    ∃ t, StateVec2MPS_loop svd 1 c s = (.ok [t], s) ∧ t.shape = [2, D, 1] ∧
      ∀ x i, x < 2 → i < D → t.get [x, i, 0] = c.get [i, x] := by
  obtain ⟨m, em, sm, gm⟩ := foldHalves_ok (c := c) (D := D) (n := 1) (by omega) hc
  obtain ⟨t, et, st, gt⟩ := view_site (U := m) (l := D) (D := 1) (by omega) sm
  refine ⟨t, ?_, st, ?_⟩
  · unfold StateVec2MPS_loop
    rw [em, TNM.lift_ok_bind, if_pos rfl, et, TNM.lift_ok_bind, TNM.pure_apply]
  · intro x i hx hi
    rw [gt x i 0 hx hi (by omega), gm x i 0 hx hi (by omega)]
    simp

/-- One step of the loop: the matrix that is decomposed, and what happens then. -/
theorem loop_step {svd : SVDOracle} (hv : ValidSVD svd) {c : Tensor ℂ} {k D : ℕ} (hD : 0 < D)
    (hc : c.shape = [D, 2 * 2 ^ (k + 1)]) (s : List (Tensor ℂ)) :
    ∃ A, A.shape = [2 * D, 2 ^ (k + 1)] ∧
      (∀ x i j, x < 2 → i < D → j < 2 ^ (k + 1) → A.get [x * D + i, j] = c.get [i, x * 2 ^ (k + 1) + j]) ∧
      (bondDim (svd s A).S = 0 → StateVec2MPS_loop svd (k + 2) c s = (.error .runtimeError, s ++ [A])) ∧
      (bondDim (svd s A).S ≠ 0 → ∃ U r t, Trunc A (2 * D) (2 ^ (k + 1)) (svd s A) U r ∧
        t.shape = [2, D, bondDim (svd s A).S] ∧
        (∀ x i q, x < 2 → i < D → q < bondDim (svd s A).S → t.get [x, i, q] = U.get [x * D + i, q]) ∧
        ((∀ e s', StateVec2MPS_loop svd (k + 1) r (s ++ [A]) = (.error e, s') →
          StateVec2MPS_loop svd (k + 2) c s = (.error e, s')) ∧
        (∀ l s', StateVec2MPS_loop svd (k + 1) r (s ++ [A]) = (.ok l, s') →
          StateVec2MPS_loop svd (k + 2) c s = (.ok (t :: l), s')))) ∧
      A ∈ (StateVec2MPS_loop svd (k + 2) c s).2 := by
  have hp : 0 < 2 ^ (k + 1) := by positivity
  obtain ⟨A, eA, sA, gA⟩ := foldHalves_ok (c := c) (D := D) hp hc
  obtain ⟨h0, h1⟩ := svdTrunc_run hv sA (by omega) hp s
  have hunf : StateVec2MPS_loop svd (k + 2) c = (do
      let (U, r) ← svdTrunc svd A
      let t ← (U.view [2, -1, (U.shape.getD 1 0 : ℤ)] : Py _)
      let rest ← StateVec2MPS_loop svd (k + 1) r
      pure (t :: rest)) := by
    rw [StateVec2MPS_loop, eA, TNM.lift_ok_bind, if_neg (by omega)]
  refine ⟨A, sA, gA, fun hb => ?_, fun hb => ?_, ?_⟩
  · rw [hunf, TNM.bind_error (h0 hb)]
  · obtain ⟨U, r, e, t⟩ := h1 hb
    obtain ⟨a, ea, sa, ga⟩ := view_site (Nat.pos_of_ne_zero hb) t.shapeU
    refine ⟨U, r, a, t, sa, ga, ?_, ?_⟩
    · intro er s' hr
      rw [hunf, TNM.bind_ok e]
      show ((liftM (U.view [2, -1, (U.shape.getD 1 0 : ℤ)]) : TNM _) >>= _) _ = _
      rw [ea, TNM.lift_ok_bind, TNM.bind_error hr]
    · intro l s' hr
      rw [hunf, TNM.bind_ok e]
      show ((liftM (U.view [2, -1, (U.shape.getD 1 0 : ℤ)]) : TNM _) >>= _) _ = _
      rw [ea, TNM.lift_ok_bind, TNM.bind_ok hr, TNM.pure_apply]
  · rw [hunf]
    refine (TNM.bind_prefix _ (fun _ => ?_) s).subset (by
      rw [svdTrunc_log hv sA (by omega) hp]; simp)
    exact (TNM.Mono.lift _).bind (fun _ => (TNM.Mono.svLoop _ _ _).bind (fun _ => TNM.Mono.pure _))

theorem enc_cons_split {k : ℕ} (a : Bits (k + 2)) :
    enc a = (a 0 : ℕ) * 2 ^ (k + 1) + enc (fun i => a i.succ) := enc_succ a

/-- The loop with `k+1` sites left: it raises RuntimeError because of a matrix without singular
values above the cut-off, or returns sites whose amplitudes are close to the matrix. -/
theorem loop_err {svd : SVDOracle} (hv : ValidSVD svd) : ∀ (k D : ℕ) (c : Tensor ℂ) (s : List (Tensor ℂ)),
    0 < D → c.shape = [D, 2 ^ (k + 1)] →
    (∃ As A, StateVec2MPS_loop svd (k + 1) c s = (.error .runtimeError, s ++ As ++ [A]) ∧
      bondDim (svd (s ++ As) A).S = 0) ∨
    (∃ (lst As : List (Tensor ℂ)) (R : ℕ → ℕ → ℂ), StateVec2MPS_loop svd (k + 1) c s = (.ok lst, s ++ As) ∧ As.length = k ∧
      lst.length = k + 1 ∧ Chain D lst 1 ∧
      (∀ i < D, ∀ a : Bits (k + 1), R i (enc a) = amp lst (bl a) i 0) ∧
      nrm D (2 ^ (k + 1)) (fun i j => c.get [i, j] - R i j) ≤ truncLoss svd s As) := by
  intro k
  induction k with
  | zero =>
    intro D c s hD hc
    right
    obtain ⟨t, et, st, gt⟩ := loop_last svd (c := c) (by simpa using hc) s
    refine ⟨[t], [], fun i j => c.get [i, j], by rw [et, List.append_nil], rfl, rfl, ⟨hD, 1, st, rfl⟩, ?_, ?_⟩
    · intro i hi a
      rw [bl_one, amp_single st _ _ (by omega), gt _ _ (a 0).isLt hi, enc_one]
    · simp [nrm, truncLoss]
  | succ k ih =>
    intro D c s hD hc
    have hp : 0 < 2 ^ (k + 1) := by positivity
    obtain ⟨A, sA, gA, h0, h1, -⟩ := loop_step (c := c) (k := k) hv hD (by rw [hc]; congr 2; ring) s
    by_cases hb : bondDim (svd s A).S = 0
    · left
      exact ⟨[], A, by rw [h0 hb]; simp, by simpa using hb⟩
    · obtain ⟨U, r, t, tr, st, gt, he, hok⟩ := h1 hb
      have hE := Nat.pos_of_ne_zero hb
      rcases ih _ r (s ++ [A]) hE tr.shapeR with ⟨As, B, e, hB⟩ | ⟨lst, As, R', e, hAs, hl, hch, hR, hn⟩
      · left
        refine ⟨A :: As, B, ?_, by simpa using hB⟩
        rw [he _ _ e]
        simp
      · right
        set E := bondDim (svd s A).S with hEdef
        refine ⟨t :: lst, A :: As, fun i J => ∑ q ∈ range E, U.get [(J / 2 ^ (k + 1)) * D + i, q] *
          R' q (J % 2 ^ (k + 1)), ?_, by simp [hAs], by simp [hl], ⟨hD, E, st, hch⟩, ?_, ?_⟩
        · rw [hok _ _ e]; simp
        · intro i hi a
          rw [bl_succ, amp_cons st, enc_cons_split]
          have hlt := enc_lt (fun i => a (Fin.succ i))
          beta_reduce
          rw [show ((a 0 : ℕ) * 2 ^ (k + 1) + enc (fun i => a i.succ)) / 2 ^ (k + 1) = (a 0 : ℕ) by
            rw [mul_comm, Nat.mul_add_div hp, Nat.div_eq_of_lt hlt, add_zero],
            show ((a 0 : ℕ) * 2 ^ (k + 1) + enc (fun i => a i.succ)) % 2 ^ (k + 1) =
              enc (fun i => a i.succ) by
            rw [mul_comm, Nat.mul_add_mod, Nat.mod_eq_of_lt hlt]]
          apply Finset.sum_congr rfl
          intro q hq
          have hq := Finset.mem_range.1 hq
          rw [gt _ _ _ (a 0).isLt hi hq, hR _ hq]
        · rw [show 2 ^ (k + 1 + 1) = 2 * 2 ^ (k + 1) by ring,
            nrm_fold (D := D) (n := 2 ^ (k + 1))
              (g := fun i j => A.get [i, j] - ∑ q ∈ range E, U.get [i, q] * R' q j) (by
              intro x i j hx hi hj
              beta_reduce
              rw [gA x i j hx hi hj,
                show (x * 2 ^ (k + 1) + j) / 2 ^ (k + 1) = x by
                  rw [mul_comm, Nat.mul_add_div hp, Nat.div_eq_of_lt hj, add_zero],
                show (x * 2 ^ (k + 1) + j) % 2 ^ (k + 1) = j by
                  rw [mul_comm, Nat.mul_add_mod, Nat.mod_eq_of_lt hj]])]
          have e1 : nrm (2 * D) (2 ^ (k + 1)) (fun i j => A.get [i, j] - ∑ q ∈ range E, U.get [i, q] * R' q j) =
              fro ((toMat A (2 * D) (2 ^ (k + 1)) - toMat U (2 * D) E * toMat r E (2 ^ (k + 1))) +
                toMat U (2 * D) E * Matrix.of (fun (q : Fin E) (j : Fin (2 ^ (k + 1))) =>
                  r.get [(q : ℕ), (j : ℕ)] - R' q j)) := by
            rw [nrm_eq]
            congr 1
            ext i j
            rw [Matrix.add_apply, Matrix.sub_apply, Matrix.mul_apply, Matrix.mul_apply, Finset.sum_range]
            simp only [toMat, Matrix.of_apply, mul_sub, Finset.sum_sub_distrib]
            ring
          rw [e1]
          refine (fro_add_le _ _).trans ?_
          rw [trunc_loss hv sA tr, fro_iso (trunc_iso hv sA tr), truncLoss]
          rw [nrm_eq] at hn
          exact add_le_add_right hn _

/-- The loop with `k+1` sites left on a non-zero matrix, when nothing is lost. -/
theorem loop_exact {svd : SVDOracle} (hv : ValidSVD svd) : ∀ (k D : ℕ) (c : Tensor ℂ) (s : List (Tensor ℂ)),
    0 < D → c.shape = [D, 2 ^ (k + 1)] → (∃ i j, i < D ∧ j < 2 ^ (k + 1) ∧ c.get [i, j] ≠ 0) →
    (∀ A ∈ (StateVec2MPS_loop svd (k + 1) c s).2, Lossless A) →
    ∃ lst s', StateVec2MPS_loop svd (k + 1) c s = (.ok lst, s') ∧
      lst.length = k + 1 ∧ Chain D lst 1 ∧
      (∀ i < D, ∀ a : Bits (k + 1), amp lst (bl a) i 0 = c.get [i, enc a]) := by
  intro k
  induction k with
  | zero =>
    intro D c s hD hc _ _
    obtain ⟨t, et, st, gt⟩ := loop_last svd (c := c) (by simpa using hc) s
    refine ⟨[t], s, et, rfl, ⟨hD, 1, st, rfl⟩, ?_⟩
    intro i hi a
    rw [bl_one, amp_single st _ _ (by omega), gt _ _ (a 0).isLt hi, enc_one]
  | succ k ih =>
    intro D c s hD hc ⟨i0, j0, hi0, hj0, hne⟩ hl
    have hp : 0 < 2 ^ (k + 1) := by positivity
    obtain ⟨A, sA, gA, h0, h1, hmem⟩ := loop_step (c := c) (k := k) hv hD (by rw [hc]; congr 2; ring) s
    have hlA := hl A hmem
    have hx0 : j0 / 2 ^ (k + 1) < 2 := by
      rw [Nat.div_lt_iff_lt_mul hp]; calc j0 < 2 ^ (k + 1 + 1) := hj0
        _ = 2 * 2 ^ (k + 1) := by ring
    have hj1 : j0 % 2 ^ (k + 1) < 2 ^ (k + 1) := Nat.mod_lt _ hp
    have hjd : j0 = (j0 / 2 ^ (k + 1)) * 2 ^ (k + 1) + j0 % 2 ^ (k + 1) := (Nat.div_add_mod' _ _).symm
    have hAne : A.get [(j0 / 2 ^ (k + 1)) * D + i0, j0 % 2 ^ (k + 1)] ≠ 0 := by
      rw [gA _ _ _ hx0 hi0 hj1, ← hjd]; exact hne
    have hrow : (j0 / 2 ^ (k + 1)) * D + i0 < 2 * D := by
      rcases lt_two_cases hx0 with e | e <;> rw [e] <;> omega
    have hb : bondDim (svd s A).S ≠ 0 := by
      intro hb
      apply hAne
      rw [trunc_exact hv sA hlA s hrow hj1, hb]
      simp
    obtain ⟨U, r, t, tr, st, gt, he, hok⟩ := h1 hb
    have hE := Nat.pos_of_ne_zero hb
    have hex : ∀ i j, i < 2 * D → j < 2 ^ (k + 1) → A.get [i, j] =
        ∑ q ∈ range (bondDim (svd s A).S), U.get [i, q] * r.get [q, j] := by
      intro i j hi hj
      rw [trunc_exact hv sA hlA s hi hj]
      apply Finset.sum_congr rfl
      intro q hq
      have hq := Finset.mem_range.1 hq
      rw [tr.getU _ _ hi hq, tr.getR _ _ hq hj]
    have hr0 : ∃ q j, q < bondDim (svd s A).S ∧ j < 2 ^ (k + 1) ∧ r.get [q, j] ≠ 0 := by
      by_contra hno
      push Not at hno
      apply hAne
      rw [hex _ _ hrow hj1]
      apply Finset.sum_eq_zero
      intro q hq
      rw [hno q _ (Finset.mem_range.1 hq) hj1, mul_zero]
    have hl' : ∀ B ∈ (StateVec2MPS_loop svd (k + 1) r (s ++ [A])).2, Lossless B := by
      intro B hB
      apply hl
      rcases hres : StateVec2MPS_loop svd (k + 1) r (s ++ [A]) with ⟨e | l, s'⟩
      · rw [hres] at hB; rw [he _ _ hres]; exact hB
      · rw [hres] at hB; rw [hok _ _ hres]; exact hB
    obtain ⟨lst, s', e, hlen, hch, hamp⟩ := ih _ r (s ++ [A]) hE tr.shapeR hr0 hl'
    refine ⟨t :: lst, s', hok _ _ e, by simp [hlen], ⟨hD, _, st, hch⟩, ?_⟩
    intro i hi a
    have hlt := enc_lt (fun i => a (Fin.succ i))
    have hrow' : (a 0 : ℕ) * D + i < 2 * D := by
      rcases lt_two_cases (a 0).isLt with e | e <;> rw [e] <;> omega
    rw [bl_succ, amp_cons st, enc_cons_split, ← gA _ _ _ (a 0).isLt hi hlt, hex _ _ hrow' hlt]
    apply Finset.sum_congr rfl
    intro q hq
    have hq := Finset.mem_range.1 hq
    rw [gt _ _ _ (a 0).isLt hi hq, hamp _ hq]

end QTN
