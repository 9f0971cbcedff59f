import Verif.SpecTN
import Verif.Lemmas.Kron
import Verif.Lemmas.Permute

/-! # The truncated singular value decomposition -/

namespace QTN

open Finset Spec Matrix

/-! ## The monad of computations with SVD -/

theorem TNM.bind_eq {α β : Type} (x : TNM α) (f : α → TNM β) (s : List (Tensor ℂ)) :
    (x >>= f) s = match x s with
      | (.ok a, s') => f a s'
      | (.error e, s') => (.error e, s') := rfl

theorem TNM.bind_ok {α β : Type} {x : TNM α} {s s' : List (Tensor ℂ)} {a : α} (h : x s = (.ok a, s'))
    (f : α → TNM β) : (x >>= f) s = f a s' := by rw [TNM.bind_eq, h]

theorem TNM.bind_error {α β : Type} {x : TNM α} {s s' : List (Tensor ℂ)} {e : PyErr}
    (h : x s = (.error e, s')) (f : α → TNM β) : (x >>= f) s = (.error e, s') := by
  rw [TNM.bind_eq, h]

theorem TNM.pure_apply {α : Type} (a : α) (s : List (Tensor ℂ)) :
    (pure a : TNM α) s = (.ok a, s) := rfl

theorem TNM.lift_ok_bind {α β : Type} (a : α) (f : α → TNM β) :
    ((liftM (Except.ok a : Py α) : TNM α) >>= f) = f a := rfl

theorem TNM.lift_error_bind {α β : Type} (e : PyErr) (f : α → TNM β) (s : List (Tensor ℂ)) :
    ((liftM (Except.error e : Py α) : TNM α) >>= f) s = (.error e, s) := rfl

theorem TNM.lift_apply {α : Type} (x : Py α) (s : List (Tensor ℂ)) :
    (liftM x : TNM α) s = (x, s) := rfl

/-- The computation only appends to the record of decompositions. -/
def TNM.Mono {α : Type} (x : TNM α) : Prop := ∀ s, s <+: (x s).2

theorem TNM.Mono.pure {α : Type} (a : α) : TNM.Mono (Pure.pure a) := fun s => List.prefix_refl s

theorem TNM.Mono.lift {α : Type} (x : Py α) : TNM.Mono (liftM x : TNM α) := fun s => List.prefix_refl s

theorem TNM.Mono.lift' {α : Type} (x : Py α) : TNM.Mono (TNM.lift x) := fun s => List.prefix_refl s

theorem TNM.bind_prefix {α β : Type} (x : TNM α) {f : α → TNM β} (hf : ∀ a, (f a).Mono)
    (s : List (Tensor ℂ)) : (x s).2 <+: ((x >>= f) s).2 := by
  rw [TNM.bind_eq]
  rcases h : x s with ⟨r, s'⟩
  cases r with
  | ok a => exact hf a s'
  | error e => exact List.prefix_refl s'

theorem TNM.Mono.bind {α β : Type} {x : TNM α} {f : α → TNM β} (hx : x.Mono) (hf : ∀ a, (f a).Mono) :
    (x >>= f).Mono := fun s => (hx s).trans (TNM.bind_prefix x hf s)

theorem TNM.Mono.ite {α : Type} {c : Prop} [Decidable c] {x y : TNM α} (hx : x.Mono) (hy : y.Mono) :
    TNM.Mono (if c then x else y) := by
  split
  · exact hx
  · exact hy

theorem TNM.Mono.foldlM {α β : Type} {f : β → α → TNM β} (hf : ∀ b a, (f b a).Mono) (l : List α) (b : β) :
    TNM.Mono (l.foldlM f b) := by
  induction l generalizing b with
  | nil => exact TNM.Mono.pure b
  | cons a l ih => rw [List.foldlM_cons]; exact (hf b a).bind (fun b' => ih b')

theorem TNM.Mono.callSvd (svd : SVDOracle) (A : Tensor ℂ) : TNM.Mono (QTN.callSvd svd A) := by
  intro s
  unfold QTN.callSvd
  split
  · exact List.prefix_append _ _
  · exact List.prefix_refl _

theorem TNM.Mono.svdTrunc (svd : SVDOracle) (A : Tensor ℂ) : TNM.Mono (QTN.svdTrunc svd A) := by
  unfold QTN.svdTrunc
  refine (TNM.Mono.callSvd svd A).bind (fun o => (TNM.Mono.lift _).bind (fun Vd => ?_))
  refine TNM.Mono.ite ((TNM.Mono.lift _).bind (fun _ => (TNM.Mono.lift _).bind (fun _ =>
    (TNM.Mono.lift _).bind (fun _ => (TNM.Mono.lift _).bind (fun _ => TNM.Mono.pure _)))))
    ((TNM.Mono.lift _).bind (fun _ => TNM.Mono.pure _))

/-- Every matrix decomposed so far, including by `x`, satisfies `P`. -/
theorem TNM.logged_left {α β : Type} {x : TNM α} {f : α → TNM β} (hf : ∀ a, (f a).Mono)
    {s : List (Tensor ℂ)} {P : Tensor ℂ → Prop} (h : ∀ A ∈ ((x >>= f) s).2, P A) :
    ∀ A ∈ (x s).2, P A := fun A hA => h A ((TNM.bind_prefix x hf s).subset hA)

/-! ## Number of large singular values -/

/-- `D` of the source. -/
noncomputable def bondDim (S : List ℝ) : ℕ := (S.filter (fun s => decide (|s| > cutoff))).length

theorem cutoff_pos : 0 < cutoff := by norm_num [cutoff]

theorem bondDim_iff {S : List ℝ} (h0 : ∀ s ∈ S, 0 ≤ s) (hd : S.Pairwise (· ≥ ·)) {i : ℕ}
    (hi : i < S.length) : i < bondDim S ↔ cutoff < S.getD i 0 := by
  induction S generalizing i with
  | nil => simp at hi
  | cons s S ih =>
    have h0' : ∀ s ∈ S, 0 ≤ s := fun x hx => h0 x (by simp [hx])
    rw [List.pairwise_cons] at hd
    have hs : |s| = s := abs_of_nonneg (h0 s (by simp))
    unfold bondDim
    by_cases hc : cutoff < s
    · rw [List.filter_cons_of_pos (by simp [hs, hc])]
      cases i with
      | zero => simp [hc]
      | succ i =>
        have := ih h0' hd.2 (i := i) (by simpa using hi)
        unfold bondDim at this
        simp only [List.length_cons, List.getD_cons_succ, ← this]
        omega
    · rw [List.filter_cons_of_neg (by simpa [hs] using hc)]
      have hnil : S.filter (fun s => decide (|s| > cutoff)) = [] := by
        rw [List.filter_eq_nil_iff]
        intro x hx
        have h1 := hd.1 x hx
        simp only [decide_eq_true_eq, abs_of_nonneg (h0' x hx)]
        intro h2
        exact hc (lt_of_lt_of_le h2 h1)
      rw [hnil]
      simp only [List.length_nil, Nat.not_lt_zero, false_iff, not_lt]
      cases i with
      | zero => simpa using hc
      | succ i =>
        have hi' : i < S.length := by simpa using hi
        rw [List.getD_cons_succ, List.getD_eq_getElem?_getD, List.getElem?_eq_getElem hi',
          Option.getD_some]
        exact (hd.1 _ (List.getElem_mem hi')).trans (not_lt.1 hc)

theorem bondDim_le (S : List ℝ) : bondDim S ≤ S.length := List.length_filter_le _ _

/-! ## Entrywise form of the contract -/

section entry
variable {A : Tensor ℂ} {m n : ℕ} {o : SVDOut}

theorem svd_entry (h : IsSVD A m n o) {i j : ℕ} (hi : i < m) (hj : j < n) :
    A.get [i, j] = ∑ r ∈ range (min m n), o.U.get [i, r] * (((o.S.getD r 0 : ℝ) : ℂ) *
      star (o.V.get [j, r])) := by
  have := congrFun (congrFun h.factor ⟨i, hi⟩) ⟨j, hj⟩
  rw [Matrix.mul_apply] at this
  simp only [Matrix.mul_diagonal, Matrix.conjTranspose_apply, toMat] at this
  rw [this, Finset.sum_range]
  apply Finset.sum_congr rfl
  intro r _
  ring

theorem svd_orthU (h : IsSVD A m n o) {r q : ℕ} (hr : r < min m n) (hq : q < min m n) :
    ∑ i ∈ range m, star (o.U.get [i, r]) * o.U.get [i, q] = if r = q then 1 else 0 := by
  have := congrFun (congrFun h.orthU ⟨r, hr⟩) ⟨q, hq⟩
  rw [Matrix.mul_apply, Matrix.one_apply] at this
  simp only [Matrix.conjTranspose_apply, toMat, Fin.mk.injEq] at this
  rw [Finset.sum_range, this]

theorem svd_orthV (h : IsSVD A m n o) {r q : ℕ} (hr : r < min m n) (hq : q < min m n) :
    ∑ i ∈ range n, star (o.V.get [i, r]) * o.V.get [i, q] = if r = q then 1 else 0 := by
  have := congrFun (congrFun h.orthV ⟨r, hr⟩) ⟨q, hq⟩
  rw [Matrix.mul_apply, Matrix.one_apply] at this
  simp only [Matrix.conjTranspose_apply, toMat, Fin.mk.injEq] at this
  rw [Finset.sum_range, this]

/-- Every entry of `S` is a singular value. -/
theorem svd_singular (hA : A.shape = [m, n]) (h : IsSVD A m n o) {r : ℕ} (hr : r < min m n) :
    SingularValue A (o.S.getD r 0) := by
  have hl := h.lenS
  have hmem : o.S.getD r 0 ∈ o.S := by
    rw [List.getD_eq_getElem?_getD, List.getElem?_eq_getElem (by omega)]
    exact List.getElem_mem _
  refine ⟨h.nonneg _ hmem, m, n, hA, fun j => o.V.get [(j : ℕ), r], ?_, ?_⟩
  · intro h0
    have := svd_orthV h hr hr
    rw [if_pos rfl, Finset.sum_range] at this
    have h1 : ∀ j : Fin n, o.V.get [(j : ℕ), r] = 0 := fun j => congrFun h0 j
    simp [h1] at this
  · set U := toMat o.U m (min m n)
    set V := toMat o.V n (min m n)
    set S := diagonal (fun r : Fin (min m n) => ((o.S.getD r 0 : ℝ) : ℂ)) with hS
    have hV : (fun j : Fin n => o.V.get [(j : ℕ), r]) = V *ᵥ Pi.single ⟨r, hr⟩ 1 := by
      rw [Matrix.mulVec_single_one]; rfl
    have hSS : Sᴴ = S := by
      rw [hS, Matrix.diagonal_conjTranspose]
      congr 1
      funext q
      simp
    have e : (toMat A m n)ᴴ * toMat A m n = V * (S * S) * Vᴴ := by
      rw [h.factor, Matrix.conjTranspose_mul, Matrix.conjTranspose_mul, hSS,
        Matrix.conjTranspose_conjTranspose]
      calc V * (S * Uᴴ) * (U * S * Vᴴ) = V * S * (Uᴴ * U) * S * Vᴴ := by
            simp only [Matrix.mul_assoc]
        _ = _ := by rw [h.orthU, Matrix.mul_one]; simp only [Matrix.mul_assoc]
    rw [e, hV, Matrix.mulVec_mulVec, Matrix.mul_assoc, h.orthV, Matrix.mul_one,
      ← Matrix.mulVec_mulVec, hS, Matrix.diagonal_mul_diagonal]
    have : (diagonal fun i : Fin (min m n) => ((o.S.getD i 0 : ℝ) : ℂ) * ((o.S.getD i 0 : ℝ) : ℂ)) *ᵥ
        Pi.single ⟨r, hr⟩ 1 = (((o.S.getD r 0) ^ 2 : ℝ) : ℂ) • Pi.single ⟨r, hr⟩ (1 : ℂ) := by
      rw [Matrix.mulVec_single_one]
      ext q
      by_cases hq : q = ⟨r, hr⟩
      · subst hq; simp [pow_two]
      · simp [hq]
    rw [this, Matrix.mulVec_smul]

end entry

/-! ## svdTrunc -/

/-- The result of the truncated decomposition: `U` is an isometry and `U r` is the truncated sum. -/
structure Trunc (A : Tensor ℂ) (m n : ℕ) (o : SVDOut) (U r : Tensor ℂ) : Prop where
  shapeU : U.shape = [m, bondDim o.S]
  shapeR : r.shape = [bondDim o.S, n]
  getU : ∀ i k, i < m → k < bondDim o.S → U.get [i, k] = o.U.get [i, k]
  getR : ∀ k j, k < bondDim o.S → j < n →
    r.get [k, j] = ((o.S.getD k 0 : ℝ) : ℂ) * star (o.V.get [j, k])

theorem range_all (D k : ℕ) (h : D ≤ k) : (List.range D).all (· < k) = true := by
  simp only [List.all_eq_true, List.mem_range, decide_eq_true_eq]; omega

theorem svdTrunc_run {svd : SVDOracle} (hv : ValidSVD svd) {A : Tensor ℂ} {m n : ℕ}
    (hA : A.shape = [m, n]) (hm : 0 < m) (hn : 0 < n) (s : List (Tensor ℂ)) :
    (bondDim (svd s A).S = 0 → svdTrunc svd A s = (.error .runtimeError, s ++ [A])) ∧
    (bondDim (svd s A).S ≠ 0 → ∃ U r, svdTrunc svd A s = (.ok (U, r), s ++ [A]) ∧
      Trunc A m n (svd s A) U r) := by
  have h := hv s A m n hA
  set o := svd s A with ho
  have hcall : callSvd svd A s = (.ok o, s ++ [A]) := by
    unfold callSvd
    rw [if_pos (by simp [Tensor.rank, hA])]
  have hlen := h.lenS
  have hk : 0 < min m n := by omega
  have hD := bondDim_le o.S
  set D := bondDim o.S with hDdef
  -- V^H
  obtain ⟨V1, p1, s1, g1⟩ := Tensor.permute_fn (t := o.V) (Equiv.swap (0 : Fin 2) 1)
    (d := ![n, min m n]) (by rw [h.shapeV]; rfl) (p := [1, 0]) rfl
  have s1' : V1.shape = [min m n, n] := s1
  have g1' : ∀ r j, r < min m n → j < n → V1.get [r, j] = o.V.get [j, r] := by
    intro r j hr hj
    have := g1 ![r, j] (by intro k; fin_cases k; exacts [hr, hj])
    exact this
  set Vd := V1.conj with hVd
  have sVd : Vd.shape = [min m n, n] := s1'
  have gVd : ∀ r j, r < min m n → j < n → Vd.get [r, j] = star (o.V.get [j, r]) := by
    intro r j hr hj
    rw [hVd]
    unfold Tensor.conj
    rw [Tensor.get_ofFn (by rw [s1']; simp only [inB_cons, inB_nil, hr, hj]; rfl), g1' r j hr hj]
  -- diag(S)
  set Sm : Tensor ℂ := (Tensor.ofList (o.S.map Complex.ofReal)).diagMat with hSm
  have sSm : Sm.shape = [min m n, min m n] := by
    rw [hSm]; simp [Tensor.diagMat, Tensor.ofList, hlen]
  have gSm : ∀ r q, r < min m n → q < min m n →
      Sm.get [r, q] = if r = q then ((o.S.getD r 0 : ℝ) : ℂ) else 0 := by
    intro r q hr hq
    rw [hSm]
    unfold Tensor.diagMat
    rw [Tensor.get_ofFn (by
      have : (Tensor.ofList (o.S.map Complex.ofReal)).shape.getD 0 0 = min m n := by
        simp [Tensor.ofList, hlen]
      rw [this]
      simp only [inB_cons, inB_nil, hr, hq]; rfl)]
    simp only [List.getD_cons_zero, List.getD_cons_succ]
    by_cases e : r = q
    · rw [if_pos e, if_pos e]
      unfold Tensor.ofList
      rw [Tensor.get_ofFn (by simp only [List.length_map, hlen, inB_cons, inB_nil, hr]; rfl)]
      simp [List.getD_eq_getElem?_getD, List.getElem?_eq_getElem (show r < o.S.length by omega)]
    · rw [if_neg e, if_neg e]
  have hS0 : Sm.shape.getD 0 0 = min m n := by rw [sSm]; rfl
  unfold svdTrunc
  rw [TNM.bind_ok hcall, p1, TNM.lift_ok_bind]
  rw [← hVd, ← hSm, show (o.S.filter (fun s => decide (|s| > cutoff))).length = D from rfl, hS0]
  constructor
  · intro h0
    rw [if_pos (by omega), raiseIf_true h0]
    rfl
  · intro h0
    by_cases hlt : D < min m n
    · rw [if_pos hlt, raiseIf_false h0, TNM.lift_ok_bind]
      -- selected columns and rows
      have eU : o.U.indexSelect1 (List.range D) = .ok (Tensor.ofFn [m, (List.range D).length]
          (fun idx => match idx with
            | j :: i :: is => o.U.get (j :: (List.range D).getD i 0 :: is)
            | _ => 0)) := by
        unfold Tensor.indexSelect1
        rw [h.shapeU]
        dsimp only
        rw [if_pos (range_all _ _ hlt.le)]
        rfl
      have eS : Sm.indexSelect0 (List.range D) = .ok (Tensor.ofFn [(List.range D).length, min m n]
          (fun idx => match idx with
            | i :: is => Sm.get ((List.range D).getD i 0 :: is)
            | [] => 0)) := by
        unfold Tensor.indexSelect0
        rw [sSm]
        dsimp only
        rw [if_pos (range_all _ _ hlt.le)]
        rfl
      rw [eU, TNM.lift_ok_bind, eS, TNM.lift_ok_bind]
      set S2 : Tensor ℂ := Tensor.ofFn [(List.range D).length, min m n]
          (fun idx => match idx with
            | i :: is => Sm.get ((List.range D).getD i 0 :: is)
            | [] => 0) with hS2
      have sS2 : S2.shape = [D, min m n] := by simp [hS2]
      have gS2 : ∀ k q, k < D → q < min m n →
          S2.get [k, q] = if k = q then ((o.S.getD k 0 : ℝ) : ℂ) else 0 := by
        intro k q hk hq
        rw [hS2, Tensor.get_ofFn (by
          simp only [List.length_range, inB_cons, inB_nil, hk, hq]; rfl)]
        have : (List.range D).getD k 0 = k := by simp [List.getD_eq_getElem?_getD, hk]
        simp only [this]
        exact gSm k q (by omega) hq
      rw [Tensor.matmul2 sS2 sVd, TNM.lift_ok_bind]
      refine ⟨_, _, rfl, ⟨by simp [hDdef], rfl, ?_, ?_⟩⟩
      · intro i k hi hk
        rw [Tensor.get_ofFn (by simp only [List.length_range, inB_cons, inB_nil, hi]; simpa using hk)]
        have : (List.range D).getD k 0 = k := by
          rw [List.getD_eq_getElem?_getD, List.getElem?_range (show k < D from hk)]; rfl
        simp only [this]
      · intro k j hk hj
        rw [Tensor.get_ofFn (by simp only [inB_cons, inB_nil, hj]; simpa using hk)]
        simp only [List.getD_cons_zero, List.getD_cons_succ]
        rw [Finset.sum_eq_single k]
        · rw [gS2 k k hk (by omega), if_pos rfl, gVd k j (by omega) hj]
        · intro q hq hne
          rw [gS2 k q hk (Finset.mem_range.1 hq), if_neg (Ne.symm hne), zero_mul]
        · intro hk'; exact absurd (Finset.mem_range.2 (by omega)) hk'
    · have hDk : D = min m n := by omega
      rw [if_neg hlt, Tensor.matmul2 sSm sVd, TNM.lift_ok_bind]
      refine ⟨_, _, rfl, ⟨by rw [h.shapeU, ← hDdef, hDk], by rw [← hDdef, hDk]; rfl, fun _ _ _ _ => rfl, ?_⟩⟩
      intro k j hk hj
      rw [← hDdef] at hk
      rw [Tensor.get_ofFn (by simp only [inB_cons, inB_nil, hj]; simp; omega)]
      simp only [List.getD_cons_zero, List.getD_cons_succ]
      rw [Finset.sum_eq_single k]
      · rw [gSm k k (by omega) (by omega), if_pos rfl, gVd k j (by omega) hj]
      · intro q hq hne
        rw [gSm k q (by omega) (Finset.mem_range.1 hq), if_neg (Ne.symm hne), zero_mul]
      · intro hk'; exact absurd (Finset.mem_range.2 (by omega)) hk'

/-- Without loss the factors multiply to the matrix. -/
theorem trunc_exact {svd : SVDOracle} (hv : ValidSVD svd) {A : Tensor ℂ} {m n : ℕ}
    (hA : A.shape = [m, n]) (hl : Lossless A) (s : List (Tensor ℂ)) {i j : ℕ} (hi : i < m) (hj : j < n) :
    A.get [i, j] = ∑ k ∈ range (bondDim (svd s A).S), (svd s A).U.get [i, k] *
      ((((svd s A).S.getD k 0 : ℝ) : ℂ) * star ((svd s A).V.get [j, k])) := by
  have h := hv s A m n hA
  rw [svd_entry h hi hj]
  symm
  apply Finset.sum_subset
  · intro k hk
    have := bondDim_le (svd s A).S
    have := h.lenS
    rw [Finset.mem_range] at hk ⊢
    omega
  · intro k hk hk'
    rw [Finset.mem_range] at hk hk'
    have hc : ¬ cutoff < (svd s A).S.getD k 0 := by
      rw [← bondDim_iff h.nonneg h.desc (by rw [h.lenS]; exact hk)]; exact hk'
    rcases hl _ (svd_singular hA h hk) with h0 | h1
    · rw [h0]; simp
    · exact absurd h1 hc

/-- The truncated decomposition of a non-zero matrix without loss. -/
theorem svdTrunc_lossless {svd : SVDOracle} (hv : ValidSVD svd) {A : Tensor ℂ} {m n : ℕ}
    (hA : A.shape = [m, n]) (hl : Lossless A) (h0 : ∃ i j, i < m ∧ j < n ∧ A.get [i, j] ≠ 0)
    (s : List (Tensor ℂ)) :
    ∃ U r D, svdTrunc svd A s = (.ok (U, r), s ++ [A]) ∧ 0 < D ∧ U.shape = [m, D] ∧ r.shape = [D, n] ∧
      (∀ i j, i < m → j < n → ∑ k ∈ range D, U.get [i, k] * r.get [k, j] = A.get [i, j]) ∧
      (∀ k q, k < D → q < D →
        ∑ i ∈ range m, star (U.get [i, k]) * U.get [i, q] = if k = q then 1 else 0) ∧
      D = bondDim (svd s A).S := by
  obtain ⟨i0, j0, hi0, hj0, hne⟩ := h0
  have h := hv s A m n hA
  have hD : bondDim (svd s A).S ≠ 0 := by
    intro hz
    apply hne
    rw [trunc_exact hv hA hl s hi0 hj0, hz]
    simp
  obtain ⟨U, r, hrun, ht⟩ := (svdTrunc_run hv hA (by omega) (by omega) s).2 hD
  refine ⟨U, r, _, hrun, Nat.pos_of_ne_zero hD, ht.shapeU, ht.shapeR, ?_, ?_, rfl⟩
  · intro i j hi hj
    rw [trunc_exact hv hA hl s hi hj]
    apply Finset.sum_congr rfl
    intro k hk
    rw [ht.getU i k hi (Finset.mem_range.1 hk), ht.getR k j (Finset.mem_range.1 hk) hj]
  · intro k q hk hq
    have hle := bondDim_le (svd s A).S
    rw [← svd_orthU h (r := k) (q := q) (by rw [← h.lenS]; omega) (by rw [← h.lenS]; omega)]
    apply Finset.sum_congr rfl
    intro i hi
    rw [ht.getU i k (Finset.mem_range.1 hi) hk, ht.getU i q (Finset.mem_range.1 hi) hq]

/-- A zero matrix keeps no singular value, and the truncation raises. -/
theorem svdTrunc_zero {svd : SVDOracle} (hv : ValidSVD svd) {A : Tensor ℂ} {m n : ℕ}
    (hA : A.shape = [m, n]) (hm : 0 < m) (hn : 0 < n) (h0 : ∀ i j, i < m → j < n → A.get [i, j] = 0)
    (s : List (Tensor ℂ)) : svdTrunc svd A s = (.error .runtimeError, s ++ [A]) := by
  have h := hv s A m n hA
  refine (svdTrunc_run hv hA hm hn s).1 ?_
  by_contra hb
  have hk : 0 < min m n := by omega
  have h1 := (bondDim_iff h.nonneg h.desc (by rw [h.lenS]; exact hk)).1 (Nat.pos_of_ne_zero hb)
  obtain ⟨-, m', n', hs, x, hx, e⟩ := svd_singular hA h hk
  rw [hA] at hs
  obtain ⟨rfl, rfl⟩ : m = m' ∧ n = n' := by simpa using hs
  have hz : toMat A m n = 0 := by
    ext i j; exact h0 i j i.isLt j.isLt
  rw [hz] at e
  simp only [Matrix.mul_zero, Matrix.zero_mulVec] at e
  have h2 : (((svd s A).S.getD 0 0 ^ 2 : ℝ) : ℂ) = 0 := by
    rcases smul_eq_zero.1 e.symm with h | h
    · exact h
    · exact absurd h hx
  have h3 : (svd s A).S.getD 0 0 = 0 := by
    have : (svd s A).S.getD 0 0 ^ 2 = 0 := by exact_mod_cast h2
    exact pow_eq_zero_iff (by norm_num) |>.1 this
  have := cutoff_pos
  linarith

end QTN
