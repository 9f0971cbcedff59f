import Verif.SpecTN
import Verif.Lemmas.Amp

/-! # The textbook amplitudes of a matrix product state and the recursive ones -/

namespace QTN

open Finset Spec Matrix

/-- Paths through the bonds from `i` to `j`. -/
theorem amp_paths : ∀ (N : ℕ) (mps : List (Tensor ℂ)) (D : ℕ → ℕ), mps.length = N →
    (∀ (i : ℕ) (h : i < mps.length), mps[i].shape = [2, D i, D (i + 1)]) →
    ∀ (a : Bits N) (i j : ℕ), i < D 0 → j < D N → amp mps (bl a) i j =
      ∑ k : ((i : Fin (N + 1)) → Fin (D i)), if (k 0 : ℕ) = i ∧ (k (Fin.last N) : ℕ) = j then
        ∏ i : Fin N, (mps.getD i (Tensor.zeros [])).get [(a i : ℕ), (k i.castSucc : ℕ), (k i.succ : ℕ)]
        else 0 := by
  intro N
  induction N with
  | zero =>
    intro mps D hl _ a i j hi hj
    obtain rfl := List.length_eq_zero_iff.1 hl
    simp only [amp, Finset.univ_eq_empty, Finset.prod_empty]
    let e : ((i : Fin 1) → Fin (D i)) ≃ Fin (D 0) :=
      { toFun := fun k => k 0, invFun := fun x i => ⟨x, by obtain rfl : i = 0 := Subsingleton.elim _ _; exact x.2⟩,
        left_inv := fun k => by funext i; obtain rfl : i = 0 := Subsingleton.elim _ _; rfl,
        right_inv := fun x => rfl }
    refine Eq.trans ?_ (Fintype.sum_equiv e _ (fun x : Fin (D 0) => if (x : ℕ) = i ∧ (x : ℕ) = j then (1 : ℂ) else 0)
      (fun k => rfl)).symm
    by_cases h : i = j
    · subst h
      rw [Finset.sum_eq_single (⟨i, hi⟩ : Fin (D 0))]
      · simp
      · intro b _ hb
        rw [if_neg]
        rintro ⟨h, -⟩
        exact hb (Fin.ext h)
      · simp
    · rw [if_neg h, Finset.sum_eq_zero]
      intro x _
      rw [if_neg]
      rintro ⟨h1, h2⟩
      exact h (h1.symm.trans h2)
  | succ N ih =>
    intro mps D hl hs a i j hi hj
    cases mps with
    | nil => simp at hl
    | cons t ts =>
      have hl' : ts.length = N := by simpa using hl
      have ht : t.shape = [2, D 0, D 1] := hs 0 (by simp)
      have hs' : ∀ (i : ℕ) (h : i < ts.length), ts[i].shape = [2, D (i + 1), D (i + 1 + 1)] :=
        fun i h => hs (i + 1) (by simpa using h)
      rw [bl_succ, amp_cons ht]
      rw [Finset.sum_congr rfl (fun m hm => by
        rw [ih ts (fun i => D (i + 1)) hl' hs' (fun i => a i.succ) m j (Finset.mem_range.1 hm) hj,
          Finset.mul_sum]), Finset.sum_comm]
      rw [← (Fin.consEquiv (fun i : Fin (N + 1 + 1) => Fin (D i))).sum_comp, Fintype.sum_prod_type]
      conv_rhs => rw [Finset.sum_comm]
      apply Finset.sum_congr rfl
      intro k _
      have hk := (k 0).isLt
      rw [Finset.sum_eq_single (k 0 : ℕ)]
      · refine Eq.trans ?_ (Finset.sum_eq_single (⟨i, hi⟩ : Fin (D ((0 : Fin (N + 1 + 1)) : ℕ))) ?_ ?_).symm
        · have e1 : (Fin.consEquiv (fun i : Fin (N + 1 + 1) => Fin (D i)) (⟨i, hi⟩, k)) 0 = ⟨i, hi⟩ := rfl
          have e2 : ∀ q : Fin (N + 1), (Fin.consEquiv (fun i : Fin (N + 1 + 1) => Fin (D i)) (⟨i, hi⟩, k)) q.succ = k q :=
            fun q => rfl
          rw [Fin.prod_univ_succ]
          have e3 : (Fin.last (N + 1)) = (Fin.last N).succ := rfl
          rw [e3, e2, Fin.castSucc_zero, e1, e2]
          have e4 : ∀ q : Fin N, (Fin.consEquiv (fun i : Fin (N + 1 + 1) => Fin (D i)) (⟨i, hi⟩, k)) q.succ.castSucc
              = k q.castSucc := fun q => rfl
          simp only [e2, e4]
          by_cases h : (k (Fin.last N) : ℕ) = j
          · rw [if_pos ⟨trivial, h⟩, if_pos ⟨trivial, h⟩]
            rfl
          · rw [if_neg (fun q => h q.2), if_neg (fun q => h q.2), mul_zero]
        · intro b _ hb
          rw [if_neg]
          rintro ⟨h, -⟩
          exact hb (Fin.ext h)
        · exact fun h => absurd (Finset.mem_univ _) h
      · intro m _ hm
        rw [if_neg (fun q => hm q.1.symm), mul_zero]
      · intro h
        exact absurd (Finset.mem_range.2 hk) h

theorem amp_mpsAmp {N : ℕ} {mps : List (Tensor ℂ)} {D : ℕ → ℕ} (hl : mps.length = N)
    (h0 : D 0 = 1) (h1 : D N = 1)
    (hs : ∀ (i : ℕ) (h : i < mps.length), mps[i].shape = [2, D i, D (i + 1)]) (a : Bits N) :
    amp mps (bl a) 0 0 = mpsAmp mps D a := by
  rw [amp_paths N mps D hl hs a 0 0 (by omega) (by omega)]
  unfold mpsAmp
  apply Finset.sum_congr rfl
  intro k _
  rw [if_pos]
  constructor
  · have : (k 0 : ℕ) < D 0 := (k 0).isLt
    omega
  · have : (k (Fin.last N) : ℕ) < D N := (k (Fin.last N)).isLt
    omega

theorem chain_of_dims : ∀ (mps : List (Tensor ℂ)) (D : ℕ → ℕ), (∀ i, 0 < D i) →
    (∀ (i : ℕ) (h : i < mps.length), mps[i].shape = [2, D i, D (i + 1)]) →
    Chain (D 0) mps (D mps.length) := by
  intro mps
  induction mps with
  | nil => intro D _ _; rfl
  | cons t ts ih =>
    intro D hD hs
    exact ⟨hD 0, D 1, hs 0 (by simp), ih (fun i => D (i + 1)) (fun i => hD _)
      (fun i h => hs (i + 1) (by simpa using h))⟩

theorem dims_of_chain : ∀ (mps : List (Tensor ℂ)) (l r : ℕ), 0 < r → Chain l mps r →
    ∃ D : ℕ → ℕ, D 0 = l ∧ D mps.length = r ∧ (∀ i, 0 < D i) ∧
      ∀ (i : ℕ) (h : i < mps.length), mps[i].shape = [2, D i, D (i + 1)] := by
  intro mps
  induction mps with
  | nil => intro l r hr h; exact ⟨fun _ => l, rfl, h, fun _ => by cases h; exact hr, by simp⟩
  | cons t ts ih =>
    intro l r hr ⟨hl, m, ht, hc⟩
    obtain ⟨D, h0, h1, hp, hs⟩ := ih m r hr hc
    refine ⟨fun i => match i with | 0 => l | i + 1 => D i, rfl, h1, fun i => ?_, fun i h => ?_⟩
    · cases i
      · exact hl
      · exact hp _
    · cases i with
      | zero => simp [ht, h0]
      | succ i => simpa using hs i (by simpa using h)

theorem holds_iff {N : ℕ} {mps : List (Tensor ℂ)} {v : QState N} : HoldsState mps v ↔ IsMPS mps v := by
  constructor
  · rintro ⟨hl, D, h0, h1, hp, hs, ha⟩
    refine ⟨hl, ?_, fun a => by rw [ha, amp_mpsAmp hl h0 h1 hs]⟩
    have := chain_of_dims mps D hp hs
    rwa [h0, hl, h1] at this
  · rintro ⟨hl, hc, ha⟩
    obtain ⟨D, h0, h1, hp, hs⟩ := dims_of_chain mps 1 1 (by omega) hc
    rw [hl] at h1
    exact ⟨hl, D, h0, h1, hp, hs, fun a => by rw [← ha, amp_mpsAmp hl h0 h1 hs]⟩

theorem Spec.HoldsState.valid {N : ℕ} {mps : List (Tensor ℂ)} {v : QState N} (h : HoldsState mps v) :
    ValidMPS N mps := by
  obtain ⟨hl, D, h0, h1, hp, hs, -⟩ := h
  exact ⟨hl, D, h0, h1, hp, hs⟩

theorem Spec.ValidMPS.holds {N : ℕ} {mps : List (Tensor ℂ)} (h : ValidMPS N mps) :
    ∃ v : QState N, HoldsState mps v := by
  obtain ⟨hl, D, h0, h1, hp, hs⟩ := h
  exact ⟨_, hl, D, h0, h1, hp, hs, fun _ => rfl⟩

theorem Spec.HoldsState.unique {N : ℕ} {mps : List (Tensor ℂ)} {v w : QState N} (h : HoldsState mps v)
    (h' : HoldsState mps w) : v = w := by
  rw [holds_iff] at h h'
  funext a
  rw [← h.2.2, h'.2.2]

end QTN
