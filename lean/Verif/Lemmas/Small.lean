import Verif.Lemmas.Bonds
import Verif.Lemmas.Within

/-! # Sizes of the matrices that are decomposed, and an a-priori bound on what truncation discards -/

namespace QTN

open Finset Spec Matrix

variable {N : ℕ}

/-- All matrices that `f` decomposes are small, and the bond dimensions stay bounded. -/
def SmallAct (N : ℕ) (f : List (Tensor ℂ) → TNM (List (Tensor ℂ))) : Prop :=
  ∀ mps s, BoundedMPS N mps → ∃ As, (f mps s).2 = s ++ As ∧ (∀ A ∈ As, SmallMat N A) ∧
    ∀ mps', (f mps s).1 = .ok mps' → BoundedMPS N mps'

theorem small_two {svd : SVDOracle} (hv : ValidSVD svd) {G : Tensor ℂ} (hG : G.shape = [4, 4]) {i : ℕ}
    (hi : i + 1 < N) : SmallAct N (fun mps => Gate.applyTwo svd G mps (i : ℤ)) := by
  intro mps s hb
  have hk := keeps_two (P := fun i d => d ≤ 2 ^ min i (N - i)) bondClosed_max hv hG (i := (i : ℤ))
    (by omega) (by omega) mps hb s
  have hb0 := hb
  obtain ⟨hl, D, hD0, hDN, hp, hPD, hs⟩ := hb
  have hl1 : i + 1 < mps.length := by omega
  obtain ⟨t, et, st, -⟩ := mergeTwo_ok (hs i (by omega)) (hs (i + 1) hl1) (rep_of_shape (n := 2) hG)
  obtain ⟨m, sm, -, hz, hok⟩ := decomp2_run hv st (hp i) (hp (i + 1 + 1)) s
  have hm : mps = mps.take i ++ ([mps[i], mps[i + 1]] ++ mps.drop (i + 2)) := by simp
  obtain ⟨run1, run2⟩ := applyTwo_run (svd := svd) (pre := mps.take i) (post := mps.drop (i + 2)) (i := i)
    (by simp; omega) et s
  rw [← hm] at run1 run2
  refine ⟨[m], ?_, ?_, ?_⟩
  · by_cases h : bondDim (svd s m).S = 0
    · beta_reduce; rw [run2 _ _ (hz h)]
    · obtain ⟨a, b, e, -⟩ := hok h
      beta_reduce; rw [run1 _ _ _ e]
  · intro A hA
    obtain rfl : A = m := by simpa using hA
    refine ⟨_, _, sm, ?_⟩
    have h1 := hPD i (by omega)
    have h2 := hPD (i + 1 + 1) (by omega)
    rcases le_total (i + 1) (N - i - 1) with h | h
    · refine (min_le_left _ _).trans (le_trans (Nat.mul_le_mul_left 2 h1) ?_)
      rw [← pow_succ']
      exact Nat.pow_le_pow_right (by omega) (by omega)
    · refine (min_le_right _ _).trans (le_trans (Nat.mul_le_mul_left 2 h2) ?_)
      rw [← pow_succ']
      exact Nat.pow_le_pow_right (by omega) (by omega)
  · intro mps' e
    rcases hk with ⟨a, s', e', h'⟩ | ⟨s', e'⟩
    · beta_reduce at e e'
      rw [e'] at e
      cases e
      exact h'
    · beta_reduce at e e'
      rw [e'] at e
      cases e

theorem small_three {svd : SVDOracle} (hv : ValidSVD svd) {G : Tensor ℂ} (hG : G.shape = [8, 8]) {i : ℕ}
    (hi : i + 2 < N) : SmallAct N (fun mps => Gate.applyThree svd G mps ((i : ℤ) + 1)) := by
  intro mps s hb
  have hk := keeps_three (P := fun i d => d ≤ 2 ^ min i (N - i)) bondClosed_max hv hG (i := (i : ℤ) + 1)
    (by omega) (by omega) mps hb s
  have hb0 := hb
  obtain ⟨hl, D, hD0, hDN, hp, hPD, hs⟩ := hb
  have hl2 : i + 1 + 1 < mps.length := by omega
  obtain ⟨t, et, st, -⟩ := mergeThree_ok (hs i (by omega)) (hs (i + 1) (by omega)) (hs (i + 1 + 1) hl2)
    (rep_of_shape (n := 3) hG)
  obtain ⟨m, sm, -, hz, hok⟩ := decomp3_run hv st (hp i) (hp (i + 1 + 1 + 1)) s
  have hm : mps = mps.take i ++ ([mps[i], mps[i + 1], mps[i + 1 + 1]] ++ mps.drop (i + 3)) := by simp
  obtain ⟨run1, run2⟩ := applyThree_run (svd := svd) (pre := mps.take i) (post := mps.drop (i + 3)) (i := i)
    (by simp; omega) et s
  rw [← hm] at run1 run2
  have h1 := hPD i (by omega)
  have h2 := hPD (i + 1 + 1 + 1) (by omega)
  have sm1 : SmallMat N m := by
    refine ⟨_, _, sm, ?_⟩
    rcases le_total (i + 1) (N - i - 1) with h | h
    · refine (min_le_left _ _).trans (le_trans (Nat.mul_le_mul_left 2 h1) ?_)
      rw [← pow_succ']
      exact Nat.pow_le_pow_right (by omega) (by omega)
    · refine (min_le_right _ _).trans (le_trans (Nat.mul_le_mul_left 2 (Nat.mul_le_mul_left 2 h2)) ?_)
      rw [← pow_succ', ← pow_succ']
      exact Nat.pow_le_pow_right (by omega) (by omega)
  have sm2 : ∀ m' : Tensor ℂ, m'.shape = [2 * bondDim (svd s m).S, 2 * D (i + 1 + 1 + 1)] → SmallMat N m' := by
    intro m' sm'
    have hle := bondDim_le (svd s m).S
    rw [(hv s m _ _ sm).lenS] at hle
    refine ⟨_, _, sm', ?_⟩
    rcases le_total (i + 2) (N - i - 2) with h | h
    · refine (min_le_left _ _).trans (le_trans (Nat.mul_le_mul_left 2 ((hle.trans (min_le_left _ _)).trans
        (Nat.mul_le_mul_left 2 h1))) ?_)
      rw [← pow_succ', ← pow_succ']
      exact Nat.pow_le_pow_right (by omega) (by omega)
    · refine (min_le_right _ _).trans (le_trans (Nat.mul_le_mul_left 2 h2) ?_)
      rw [← pow_succ']
      exact Nat.pow_le_pow_right (by omega) (by omega)
  have fin : ∀ mps', (Gate.applyThree svd G mps ((i : ℤ) + 1) s).1 = .ok mps' → BoundedMPS N mps' := by
    intro mps' e
    rcases hk with ⟨a, s', e', h'⟩ | ⟨s', e'⟩
    · beta_reduce at e'
      rw [e'] at e
      cases e
      exact h'
    · beta_reduce at e'
      rw [e'] at e
      cases e
  by_cases h : bondDim (svd s m).S = 0
  · exact ⟨[m], by beta_reduce; rw [run2 _ _ (hz h)], by simpa using sm1, fin⟩
  · obtain ⟨m', sm', -, hz', hok'⟩ := hok h
    refine ⟨[m, m'], ?_, ?_, fin⟩
    · by_cases h' : bondDim (svd (s ++ [m]) m').S = 0
      · beta_reduce; rw [run2 _ _ (hz' h'), List.append_assoc]; rfl
      · obtain ⟨a, b, c, e, -⟩ := hok' h'
        beta_reduce; rw [run1 _ _ _ _ e, List.append_assoc]; rfl
    · intro A hA
      simp only [List.mem_cons, List.not_mem_nil, or_false] at hA
      rcases hA with rfl | rfl
      · exact sm1
      · exact sm2 _ sm'

/-- The sizes of all decompositions. -/
def smallTheory (N : ℕ) {svd : SVDOracle} (hv : ValidSVD svd) : Theory N svd where
  Act f _ _ := SmallAct N f
  nop := fun mps s h => ⟨[], by rw [List.append_nil]; rfl, by simp, fun mps' e => by
    have : mps = mps' := Except.ok.inj e
    exact this ▸ h⟩
  comp {f g _ _ _ _} hf hg := by
    intro mps s h
    obtain ⟨As, e1, s1, b1⟩ := hf mps s h
    beta_reduce
    rcases hres : f mps s with ⟨e | mps1, s'⟩
    · rw [hres] at e1
      rw [TNM.bind_error hres]
      exact ⟨As, e1, s1, fun _ e => by cases e⟩
    · rw [hres] at e1 b1
      rw [TNM.bind_ok hres]
      obtain ⟨Bs, e2, s2, b2⟩ := hg mps1 s' (b1 _ rfl)
      refine ⟨As ++ Bs, ?_, ?_, b2⟩
      · rw [e2, show s' = s ++ As from e1, List.append_assoc]
      · intro A hA
        rcases List.mem_append.1 hA with h | h
        · exact s1 A h
        · exact s2 A h
  site i G _ hG _ := by
    intro mps s h
    obtain ⟨t, t', e1, e2, e3, h'⟩ := keeps_site (P := fun i d => d ≤ 2 ^ min i (N - i)) hG.1 h i.isLt
    have e : siteStep G ((i : ℕ) : ℤ) mps = .ok (mps.set i t') := by
      unfold siteStep
      rw [e1, Py.ok_bind, e2, Py.ok_bind, e3]
    refine ⟨[], by rw [List.append_nil]; rfl, by simp, fun mps' em => ?_⟩
    have em' : siteStep G ((i : ℕ) : ℤ) mps = .ok mps' := em
    rw [e] at em'
    exact Except.ok.inj em' ▸ h'
  two hG _ f i hf := by
    have h1 := hf 1
    have h2 := (f 1).isLt
    simp at h1
    exact small_two hv hG.1 (by omega)
  three hG _ f i hf := by
    have h1 := hf 2
    have h2 := (f 2).isLt
    simp at h1
    exact small_three hv hG.1 (by omega)

/-! ## The bound -/

theorem cutLoss_le {svd : SVDOracle} (hv : ValidSVD svd) {A : Tensor ℂ} (hA : SmallMat N A)
    (s : List (Tensor ℂ)) : cutLoss (svd s A).S ≤ 1e-8 * Real.sqrt (2 ^ (N / 2)) := by
  obtain ⟨m, n, sA, hmn⟩ := hA
  have h := hv s A m n sA
  have key : ∀ S : List ℝ, (∀ x ∈ S, 0 ≤ x) →
      ((S.filter (fun s => decide (s ≤ 1e-8))).map (fun s => s ^ 2)).sum ≤ (S.length : ℝ) * (1e-8 : ℝ) ^ 2 := by
    intro S hS
    induction S with
    | nil => simp
    | cons x S ih =>
      have ih := ih (fun y hy => hS y (by simp [hy]))
      have hx := hS x (by simp)
      by_cases hc : x ≤ 1e-8
      · rw [List.filter_cons_of_pos (by simpa using hc), List.map_cons, List.sum_cons, List.length_cons]
        push_cast
        have : x ^ 2 ≤ (1e-8 : ℝ) ^ 2 := by gcongr
        linarith
      · rw [List.filter_cons_of_neg (by simpa using hc), List.length_cons]
        push_cast
        nlinarith
  unfold cutLoss
  refine Real.sqrt_le_iff.2 ⟨by positivity, (key _ h.nonneg).trans ?_⟩
  rw [mul_pow, Real.sq_sqrt (by positivity), mul_comm, h.lenS]
  gcongr
  exact_mod_cast hmn

theorem truncLoss_le {svd : SVDOracle} (hv : ValidSVD svd) : ∀ (As s : List (Tensor ℂ)),
    (∀ A ∈ As, SmallMat N A) → truncLoss svd s As ≤ As.length * (1e-8 * Real.sqrt (2 ^ (N / 2))) := by
  intro As
  induction As with
  | nil => intro s _; simp [truncLoss]
  | cons A As ih =>
    intro s h
    rw [truncLoss, List.length_cons]
    have h1 := cutLoss_le hv (h A (by simp)) s
    have h2 := ih (s ++ [A]) (fun B hB => h B (by simp [hB]))
    push_cast
    linarith

/-! ## A state vector, converted and evolved -/

theorem sv2mps_within {svd : SVDOracle} (hv : ValidSVD svd) (hN : 0 < N) {psi : Tensor ℂ} {v : QState N}
    (h : IsRow psi v) (hn : norm2 v ≤ 1) (s : List (Tensor ℂ)) :
    ∃ As, (∀ A ∈ As, SmallMat N A) ∧
    ((∃ mps v', StateVec2MPS svd psi N s = (.ok mps, s ++ As) ∧ As.length = N - 1 ∧ IsMPS mps v' ∧
      BoundedMPS N mps ∧ (∀ t ∈ mps, Contr t) ∧ dist2 v' v ≤ truncLoss svd s As) ∨
    (StateVec2MPS svd psi N s = (.error .runtimeError, s ++ As) ∧ As.length ≤ N - 1 ∧
      norm2 v ≤ truncLoss svd s As)) := by
  have hbd : ReturnsOr (BoundedMPS N) (StateVec2MPS svd psi N) := sv2mps_bounded hv hN h.1
  have hbd := hbd s
  rw [sv2mps_unfold svd h.1] at hbd ⊢
  obtain ⟨k, rfl⟩ : ∃ k, N = k + 1 := ⟨N - 1, by omega⟩
  have hnv : nrm 1 (2 ^ (k + 1)) (fun i j => psi.get [i, j]) = norm2 v := by
    unfold nrm norm2
    rw [Finset.sum_range_one, sum_enc]
    congr 1
    exact Finset.sum_congr rfl (fun a _ => by beta_reduce; rw [h.2])
  obtain ⟨As, e1, l1, s1, c1, d1⟩ := loop_more hv k 0 1 psi s (by omega) (by simp) h.1 (hnv ▸ hn)
  refine ⟨As, fun A hA => ?_, ?_⟩
  · obtain ⟨m, n, e, hm⟩ := s1 A hA
    exact ⟨m, n, e, by simpa using hm⟩
  rcases loop_err hv k 1 psi s (by omega) h.1 with ⟨Bs, A, e, -⟩ | ⟨lst, Bs, R, e, hA, hlen, hc, hR, hd⟩
  · right
    rw [e] at e1 d1
    rw [List.append_assoc, List.append_cancel_left_eq] at e1
    refine ⟨by rw [e, List.append_assoc, e1], by omega, ?_⟩
    rw [← hnv]
    exact d1 _ rfl
  · left
    rw [e] at e1 c1 hbd
    obtain rfl : Bs = As := by simpa using e1
    refine ⟨lst, fun a => amp lst (bl a) 0 0, e, by omega, ⟨hlen, hc, fun _ => rfl⟩, ?_, c1 _ rfl, ?_⟩
    · rcases hbd with ⟨a, s', e', h'⟩ | ⟨s', e'⟩
      · cases e'; exact h'
      · cases e'
    · rw [dist2_comm]
      refine le_of_eq_of_le ?_ hd
      unfold dist2 nrm
      rw [Finset.sum_range_one, sum_enc]
      congr 1
      apply Finset.sum_congr rfl
      intro a _
      beta_reduce
      rw [h.2, hR 0 (by omega)]

/-- Evolution of a contracting matrix product state. -/
theorem evolve_within {svd : SVDOracle} (hv : ValidSVD svd) (l : List (Item N)) (h : ∀ it ∈ l, it.WF)
    (hc : ∀ it ∈ l, Spec.Item.mpsOp it) {ops : List Op} (hops : l.mapM buildItem = .ok ops) {c : Circuit}
    (hcn : c.nqubits = N) (hg : c.gate = ops) :
    Within svd (c.TN_evolution svd) (timeOrdered (l.map Item.op)) (l.map Item.decomps).sum := by
  obtain ⟨ops', e, hw⟩ := (withinTheory N hv).items l h hc
  rw [hops] at e
  cases e
  refine ⟨hw.1, fun mps v s hm hcon => ?_⟩
  unfold Circuit.TN_evolution
  rw [raiseIf_false (by simp [hm.1, hcn]), TNM.lift_ok_bind, hg]
  exact hw.2 mps v s hm hcon

theorem evolve_small {svd : SVDOracle} (hv : ValidSVD svd) (l : List (Item N)) (h : ∀ it ∈ l, it.WF)
    (hc : ∀ it ∈ l, Spec.Item.mpsOp it) {ops : List Op} (hops : l.mapM buildItem = .ok ops) {c : Circuit}
    (hcn : c.nqubits = N) (hg : c.gate = ops) : SmallAct N (c.TN_evolution svd) := by
  obtain ⟨ops', e, hw⟩ := (smallTheory N hv).items l h hc
  rw [hops] at e
  cases e
  intro mps s hm
  unfold Circuit.TN_evolution
  rw [raiseIf_false (by simp [hm.1, hcn]), TNM.lift_ok_bind, hg]
  exact hw mps s hm

end QTN
