import Verif.SpecBond
import Verif.Lemmas.BadWires
import Verif.Lemmas.DecompRun
import Verif.Lemmas.MpsCircuit

/-! # Shapes of matrix product states under the tensor-network methods, with or without truncation -/

namespace QTN

open Finset Spec Matrix

variable {N : ℕ} {P : ℕ → ℕ → Prop}

/-- Matrix product states of `N` sites whose bond dimension at position `i` satisfies `P i`. -/
def Bonds (N : ℕ) (P : ℕ → ℕ → Prop) (mps : List (Tensor ℂ)) : Prop :=
  mps.length = N ∧ ∃ D : ℕ → ℕ, D 0 = 1 ∧ D N = 1 ∧ (∀ i, 0 < D i) ∧ (∀ i ≤ N, P i (D i)) ∧
    ∀ (i : ℕ) (h : i < mps.length), mps[i].shape = [2, D i, D (i + 1)]

/-- The restriction on bond dimensions is kept by the decompositions after a gate. -/
structure BondClosed (N : ℕ) (P : ℕ → ℕ → Prop) : Prop where
  two : ∀ i l r d, i + 2 ≤ N → P i l → P (i + 2) r → 0 < d → d ≤ 2 * l → d ≤ 2 * r → P (i + 1) d
  three : ∀ i l r d e, i + 3 ≤ N → P i l → P (i + 3) r → 0 < d → 0 < e → d ≤ 2 * l → d ≤ 4 * r →
    e ≤ 2 * d → e ≤ 2 * r → P (i + 1) d ∧ P (i + 2) e

theorem bondClosed_pos : BondClosed N (fun _ d => 0 < d) :=
  ⟨fun _ _ _ _ _ _ _ h _ _ => h, fun _ _ _ _ _ _ _ _ h h' _ _ _ _ => ⟨h, h'⟩⟩

theorem bondClosed_max : BondClosed N (fun i d => d ≤ 2 ^ min i (N - i)) := by
  have key : ∀ i d a b, d ≤ 2 ^ a → d ≤ 2 ^ b → (a ≤ i ∨ b ≤ i) → (a ≤ N - i ∨ b ≤ N - i) →
      d ≤ 2 ^ min i (N - i) := by
    intro i d a b h1 h2 h3 h4
    have : min a b ≤ min i (N - i) := by omega
    have h5 : d ≤ 2 ^ min a b := by
      rcases le_total a b with h | h
      · rwa [min_eq_left h]
      · rwa [min_eq_right h]
    exact h5.trans (Nat.pow_le_pow_right (by omega) this)
  constructor
  · intro i l r d hi hl hr _ h1 h2
    refine key (i + 1) d (min i (N - i) + 1) (min (i + 2) (N - (i + 2)) + 1) ?_ ?_ ?_ ?_
    · rw [pow_succ]; omega
    · rw [pow_succ]; omega
    · omega
    · omega
  · intro i l r d e hi hl hr _ _ h1 h2 h3 h4
    constructor
    · refine key (i + 1) d (min i (N - i) + 1) (min (i + 3) (N - (i + 3)) + 2) ?_ ?_ ?_ ?_
      · rw [pow_succ]; omega
      · rw [pow_add]; omega
      · omega
      · omega
    · refine key (i + 2) e (min i (N - i) + 2) (min (i + 3) (N - (i + 3)) + 1) ?_ ?_ ?_ ?_
      · rw [pow_add]; omega
      · rw [pow_succ]; omega
      · omega
      · omega

theorem bonds_valid {mps : List (Tensor ℂ)} : Bonds N (fun _ d => 0 < d) mps ↔ ValidMPS N mps :=
  ⟨fun ⟨h, D, h0, hN, hp, _, hs⟩ => ⟨h, D, h0, hN, hp, hs⟩,
    fun ⟨h, D, h0, hN, hp, hs⟩ => ⟨h, D, h0, hN, hp, fun i _ => hp i, hs⟩⟩

theorem bonds_bounded {mps : List (Tensor ℂ)} :
    Bonds N (fun i d => d ≤ 2 ^ min i (N - i)) mps ↔ BoundedMPS N mps := Iff.rfl

/-! ## The computations that keep the shapes -/

/-- `f` turns every admissible state into an admissible state or raises RuntimeError. -/
def Keeps (N : ℕ) (P : ℕ → ℕ → Prop) (f : List (Tensor ℂ) → TNM (List (Tensor ℂ))) : Prop :=
  ∀ mps, Bonds N P mps → ReturnsOr (Bonds N P) (f mps)

theorem Spec.ReturnsOr.bind {α β : Type} {p : α → Prop} {q : β → Prop} {x : TNM α} {f : α → TNM β}
    (h : ReturnsOr p x) (hf : ∀ a, p a → ReturnsOr q (f a)) : ReturnsOr q (x >>= f) := by
  intro s
  rcases h s with ⟨a, s', e, ha⟩ | ⟨s', e⟩
  · rw [TNM.bind_ok e]; exact hf a ha s'
  · exact .inr ⟨s', TNM.bind_error e f⟩

theorem Spec.ReturnsOr.ok {α : Type} {p : α → Prop} {a : α} (h : p a) : ReturnsOr p (pure a : TNM α) :=
  fun s => .inl ⟨a, s, rfl, h⟩

theorem Spec.ReturnsOr.lift {α : Type} {p : α → Prop} {a : α} {x : Py α} (e : x = .ok a) (h : p a) :
    ReturnsOr p (TNM.lift x) := fun s => .inl ⟨a, s, by rw [e]; rfl, h⟩

theorem Spec.ReturnsOr.mono {α : Type} {p q : α → Prop} {x : TNM α} (h : ReturnsOr p x)
    (hpq : ∀ a, p a → q a) : ReturnsOr q x := by
  intro s
  rcases h s with ⟨a, s', e, ha⟩ | h
  · exact .inl ⟨a, s', e, hpq a ha⟩
  · exact .inr h

theorem Spec.ReturnsOr.foldlM {α β : Type} {p : α → Prop} (f : α → β → TNM α) (l : List β)
    (h : ∀ b ∈ l, ∀ a, p a → ReturnsOr p (f a b)) : ∀ a, p a → ReturnsOr p (l.foldlM f a) := by
  induction l with
  | nil => intro a ha; exact .ok ha
  | cons b l ih =>
    intro a ha
    rw [List.foldlM_cons]
    exact (h b (by simp) a ha).bind (ih fun c hc => h c (by simp [hc]))

/-! ## One site -/

theorem bonds_set {mps : List (Tensor ℂ)} {D : ℕ → ℕ} {i : ℕ} {t : Tensor ℂ}
    (hs : ∀ (i : ℕ) (h : i < mps.length), mps[i].shape = [2, D i, D (i + 1)])
    (ht : t.shape = [2, D i, D (i + 1)]) :
    ∀ (j : ℕ) (h : j < (mps.set i t).length), (mps.set i t)[j].shape = [2, D j, D (j + 1)] := by
  intro j hj
  rw [List.getElem_set]
  split
  · next h => subst h; exact ht
  · exact hs j (by simpa using hj)

theorem keeps_site {G : Tensor ℂ} (hG : G.shape = [2, 2]) {mps : List (Tensor ℂ)} (h : Bonds N P mps)
    {i : ℕ} (hi : i < N) :
    ∃ t t', pyGet mps (i : ℤ) = .ok t ∧ Tensor.einsum_ab_bcd G t = .ok t' ∧
      pySet mps (i : ℤ) t' = .ok (mps.set i t') ∧ Bonds N P (mps.set i t') := by
  obtain ⟨hl, D, h0, hN, hp, hP, hs⟩ := h
  have hlen : i < mps.length := by omega
  have ht := hs i hlen
  refine ⟨mps[i], Tensor.ofFn [2, D i, D (i + 1)] (fun idx =>
      ∑ x ∈ range 2, G.get [idx.getD 0 0, x] * mps[i].get [x, idx.getD 1 0, idx.getD 2 0]),
    pyGet_nat hlen, ?_, pySet_nat hlen _, by simpa using hl, D, h0, hN, hp, hP, bonds_set hs rfl⟩
  unfold Tensor.einsum_ab_bcd
  rw [hG, ht]
  simp

/-! ## Two and three sites -/

theorem rep_of_shape {n : ℕ} {G : Tensor ℂ} (h : G.shape = [2 ^ n, 2 ^ n]) :
    Represents G (fun a b : Bits n => G.get [enc a, enc b]) := ⟨h, fun _ _ => rfl⟩

theorem keeps_two (hP : BondClosed N P) {svd : SVDOracle} (hv : ValidSVD svd) {G : Tensor ℂ}
    (hG : G.shape = [4, 4]) {i : ℤ} (h0 : 0 ≤ i) (hi : i + 1 < N) :
    Keeps N P (fun mps => Gate.applyTwo svd G mps i) := by
  intro mps hb s
  lift i to ℕ using h0
  have hiN : i + 1 < N := by omega
  obtain ⟨hl, D, hD0, hDN, hp, hPD, hs⟩ := hb
  have hl1 : i + 1 < mps.length := by omega
  have sA := hs i (by omega)
  have sB := hs (i + 1) hl1
  have c1 : (i : ℤ) + 1 = ((i + 1 : ℕ) : ℤ) := by push_cast; rfl
  obtain ⟨t, et, st, -⟩ := mergeTwo_ok sA sB (rep_of_shape (n := 2) hG)
  obtain ⟨m, sm, -, hz, hok⟩ := decomp2_run hv st (hp i) (hp (i + 1 + 1)) s
  beta_reduce
  unfold Gate.applyTwo
  rw [pyGet_nat (by omega), TNM.lift_ok_bind, c1, pyGet_nat hl1, TNM.lift_ok_bind, et, TNM.lift_ok_bind]
  by_cases h : bondDim (svd s m).S = 0
  · exact .inr ⟨_, TNM.bind_error (hz h) _⟩
  obtain ⟨a, b, e, sa, sb, -⟩ := hok h
  have hle := bondDim_le (svd s m).S
  rw [(hv s m _ _ sm).lenS] at hle
  left
  refine ⟨(mps.set i a).set (i + 1) b, s ++ [m], ?_, by simpa using hl,
    Function.update D (i + 1) (bondDim (svd s m).S), ?_, ?_, ?_, ?_, ?_⟩
  · rw [TNM.bind_ok e]
    show ((liftM (pySet mps (i : ℤ) a) : TNM _) >>= _) _ = _
    rw [pySet_nat (by omega), TNM.lift_ok_bind, pySet_nat (by simpa using hl1)]
    rfl
  · rw [Function.update_of_ne (by omega), hD0]
  · rw [Function.update_of_ne (by omega), hDN]
  · intro j
    by_cases hj : j = i + 1
    · subst hj; rw [Function.update_self]; omega
    · rw [Function.update_of_ne hj]; exact hp j
  · intro j hj
    by_cases hji : j = i + 1
    · subst hji
      rw [Function.update_self]
      exact hP.two i (D i) (D (i + 1 + 1)) _ (by omega) (hPD _ (by omega)) (hPD _ (by omega)) (by omega)
        (by omega) (by omega)
    · rw [Function.update_of_ne hji]; exact hPD j hj
  · intro j hj
    rw [List.getElem_set]
    split
    · next e => subst e; rw [sb, Function.update_self, Function.update_of_ne (by omega)]
    · next e =>
      rw [List.getElem_set, Function.update_of_ne (Ne.symm e)]
      split
      · next e => subst e; rw [sa, Function.update_self]
      · rw [Function.update_of_ne (by omega)]; exact hs j (by simpa using hj)

theorem keeps_three (hP : BondClosed N P) {svd : SVDOracle} (hv : ValidSVD svd) {G : Tensor ℂ}
    (hG : G.shape = [8, 8]) {i : ℤ} (h0 : 1 ≤ i) (hi : i + 1 < N) :
    Keeps N P (fun mps => Gate.applyThree svd G mps i) := by
  intro mps hb s
  obtain ⟨i, rfl⟩ : ∃ k : ℕ, i = ((k + 1 : ℕ) : ℤ) := ⟨(i - 1).toNat, by omega⟩
  have hiN : i + 2 < N := by omega
  obtain ⟨hl, D, hD0, hDN, hp, hPD, hs⟩ := hb
  have hl2 : i + 2 < mps.length := by omega
  have sA := hs i (by omega)
  have sB := hs (i + 1) (by omega)
  have sC := hs (i + 1 + 1) hl2
  have c0 : ((i + 1 : ℕ) : ℤ) - 1 = (i : ℤ) := by push_cast; ring
  have c2 : ((i + 1 : ℕ) : ℤ) + 1 = ((i + 2 : ℕ) : ℤ) := by push_cast; ring
  obtain ⟨t, et, st, -⟩ := mergeThree_ok sA sB sC (rep_of_shape (n := 3) hG)
  obtain ⟨m, sm, -, hz, hok⟩ := decomp3_run hv st (hp i) (hp (i + 1 + 1 + 1)) s
  beta_reduce
  unfold Gate.applyThree
  rw [c0, c2, pyGet_nat (by omega), TNM.lift_ok_bind, pyGet_nat (by omega), TNM.lift_ok_bind,
    pyGet_nat hl2, TNM.lift_ok_bind, et, TNM.lift_ok_bind]
  by_cases h : bondDim (svd s m).S = 0
  · exact .inr ⟨_, TNM.bind_error (hz h) _⟩
  obtain ⟨m', sm', -, hz', hok'⟩ := hok h
  by_cases h' : bondDim (svd (s ++ [m]) m').S = 0
  · exact .inr ⟨_, TNM.bind_error (hz' h') _⟩
  obtain ⟨a, b, c, e, sa, sb, sc, -⟩ := hok' h'
  have hle := bondDim_le (svd s m).S
  rw [(hv s m _ _ sm).lenS] at hle
  have hle' := bondDim_le (svd (s ++ [m]) m').S
  rw [(hv _ m' _ _ sm').lenS] at hle'
  set d := bondDim (svd s m).S
  set d' := bondDim (svd (s ++ [m]) m').S
  have hcl := hP.three i (D i) (D (i + 1 + 1 + 1)) d d' (by omega) (hPD _ (by omega)) (hPD _ (by omega))
    (by omega) (by omega) (by omega) (by omega) (by omega) (by omega)
  left
  refine ⟨((mps.set i a).set (i + 1) b).set (i + 2) c, s ++ [m] ++ [m'], ?_, by simpa using hl,
    Function.update (Function.update D (i + 1) d) (i + 2) d', ?_, ?_, ?_, ?_, ?_⟩
  · rw [TNM.bind_ok e]
    show ((liftM (pySet mps (i : ℤ) a) : TNM _) >>= _) _ = _
    rw [pySet_nat (by omega), TNM.lift_ok_bind, pySet_nat (by simp; omega), TNM.lift_ok_bind,
      pySet_nat (by simpa using hl2)]
    rfl
  · rw [Function.update_of_ne (by omega), Function.update_of_ne (by omega), hD0]
  · rw [Function.update_of_ne (by omega), Function.update_of_ne (by omega), hDN]
  · intro j
    by_cases hj : j = i + 2
    · subst hj; rw [Function.update_self]; omega
    · rw [Function.update_of_ne hj]
      by_cases hj : j = i + 1
      · subst hj; rw [Function.update_self]; omega
      · rw [Function.update_of_ne hj]; exact hp j
  · intro j hj
    by_cases hji : j = i + 2
    · subst hji; rw [Function.update_self]; exact hcl.2
    · rw [Function.update_of_ne hji]
      by_cases hji : j = i + 1
      · subst hji; rw [Function.update_self]; exact hcl.1
      · rw [Function.update_of_ne hji]; exact hPD j hj
  · intro j hj
    rw [List.getElem_set]
    split
    · next e =>
      subst e
      rw [sc, Function.update_self, Function.update_of_ne (by omega), Function.update_of_ne (by omega)]
    · next e2 =>
      rw [List.getElem_set, Function.update_of_ne (Ne.symm e2)]
      split
      · next e => subst e; rw [sb, Function.update_self, Function.update_self]
      · next e1 =>
        rw [List.getElem_set, Function.update_of_ne (Ne.symm e1), Function.update_of_ne (by omega)]
        split
        · next e => subst e; rw [sa, Function.update_self]
        · rw [Function.update_of_ne (by omega)]; exact hs j (by simpa using hj)

/-! ## Gates -/

theorem keeps_swap (hP : BondClosed N P) {svd : SVDOracle} (hv : ValidSVD svd) {g : Gate} {p q : ℤ}
    (hn : g.nqubits = (N : ℤ)) (hw : g.wires = .list [p, q]) (hm : g.matrix.shape = [4, 4])
    (hp : 0 ≤ p) (hp' : p < N) (hq : 0 ≤ q) (hq' : q < N) : Keeps N P (g.swap_TN_operation svd) := by
  intro mps hb
  unfold Gate.swap_TN_operation
  rw [guard_list hn hw, TNM.lift_ok_bind, hw, asList_list, TNM.lift_ok_bind]
  unfold Gate.swapTN
  rw [raiseIf_false (by simp), TNM.lift_ok_bind, pyMin_pair, TNM.lift_ok_bind, pyMax_pair,
    TNM.lift_ok_bind]
  refine Spec.ReturnsOr.bind (Spec.ReturnsOr.foldlM _ _ (fun i hi mps hb => ?_) mps hb) (fun mps hb =>
    Spec.ReturnsOr.foldlM _ _ (fun i hi mps hb => ?_) mps hb)
  · have := mem_pyRange2.1 hi
    exact keeps_two hP hv hm (by omega) (by omega) mps hb
  · have := mem_pyRangeDown.1 hi
    exact keeps_two hP hv hm (by omega) (by omega) mps hb

theorem keeps_swapCall (hP : BondClosed N P) {svd : SVDOracle} (hv : ValidSVD svd) {p q : ℤ}
    (hp : 0 ≤ p) (hp' : p < N) (hq : 0 ≤ q) (hq' : q < N) : Keeps N P (Gate.swapCall svd N p q) :=
  keeps_swap (g := mkSwap N (.list [p, q])) hP hv rfl rfl rfl hp hp' hq hq'

theorem keeps_chain (hP : BondClosed N P) {svd : SVDOracle} (hv : ValidSVD svd) {G : Tensor ℂ}
    (hG : G.shape = [4, 4]) {lo hi : ℤ} (h0 : 0 ≤ lo) (h1 : lo < hi) (h2 : hi < N) :
    Keeps N P (fun mps => do
      let mps ← (pyRange2 lo (hi - 1)).foldlM (fun mps i => Gate.swapCall svd N i (i + 1) mps) mps
      let mps ← Gate.applyTwo svd G mps (hi - 1)
      (pyRangeDown (hi - 1) lo).foldlM (fun mps i => Gate.swapCall svd N (i - 1) i mps) mps) := by
  intro mps hb
  refine Spec.ReturnsOr.bind (Spec.ReturnsOr.foldlM _ _ (fun i hi mps hb => ?_) mps hb) (fun mps hb =>
    Spec.ReturnsOr.bind (keeps_two hP hv hG (by omega) (by omega) mps hb) (fun mps hb =>
    Spec.ReturnsOr.foldlM _ _ (fun i hi mps hb => ?_) mps hb))
  · have := mem_pyRange2.1 hi
    exact keeps_swapCall hP hv (by omega) (by omega) (by omega) (by omega) mps hb
  · have := mem_pyRangeDown.1 hi
    exact keeps_swapCall hP hv (by omega) (by omega) (by omega) (by omega) mps hb

theorem keeps_ctrl (hP : BondClosed N P) {svd : SVDOracle} (hv : ValidSVD svd) {g : Gate} {c t : Fin N}
    (h : c ≠ t) (hn : g.nqubits = (N : ℤ)) (hw : g.wires = .list [wire c, wire t])
    (hm : g.matrix.shape = [4, 4]) {Grev : Py (Tensor ℂ)}
    (hr : ∃ G, Grev = .ok G ∧ G.shape = [4, 4]) : Keeps N P (g.ctrl_TN_operation svd Grev) := by
  obtain ⟨G, hG, rG⟩ := hr
  have w0 : pyGet [wire c, wire t] 0 = .ok (wire c) := rfl
  have hc := c.isLt
  have ht := t.isLt
  have hne : (c : ℕ) ≠ t := fun e => h (Fin.ext e)
  intro mps hb
  have hsel : ∃ G', (if wire c = min (wire c) (wire t) then .ok g.matrix else Grev : Py _) = .ok G' ∧
      G'.shape = [4, 4] := by
    split
    · exact ⟨_, rfl, hm⟩
    · exact ⟨G, hG, rG⟩
  obtain ⟨G', eG', sG'⟩ := hsel
  have := keeps_chain hP hv sG' (lo := min (wire c) (wire t)) (hi := max (wire c) (wire t))
    (by unfold wire; omega) (by unfold wire; omega) (by unfold wire; omega) mps hb
  unfold Gate.ctrl_TN_operation
  rw [guard_list hn hw, TNM.lift_ok_bind, hw, asList_list, TNM.lift_ok_bind,
    raiseIf_false (by simp), TNM.lift_ok_bind, pyMin_pair, TNM.lift_ok_bind, pyMax_pair,
    TNM.lift_ok_bind, w0, TNM.lift_ok_bind, hn, eG']
  exact this

theorem keeps_cnot (hP : BondClosed N P) {svd : SVDOracle} (hv : ValidSVD svd) {g : Gate} {c t : Fin N}
    (h : c ≠ t) (hn : g.nqubits = (N : ℤ)) (hw : g.wires = .list [wire c, wire t]) :
    Keeps N P (g.cnot_TN_operation svd) := by
  obtain ⟨G, hG, rG⟩ := cnot_rev
  have w0 : pyGet [wire c, wire t] 0 = .ok (wire c) := rfl
  have hc := c.isLt
  have ht := t.isLt
  have hne : (c : ℕ) ≠ t := fun e => h (Fin.ext e)
  intro mps hb
  have hsel : ∃ G', (if wire c = min (wire c) (wire t) then .ok cnotMat else
      (mkCnot 2 (.list [1, 0])).U_expand : Py _) = .ok G' ∧ G'.shape = [4, 4] := by
    split
    · exact ⟨_, rfl, rfl⟩
    · exact ⟨G, hG, rG.1⟩
  obtain ⟨G', eG', sG'⟩ := hsel
  have h1 := keeps_chain hP hv sG' (lo := min (wire c) (wire t)) (hi := max (wire c) (wire t))
    (by unfold wire; omega) (by unfold wire; omega) (by unfold wire; omega) mps hb
  have h2 := keeps_two hP hv sG' (i := min (wire c) (wire t)) (by unfold wire; omega)
    (by unfold wire; omega) mps hb
  unfold Gate.cnot_TN_operation
  rw [guard_list hn hw, TNM.lift_ok_bind, hw, asList_list, TNM.lift_ok_bind, pyMin_pair,
    TNM.lift_ok_bind, pyMax_pair, TNM.lift_ok_bind, w0, TNM.lift_ok_bind, hn, eG']
  split
  · exact h2
  · exact h1

theorem keeps_toffoli (hP : BondClosed N P) {svd : SVDOracle} (hv : ValidSVD svd) {g : Gate}
    {p q r : Fin N} (h1 : p ≠ q) (h2 : p ≠ r) (h3 : q ≠ r)
    (hn : g.nqubits = (N : ℤ)) (hw : g.wires = .list [wire p, wire q, wire r]) :
    Keeps N P (g.toffoli_TN_operation svd) := by
  have hs : ∃ x y z : ℤ, 0 ≤ x ∧ x < y ∧ y < z ∧ z < N ∧
      [wire p, wire q, wire r].mergeSort (· ≤ ·) = [x, y, z] := by
    have hp := p.isLt
    have hq := q.isLt
    have hr := r.isLt
    have sw : ∀ (a b c : ℤ), [a, b, c].Perm [b, a, c] := fun a b c => List.Perm.swap _ _ _
    have sw2 : ∀ (a b c : ℤ), [a, b, c].Perm [a, c, b] := fun a b c => (List.Perm.swap _ _ _).cons _
    have hw : ∀ {a b : Fin N}, a < b → wire a < wire b := fun h => by
      have : (_ : ℕ) < _ := h
      unfold wire; omega
    have h0 : ∀ a : Fin N, 0 ≤ wire a ∧ wire a < N := fun a => by
      have := a.isLt
      unfold wire; omega
    have fin : ∀ {x y z : Fin N}, x < y → y < z → [wire p, wire q, wire r].Perm [wire x, wire y, wire z] →
        ∃ x y z : ℤ, 0 ≤ x ∧ x < y ∧ y < z ∧ z < N ∧
          [wire p, wire q, wire r].mergeSort (· ≤ ·) = [x, y, z] := fun {x y z} a b hper =>
      ⟨wire x, wire y, wire z, (h0 x).1, hw a, hw b, (h0 z).2, sort3 (hw a) (hw b) hper⟩
    rcases lt_or_gt_of_ne h1 with a | a
    · rcases lt_or_gt_of_ne h3 with b | b
      · exact fin a b (List.Perm.refl _)
      · rcases lt_or_gt_of_ne h2 with c | c
        · exact fin c b (sw2 _ _ _)
        · exact fin c a ((sw2 _ _ _).trans (sw _ _ _))
    · rcases lt_or_gt_of_ne h2 with b | b
      · exact fin a b (sw _ _ _)
      · rcases lt_or_gt_of_ne h3 with c | c
        · exact fin c b ((sw _ _ _).trans (sw2 _ _ _))
        · exact fin c a (((sw _ _ _).trans (sw2 _ _ _)).trans (sw _ _ _))
  obtain ⟨x, y, z, hx, hxy, hyz, hz, hs⟩ := hs
  have hG : ∃ G, Gate.toffoliG (wire r) y z = .ok G ∧ G.shape = [8, 8] := by
    obtain ⟨Gm, em, rm⟩ := toffoli_mid
    obtain ⟨Gu, eu, ru⟩ := toffoli_up
    unfold Gate.toffoliG
    split
    · exact ⟨_, rfl, rfl⟩
    · split
      · exact ⟨Gm, em, rm.1⟩
      · exact ⟨Gu, eu, ru.1⟩
  obtain ⟨G, hG, sG⟩ := hG
  have g2 : pyGet [wire p, wire q, wire r] 2 = .ok (wire r) := rfl
  have s0 : pyGet [x, y, z] 0 = .ok x := rfl
  have s1 : pyGet [x, y, z] 1 = .ok y := rfl
  have s2 : pyGet [x, y, z] 2 = .ok z := rfl
  intro mps hb
  unfold Gate.toffoli_TN_operation
  rw [guard_list hn hw, TNM.lift_ok_bind, hw, asList_list, TNM.lift_ok_bind, hs]
  show ReturnsOr _ ((liftM (pyGet [x, y, z] 0) : TNM ℤ) >>= _)
  rw [s0, TNM.lift_ok_bind, s1, TNM.lift_ok_bind, s2, TNM.lift_ok_bind, hn]
  simp only [g2, TNM.lift_ok_bind, hG]
  refine Spec.ReturnsOr.bind (Spec.ReturnsOr.foldlM _ _ (fun i hi mps hb => ?_) mps hb) (fun mps hb =>
    Spec.ReturnsOr.bind (Spec.ReturnsOr.foldlM _ _ (fun i hi mps hb => ?_) mps hb) (fun mps hb =>
    Spec.ReturnsOr.bind (keeps_three hP hv sG (by omega) (by omega) mps hb) (fun mps hb =>
    Spec.ReturnsOr.bind (Spec.ReturnsOr.foldlM _ _ (fun i hi mps hb => ?_) mps hb) (fun mps hb =>
    Spec.ReturnsOr.foldlM _ _ (fun i hi mps hb => ?_) mps hb))))
  · have := mem_pyRange2.1 hi
    exact keeps_swapCall hP hv (by omega) (by omega) (by omega) (by omega) mps hb
  · have := mem_pyRangeDown.1 hi
    exact keeps_swapCall hP hv (by omega) (by omega) (by omega) (by omega) mps hb
  · have := mem_pyRangeDown.1 hi
    exact keeps_swapCall hP hv (by omega) (by omega) (by omega) (by omega) mps hb
  · have := mem_pyRange2.1 hi
    exact keeps_swapCall hP hv (by omega) (by omega) (by omega) (by omega) mps hb

theorem keeps_single {g : Gate} {svd : SVDOracle} (i : Fin N)
    (hn : g.nqubits = (N : ℤ)) (hw : g.wires = .int (wire i)) (hm : g.matrix.shape = [2, 2])
    (hc : ∀ mps, g.TN_operation svd mps = TNM.lift (g.single_TN_operation mps)) :
    Keeps N P (g.TN_operation svd) := by
  intro mps hb
  obtain ⟨t, t', e1, e2, e3, hb'⟩ := keeps_site hm hb i.isLt
  rw [hc]
  refine Spec.ReturnsOr.lift ?_ hb'
  unfold Gate.single_TN_operation
  rw [guard_ok hn hw, Py.ok_bind, hw]
  show (do
    let t ← pyGet mps (wire i)
    pySet mps (wire i) (← Tensor.einsum_ab_bcd g.matrix t)) = _
  unfold wire
  rw [e1, Py.ok_bind, e2, Py.ok_bind, e3]

theorem gate_keeps (hP : BondClosed N P) {svd : SVDOracle} (hv : ValidSVD svd) (ins : Instr N)
    (h : ins.WF) (hc : Spec.Instr.mpsOp ins) :
    ∃ g, build ins = .ok g ∧ Keeps N P (g.TN_operation svd) := by
  cases ins with
  | h i => exact ⟨_, rfl, keeps_single i rfl rfl hadamardMat_rep.1 (fun _ => rfl)⟩
  | x i => exact ⟨_, rfl, keeps_single i rfl rfl pauliXMat_rep.1 (fun _ => rfl)⟩
  | y i => exact ⟨_, rfl, keeps_single i rfl rfl pauliYMat_rep.1 (fun _ => rfl)⟩
  | z i => exact ⟨_, rfl, keeps_single i rfl rfl pauliZMat_rep.1 (fun _ => rfl)⟩
  | rx θ i => exact ⟨_, rfl, keeps_single i rfl rfl (rotMat_rep pauliXMat_rep θ).1 (fun _ => rfl)⟩
  | ry θ i => exact ⟨_, rfl, keeps_single i rfl rfl (rotMat_rep pauliYMat_rep θ).1 (fun _ => rfl)⟩
  | rz θ i => exact ⟨_, rfl, keeps_single i rfl rfl (rotMat_rep pauliZMat_rep θ).1 (fun _ => rfl)⟩
  | u1 θ i => exact ⟨_, rfl, keeps_single i rfl rfl (u1Mat_rep θ).1 (fun _ => rfl)⟩
  | u3 θ φ l i =>
    obtain ⟨u, hu, hr⟩ := u3Mat_rep θ φ l
    refine ⟨⟨.u3, N, .int (wire i), [θ, φ, l], u, noMat⟩, ?_, keeps_single i rfl rfl hr.1 (fun _ => rfl)⟩
    simp only [build, mkU3, hu, Py.ok_bind]
  | rxx θ p q => exact hc.elim
  | ryy θ p q => exact hc.elim
  | rzz θ p q => exact hc.elim
  | cnot c t => exact ⟨_, rfl, keeps_cnot hP hv h rfl rfl⟩
  | cz c t =>
    refine ⟨_, rfl, keeps_ctrl (g := mkCz N (.list [wire c, wire t])) hP hv h rfl rfl czMat_rep.1 ?_⟩
    obtain ⟨G, e, r⟩ := ctrl_rep (N := 2) (g := mkCz 2 (.list [1, 0])) (c := 1) (t := 0) (by decide) rfl
      rfl pauliZMat_rep
    exact ⟨G, e, r.1⟩
  | cphase θ c t =>
    refine ⟨_, rfl, keeps_ctrl (g := mkCphase θ N (.list [wire c, wire t])) hP hv h rfl rfl ?_ ?_⟩
    · rw [show (mkCphase θ N (.list [wire c, wire t])).matrix = cphaseMatUpd θ from
        (cphaseMat_eq θ).symm]
      exact (cphaseMatUpd_rep θ).1
    · obtain ⟨g, hg, G, e, r⟩ := build_ok (N := 2) (.cphase θ 1 0) (show (1 : Fin 2) ≠ 0 by decide)
      cases hg
      exact ⟨G, e, r.1⟩
  | cu3 θ φ l c t =>
    obtain ⟨u, hu, hr⟩ := u3Mat_rep θ φ l
    obtain ⟨m, hm, rm⟩ := cu3_matrix hr
    refine ⟨⟨.cu3, N, .list [wire c, wire t], [θ, φ, l], m, u⟩, ?_,
      keeps_ctrl (g := ⟨.cu3, N, .list [wire c, wire t], [θ, φ, l], m, u⟩) hP hv h rfl rfl rm.1 ?_⟩
    · simp only [build, mkCu3, hu, Py.ok_bind, hm]
    · obtain ⟨G, e, r⟩ := two_qubit_control_rep (N := 2) (c := 1) (t := 0) (by decide) hr
      exact ⟨G, e, r.1⟩
  | swap p q =>
    refine ⟨_, rfl, keeps_swap (g := mkSwap N (.list [wire p, wire q])) hP hv rfl rfl rfl ?_ ?_ ?_ ?_⟩ <;>
    · have := p.isLt
      have := q.isLt
      unfold wire
      omega
  | toffoli a b t => exact ⟨_, rfl, keeps_toffoli hP hv h.1 h.2.1 h.2.2 rfl rfl⟩
  | mcnot cs t => exact hc.elim

/-! ## Layers and rings -/

theorem sLayer_keeps (l : SLayer) (hn : l.nqubits = N) (ws : List (Fin N)) (hw : ws.Nodup)
    (hl : l.wires = wires ws) (m : ℕ → Mat2)
    (h : ∀ i < ws.length, ∃ t, l.wireMat i = .ok t ∧ Represents2 t (m i)) :
    Keeps N P (fun mps => TNM.lift (l.TN_operation mps)) := by
  obtain ⟨f, hf, hr⟩ := calGates_rep ws hw m h
  have hfold : ∀ (us : List (Fin N)) (mps : List (Tensor ℂ)), Bonds N P mps →
      ∃ mps', (us.map (fun w => wire w)).foldlM (fun mps q => do
        pySet mps q (← Tensor.einsum_ab_bcd (← pyGet (List.ofFn f) q) (← pyGet mps q))) mps =
          (.ok mps' : Py _) ∧ Bonds N P mps' := by
    intro us
    induction us with
    | nil => intro mps h; exact ⟨mps, rfl, h⟩
    | cons w us ih =>
      intro mps h
      obtain ⟨t, t', e1, e2, e3, h'⟩ := keeps_site (hr w).1 h w.isLt
      obtain ⟨mps', e, hm'⟩ := ih _ h'
      refine ⟨mps', ?_, hm'⟩
      rw [List.map_cons, List.foldlM_cons, pyGet_ofFn, Py.ok_bind]
      show (do
        let x ← pyGet mps ((w : ℕ) : ℤ)
        let y ← Tensor.einsum_ab_bcd (f w) x
        pySet mps ((w : ℕ) : ℤ) y) >>= _ = _
      rw [e1, Py.ok_bind, e2, Py.ok_bind, e3, Py.ok_bind, e]
  intro mps hb
  obtain ⟨mps', e, hm'⟩ := hfold ws mps hb
  refine Spec.ReturnsOr.lift ?_ hm'
  rw [← hn, ← hl] at hf
  show SingleLayer.TN_operation (SingleLayer.calGates l.nqubits l.wires l.wireMat) l.wires mps = _
  unfold SingleLayer.TN_operation
  rw [hf, Py.ok_bind, hl]
  exact e

theorem keeps_cnotCall (hP : BondClosed N P) {svd : SVDOracle} (hv : ValidSVD svd) {p q : ℤ}
    (hp : 0 ≤ p) (hp' : p < N) (hq : 0 ≤ q) (hq' : q < N) (h : p ≠ q) :
    Keeps N P (Ring.cnotCall svd N p q) := by
  lift p to ℕ using hp
  lift q to ℕ using hq
  exact keeps_cnot (g := mkCnot N (.list [(p : ℤ), (q : ℤ)])) (c := ⟨p, by omega⟩) (t := ⟨q, by omega⟩)
    hP hv (by simp only [ne_eq, Fin.mk.injEq]; omega) rfl rfl

theorem keeps_wrap (hP : BondClosed N P) {svd : SVDOracle} (hv : ValidSVD svd) :
    Keeps N P (Ring.wrapCnot svd N N) := by
  intro mps hb
  unfold Ring.wrapCnot
  refine Spec.ReturnsOr.bind (Spec.ReturnsOr.foldlM _ _ (fun i hi mps hb => ?_) mps hb) (fun mps hb =>
    Spec.ReturnsOr.foldlM _ _ (fun i hi mps hb => ?_) mps hb)
  · have := mem_pyRange_iff.1 hi
    split
    · exact keeps_swapCall hP hv (by omega) (by omega) (by omega) (by omega) mps hb
    · exact keeps_cnotCall hP hv (by omega) (by omega) (by omega) (by omega) (by omega) mps hb
  · have := mem_pyRangeDown.1 hi
    exact keeps_swapCall hP hv (by omega) (by omega) (by omega) (by omega) mps hb

theorem ring_keeps (hP : BondClosed N P) {svd : SVDOracle} (hv : ValidSVD svd) (k : RingKind)
    (hk : k ≠ .ring2) :
    Keeps N P ((⟨k, N, wires (List.finRange N)⟩ : Ring).TN_operation svd) := by
  have hlen2 : (((wires (List.finRange N)).length : ℕ) : ℤ) = (N : ℤ) := by simp [wires]
  have hw : ¬ (wires (List.finRange N) ≠ pyRange (N : ℤ)) := by rw [wires_finRange]; simp
  intro mps hb
  unfold Ring.TN_operation
  cases k
  · dsimp only
    rw [raiseIf_false hw, TNM.lift_ok_bind, hlen2]
    refine Spec.ReturnsOr.bind (Spec.ReturnsOr.foldlM _ _ (fun i hi mps hb => ?_) mps hb) (fun mps hb => ?_)
    · have := mem_pyRange_iff.1 hi
      exact keeps_cnotCall hP hv (by omega) (by omega) (by omega) (by omega) (by omega) mps hb
    · split
      · exact Spec.ReturnsOr.ok hb
      · exact keeps_wrap hP hv mps hb
  · dsimp only
    rw [raiseIf_false hw, TNM.lift_ok_bind, hlen2]
    split
    · next e =>
      have := keeps_cnotCall hP hv (N := N) (p := 0) (q := 1) (by omega) (by omega) (by omega) (by omega)
        (by omega) mps hb
      rwa [e] at this
    · refine Spec.ReturnsOr.bind (keeps_wrap hP hv mps hb) (fun mps hb =>
        Spec.ReturnsOr.foldlM _ _ (fun i hi mps hb => ?_) mps hb)
      have := mem_pyRangeDown.1 hi
      exact keeps_cnotCall hP hv (by omega) (by omega) (by omega) (by omega) (by omega) mps hb
  · exact absurd rfl hk

theorem item_keeps (hP : BondClosed N P) {svd : SVDOracle} (hv : ValidSVD svd) (it : Item N) (h : it.WF)
    (hc : Spec.Item.mpsOp it) :
    ∃ o, buildItem it = .ok o ∧ o.supportTN = true ∧ Keeps N P (o.TN_operation svd) := by
  cases it with
  | gate ins =>
    obtain ⟨g, hg, rg⟩ := gate_keeps hP hv ins h hc
    refine ⟨.gate g, by simp [buildItem, hg], ?_, rg⟩
    exact build_supportTN hg (by cases ins <;> trivial)
  | layer k ws p =>
    obtain ⟨hN, hw, hp⟩ := h
    exact ⟨.single ⟨layerCls k, N, wires ws, p⟩, by
      simp only [buildItem]
      rw [mkSLayer_ok hw (by rw [layerCls_arity]; exact hp.symm)]
      rfl, rfl, sLayer_keeps _ rfl ws hw rfl (fun i => seqRot k.axes (p.drop (k.axes.length * i)))
        (fun _ hi => wireMat_rep k hi hp)⟩
  | hlayer ws =>
    obtain ⟨hN, hw⟩ := h
    exact ⟨.single ⟨.h, N, wires ws, []⟩, by
      simp only [buildItem]
      rw [mkSLayer_ok hw (by simp [LayerCls.arity])]
      rfl, rfl, sLayer_keeps _ rfl ws hw rfl (fun _ => H) (fun _ _ => ⟨_, rfl, hadamardMat_rep⟩)⟩
  | ring ws =>
    obtain ⟨hw, h2⟩ := h
    have hc' : ws = List.finRange N := hc
    subst hc'
    exact ⟨.ring ⟨.ring, N, wires (List.finRange N)⟩, by
      simp only [buildItem]; rw [mkRing_ok hw h2]; rfl, rfl,
      ring_keeps hP hv .ring (by simp)⟩
  | ringDag ws =>
    obtain ⟨hw, h2⟩ := h
    have hc' : ws = List.finRange N := hc
    subst hc'
    exact ⟨.ring ⟨.dagger, N, wires (List.finRange N)⟩, by
      simp only [buildItem]; rw [mkRing_ok hw h2]; rfl, rfl,
      ring_keeps hP hv .dagger (by simp)⟩
  | ring2 ws => exact hc.elim
  | basic ws p reps => exact hc.elim

/-! ## Circuits -/

theorem circuit_keeps (hP : BondClosed N P) {svd : SVDOracle} (hv : ValidSVD svd) (l : List (Item N))
    (h : ∀ it ∈ l, it.WF) (hc : ∀ it ∈ l, Spec.Item.mpsOp it) {ops : List Op}
    (hops : l.mapM buildItem = .ok ops) {c : Circuit} (hn : c.nqubits = N) (hg : c.gate = ops) :
    Keeps N P (c.TN_evolution svd) := by
  have hall : ∀ o ∈ ops, o.supportTN = true ∧ Keeps N P (o.TN_operation svd) := by
    clear hg
    induction l generalizing ops with
    | nil => rw [List.mapM_nil] at hops; cases hops; simp
    | cons it l ih =>
      obtain ⟨o, ho, hs, hk⟩ := item_keeps hP hv it (h it (by simp)) (hc it (by simp))
      rw [List.mapM_cons, ho, Py.ok_bind] at hops
      rcases hr : l.mapM buildItem with e | ops'
      · rw [hr, Py.error_bind] at hops; cases hops
      · rw [hr, Py.ok_bind] at hops
        cases hops
        intro o' ho'
        rcases List.mem_cons.1 ho' with rfl | ho'
        · exact ⟨hs, hk⟩
        · exact ih (fun j hj => h j (by simp [hj])) (fun j hj => hc j (by simp [hj])) hr o' ho'
  intro mps hb
  unfold Circuit.TN_evolution
  rw [raiseIf_false (by simp [hb.1, hn]), TNM.lift_ok_bind, hg]
  refine Spec.ReturnsOr.foldlM _ _ (fun o ho mps hb => ?_) mps hb
  rw [if_pos (hall o ho).1]
  exact (hall o ho).2 mps hb

/-! ## StateVec2MPS -/

theorem loop_bonds {svd : SVDOracle} (hv : ValidSVD svd) : ∀ (k j D : ℕ) (c : Tensor ℂ), 0 < D →
    D ≤ 2 ^ min j (k + 1) → c.shape = [D, 2 ^ (k + 1)] →
    ReturnsOr (fun lst => lst.length = k + 1 ∧ ∃ E : ℕ → ℕ, E 0 = D ∧ E (k + 1) = 1 ∧ (∀ i, 0 < E i) ∧
      (∀ i ≤ k + 1, E i ≤ 2 ^ min (j + i) (k + 1 - i)) ∧
      ∀ (i : ℕ) (h : i < lst.length), lst[i].shape = [2, E i, E (i + 1)])
      (StateVec2MPS_loop svd (k + 1) c) := by
  intro k
  induction k with
  | zero =>
    intro j D c hD hle hc s
    obtain ⟨t, et, st, -⟩ := loop_last svd (c := c) (by simpa using hc) s
    refine .inl ⟨_, _, et, rfl, fun i => if i = 0 then D else 1, rfl, rfl, ?_, ?_, ?_⟩
    · intro i; beta_reduce; split <;> omega
    · intro i hi
      rcases Nat.le_one_iff_eq_zero_or_eq_one.1 hi with rfl | rfl
      · simpa using hle
      · simp
    · intro i hi
      obtain rfl : i = 0 := by simpa using hi
      exact st
  | succ k ih =>
    intro j D c hD hle hc s
    obtain ⟨A, sA, -, h0, h1, -⟩ := loop_step (c := c) (k := k) hv hD (by rw [hc]; congr 2; ring) s
    by_cases hb : bondDim (svd s A).S = 0
    · exact .inr ⟨_, h0 hb⟩
    obtain ⟨U, r, t, tr, st, -, he, hok⟩ := h1 hb
    have hE := Nat.pos_of_ne_zero hb
    have hl := bondDim_le (svd s A).S
    rw [(hv s A _ _ sA).lenS] at hl
    have hle' : bondDim (svd s A).S ≤ 2 ^ min (j + 1) (k + 1) := by
      rcases le_total (j + 1) (k + 1) with h | h
      · rw [min_eq_left h]
        have : D ≤ 2 ^ j := hle.trans (Nat.pow_le_pow_right (by omega) (min_le_left _ _))
        rw [pow_succ]
        omega
      · rw [min_eq_right h]
        omega
    rcases ih (j + 1) _ r hE hle' tr.shapeR (s ++ [A]) with ⟨lst, s', e, hlen, E, e0, e1, hpos, hbd, hs⟩ | ⟨s', e⟩
    swap
    · exact .inr ⟨s', he _ _ e⟩
    refine .inl ⟨t :: lst, s', hok _ _ e, by simp [hlen], fun i => if i = 0 then D else E (i - 1), rfl, ?_,
      ?_, ?_, ?_⟩
    · simpa using e1
    · intro i; beta_reduce; split
      · omega
      · exact hpos _
    · intro i hi
      rcases i with _ | i
      · simpa using hle
      · have := hbd i (by omega)
        simp only [Nat.add_sub_cancel, if_neg (Nat.succ_ne_zero i)]
        rwa [show j + (i + 1) = j + 1 + i by ring, show k + 1 + 1 - (i + 1) = k + 1 - i by omega]
    · intro i hi
      rcases i with _ | i
      · simpa [e0] using st
      · have := hs i (by simpa using hi)
        simpa using this

theorem sv2mps_bounded {svd : SVDOracle} (hv : ValidSVD svd) (hN : 0 < N) {psi : Tensor ℂ}
    (h : psi.shape = [1, 2 ^ N]) : ReturnsOr (BoundedMPS N) (StateVec2MPS svd psi N) := by
  rw [sv2mps_unfold svd h]
  obtain ⟨k, rfl⟩ : ∃ k, N = k + 1 := ⟨N - 1, by omega⟩
  refine (loop_bonds hv k 0 1 psi (by omega) (by simp) h).mono ?_
  rintro lst ⟨hl, E, e0, e1, hp, hb, hs⟩
  exact ⟨hl, E, e0, e1, hp, by simpa using hb, hs⟩

end QTN
