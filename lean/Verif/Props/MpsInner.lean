import Verif.Lemmas.Inner
import Verif.Lemmas.Expect
import Verif.Lemmas.LosslessEx
import Verif.Build

/-! # Properties C30 and C31: inner products and local expectation values of matrix product states -/

namespace QTN.Props

open QTN QTN.Spec Matrix

variable {N : ℕ}

/-! ## C30 -/

/-- The dimension of the bond between sites `i - 1` and `i`. -/
def bond (mps : List (Tensor ℂ)) (i : ℕ) : ℕ := (mps.getD i (Tensor.zeros [])).shape.getD 1 0

/-- C30 (partial: all inner bonds of both states have dimension at least 2): the inner product of any
two matrix product states of `N ≥ 2` sites is `∑ conj(bra) ket`, a scalar.
Missing for the full statement: states with an inner bond of dimension 1 and one-site states, for
which it is false (`C30_thin_bond_raises`, `C30_one_site_raises`). -/
theorem C30_inner_product_partial (hN : 2 ≤ N) (ket bra : List (Tensor ℂ)) (v w : QState N)
    (hk : HoldsState ket v) (hb : HoldsState bra w) (bk : ∀ i, 0 < i → i < N → 2 ≤ bond ket i)
    (bb : ∀ i, 0 < i → i < N → 2 ≤ bond bra i) :
    ∃ t, MPS_inner_product ket bra = .ok t ∧ t.shape = [] ∧ t.get [] = ∑ a, star (w a) * v a :=
  ⟨_, inner_ok hN (holds_iff.1 hk) (holds_iff.1 hb) bk bb, rfl, Tensor.get_ofFn rfl⟩

/-- C30: if some inner bond of the ket or the bra has dimension 1, the call raises. -/
theorem C30_thin_bond_raises (ket bra : List (Tensor ℂ)) (v w : QState N)
    (hk : HoldsState ket v) (hb : HoldsState bra w)
    (h : ∃ i, 0 < i ∧ i < N ∧ (bond ket i = 1 ∨ bond bra i = 1)) :
    Raises (MPS_inner_product ket bra) :=
  inner_thin (holds_iff.1 hk) (holds_iff.1 hb) h

/-- C30: one-site states raise. -/
theorem C30_one_site_raises (ket bra : List (Tensor ℂ)) (v w : QState 1)
    (hk : HoldsState ket v) (hb : HoldsState bra w) :
    MPS_inner_product ket bra = .error .unboundLocal := by
  obtain ⟨lk, ck, -⟩ := holds_iff.1 hk
  obtain ⟨lb, cb, -⟩ := holds_iff.1 hb
  obtain ⟨ss, hs⟩ := sites_exist ck cb
  have hl : ss.length = 1 := by
    have := congrArg List.length hs
    simpa [lk, lb] using this.symm
  have := inner_sites bra ket bra [] ss rfl (by rw [lk, lb]) hs
  rw [List.length_nil] at this
  unfold MPS_inner_product
  rw [this, Py.ok_bind]
  obtain ⟨s, rfl⟩ := List.length_eq_one_iff.1 hl
  rfl

/-- C30: of two matrix product states of the same number of sites, the inner product is returned
exactly when there are at least two sites and no inner bond has dimension 1. -/
theorem C30_returns_iff (hN : 0 < N) (ket bra : List (Tensor ℂ)) (v w : QState N)
    (hk : HoldsState ket v) (hb : HoldsState bra w) :
    (∃ t, MPS_inner_product ket bra = .ok t) ↔
      2 ≤ N ∧ ∀ i, 0 < i → i < N → bond ket i ≠ 1 ∧ bond bra i ≠ 1 := by
  have pos : ∀ (m : List (Tensor ℂ)) (u : QState N), HoldsState m u → ∀ i, i < N → 0 < bond m i := by
    rintro m u ⟨hl, D, -, -, hp, hs, -⟩ i hi
    have e : bond m i = D i := by
      simp [bond, List.getD_eq_getElem?_getD, List.getElem?_eq_getElem (show i < m.length by omega),
        hs i (by omega)]
    rw [e]
    exact hp i
  constructor
  · rintro ⟨t, ht⟩
    by_cases h1 : N = 1
    · subst h1
      rw [C30_one_site_raises ket bra v w hk hb] at ht
      cases ht
    · refine ⟨by omega, fun i h0 hi => ?_⟩
      by_contra hc
      obtain ⟨e, he⟩ := C30_thin_bond_raises ket bra v w hk hb ⟨i, h0, hi, by tauto⟩
      rw [he] at ht
      cases ht
  · rintro ⟨h2, h⟩
    obtain ⟨t, ht, -⟩ := C30_inner_product_partial h2 ket bra v w hk hb
      (fun i h0 hi => by have := pos ket v hk i hi; have := (h i h0 hi).1; omega)
      (fun i h0 hi => by have := pos bra w hb i hi; have := (h i h0 hi).2; omega)
    exact ⟨t, ht⟩

/-- C30 is false for product states: `⟨ψ|ψ⟩` of `ψ = (|0⟩ + i|1⟩)|0⟩` raises. -/
theorem C30_product_state_raises : ∃ (mps : List (Tensor ℂ)) (v : QState 2), HoldsState mps v ∧ v ≠ 0 ∧
    Raises (MPS_inner_product mps mps) := by
  refine ⟨_, _, holds_iff.2 (site1_pair 1 Complex.I 1 0), fun h => ?_, ?_⟩
  · have := congrFun h 0
    simp at this
  · exact C30_thin_bond_raises _ _ _ _ (holds_iff.2 (site1_pair 1 Complex.I 1 0))
      (holds_iff.2 (site1_pair 1 Complex.I 1 0)) ⟨1, by omega, by omega, .inl rfl⟩

/-- A three-site state with bonds 2 and 3 meets the hypotheses of `C30_inner_product_partial`. -/
example : ∃ (mps : List (Tensor ℂ)) (v : QState 3), HoldsState mps v ∧
    ∀ i, 0 < i → i < 3 → 2 ≤ bond mps i := by
  have h : ValidMPS 3 [Tensor.ofFn [2, 1, 2] (fun i => (i.getD 0 0 : ℂ)), Tensor.ofFn [2, 2, 3] (fun _ => 1),
      Tensor.ofFn [2, 3, 1] (fun i => Complex.I * (i.getD 1 0 : ℂ))] :=
    ⟨rfl, fun i => match i with | 1 => 2 | 2 => 3 | _ => 1, rfl, rfl, fun i => by beta_reduce; split <;> omega,
      fun i h => by
        match i, h with
        | 0, _ => rfl
        | 1, _ => rfl
        | 2, _ => rfl⟩
  obtain ⟨v, hv⟩ := h.holds
  refine ⟨_, v, hv, fun i h0 h3 => ?_⟩
  interval_cases i
  · exact le_refl 2
  · exact (by omega : 2 ≤ 3)

/-! ## C31 -/

theorem expec_fold (obs : List (Tensor ℂ)) : ∀ (l : List (Fin N × Mat2)) (os pre mps : List (Tensor ℂ))
    (v : QState N), obs = pre ++ os → List.Forall₂ Represents2 os (l.map Prod.snd) → IsMPS mps v →
    ∃ mps', ((wires (l.map Prod.fst)).zipIdx pre.length).foldlM (fun m (wi : ℤ × ℕ) => do
        let o ← pyGet obs wi.2
        expecStep m wi.1 o) mps = .ok mps' ∧
      IsMPS mps' (timeOrdered (l.map fun p => onQubit p.1 p.2) *ᵥ v) := by
  intro l
  induction l with
  | nil =>
    intro os pre mps v _ _ h
    exact ⟨mps, rfl, by simpa using h⟩
  | cons p l ih =>
    intro os pre mps v ho hf h
    obtain ⟨o, os, hp, hf', rfl⟩ := List.forall₂_cons_right_iff.1 hf
    obtain ⟨m1, e1, h1⟩ := expecStep_ok hp h p.1
    obtain ⟨m2, e2, h2⟩ := ih os (pre ++ [o]) m1 _ (by simp [ho]) hf' h1
    refine ⟨m2, ?_, ?_⟩
    · have e : pyGet obs ((pre.length : ℕ) : ℤ) = .ok o := by
        rw [pyGet_nat (by rw [ho]; simp)]
        simp [ho]
      rw [List.length_append, List.length_singleton] at e2
      simp only [List.map_cons, wires, List.zipIdx_cons, List.foldlM_cons]
      rw [e, Py.ok_bind]
      erw [e1]
      exact e2
    · rw [List.map_cons, timeOrdered_cons, ← mulVec_mulVec]
      exact h2

theorem braket_dot (O : QOp N) (v : QState N) : star v ⬝ᵥ (O *ᵥ v) = braket O v := by
  rw [braket_eq, dotProduct_mulVec]

/-- C31: the value of one call, and the caller's list afterwards, for any wires (repetitions allowed)
and any 2×2 matrices. -/
theorem C31_value (hN : 0 < N) (mps : List (Tensor ℂ)) (v : QState N) (h : HoldsState mps v)
    (l : List (Fin N × Mat2)) (obs : List (Tensor ℂ))
    (ho : List.Forall₂ Represents2 obs (l.map Prod.snd)) :
    ∃ mps', MPS_expec mps (wires (l.map Prod.fst)) obs =
        .ok ((braket (timeOrdered (l.map fun p => onQubit p.1 p.2)) v).re, mps') ∧
      HoldsState mps' (timeOrdered (l.map fun p => onQubit p.1 p.2) *ᵥ v) := by
  have h := holds_iff.1 h
  obtain ⟨mps', e, h'⟩ := expec_fold obs l obs [] mps v rfl ho h
  obtain ⟨s0, e0, r0⟩ := mps2sv_rep h hN
  obtain ⟨s1, e1, r1⟩ := mps2sv_rep h' hN
  obtain ⟨c, ec, rc⟩ := row_view_col r1
  obtain ⟨t, et, st, gt⟩ := (row_conj r0).mulCol rc
  refine ⟨mps', ?_, holds_iff.2 h'⟩
  unfold MPS_expec
  rw [List.length_nil] at e
  rw [e0, Py.ok_bind, row_view_row r0, Py.ok_bind, e, Py.ok_bind, e1, Py.ok_bind, ec, Py.ok_bind, et, Py.ok_bind,
    squeeze11 st, gt, braket_dot]

/-- C31 (partial: products of observables that are unitary, such as Pauli matrices): the second call
with the same arguments returns the same value.
Missing for the full statement: other observables, for which it is false (`C31_second_call_differs`),
because the call replaces the caller's sites. -/
theorem C31_second_call_partial (hN : 0 < N) (mps : List (Tensor ℂ)) (v : QState N) (h : HoldsState mps v)
    (l : List (Fin N × Mat2)) (obs : List (Tensor ℂ))
    (ho : List.Forall₂ Represents2 obs (l.map Prod.snd)) (hu : ∀ p ∈ l, p.2 * p.2ᴴ = 1) :
    ∃ r mps' mps'', MPS_expec mps (wires (l.map Prod.fst)) obs = .ok (r, mps') ∧
      MPS_expec mps' (wires (l.map Prod.fst)) obs = .ok (r, mps'') := by
  obtain ⟨m1, e1, h1⟩ := C31_value hN mps v h l obs ho
  obtain ⟨m2, e2, h2⟩ := C31_value hN m1 _ h1 l obs ho
  refine ⟨_, m1, m2, e1, ?_⟩
  rw [e2, braket_mul]
  have hU : IsUnitaryOp (timeOrdered (l.map fun p => onQubit p.1 p.2)) := by
    apply timeOrdered_unitary
    intro u hu'
    obtain ⟨p, hp, rfl⟩ := List.mem_map.1 hu'
    exact onQubit_unitary (⟨hu p hp, mul_eq_one_comm.1 (hu p hp)⟩ : IsU2 p.2) p.1
  rw [hU.2, Matrix.one_mul]

/-- Pauli X on qubit 0 and Pauli Z on qubit 1 of `(|0⟩ + i|1⟩)|0⟩` meet the hypotheses. -/
example : ∃ (mps obs : List (Tensor ℂ)) (v : QState 2) (l : List (Fin 2 × Mat2)), HoldsState mps v ∧ v ![1, 1] = 0 ∧
    v ![1, 0] = Complex.I ∧ l = [(0, !![0, 1; 1, 0]), (1, !![1, 0; 0, -1])] ∧
    List.Forall₂ Represents2 obs (l.map Prod.snd) ∧ ∀ p ∈ l, p.2 * p.2ᴴ = 1 := by
  have tens : ∀ g : Mat2, Represents2 (Tensor.ofFn [2, 2] (fun i =>
      if i = [0, 0] then g 0 0 else if i = [0, 1] then g 0 1 else if i = [1, 0] then g 1 0 else g 1 1)) g := by
    intro g
    refine ⟨rfl, fun x y => ?_⟩
    rw [Tensor.get_ofFn (by have := x.isLt; have := y.isLt; inb)]
    fin_cases x <;> fin_cases y <;> simp
  refine ⟨_, _, _, _, holds_iff.2 (site1_pair 1 Complex.I 1 0), ?_, ?_, rfl, .cons (tens _) (.cons (tens _) .nil), ?_⟩
  · simp
  · simp
  · intro p hp
    simp only [List.mem_cons, List.not_mem_nil, or_false] at hp
    rcases hp with rfl | rfl <;> ext i j <;> fin_cases i <;> fin_cases j <;>
      simp [Matrix.mul_apply, Fin.sum_univ_two]

/-- C31: the value of the second call with the same arguments. -/
theorem C31_second_call_value (hN : 0 < N) (mps : List (Tensor ℂ)) (v : QState N) (h : HoldsState mps v)
    (l : List (Fin N × Mat2)) (obs : List (Tensor ℂ))
    (ho : List.Forall₂ Represents2 obs (l.map Prod.snd)) :
    ∃ r mps' mps'', MPS_expec mps (wires (l.map Prod.fst)) obs = .ok (r, mps') ∧
      MPS_expec mps' (wires (l.map Prod.fst)) obs =
        .ok ((braket (timeOrdered (l.map fun p => onQubit p.1 p.2))
          (timeOrdered (l.map fun p => onQubit p.1 p.2) *ᵥ v)).re, mps'') := by
  obtain ⟨m1, e1, h1⟩ := C31_value hN mps v h l obs ho
  obtain ⟨m2, e2, -⟩ := C31_value hN m1 _ h1 l obs ho
  exact ⟨_, m1, m2, e1, e2⟩

/-- C31 is false for repeated calls: on `|11⟩` with the observable `diag(1, 2)` on qubit 0 the first
call returns 2, the second call with the same arguments returns 8. -/
theorem C31_second_call_differs : ∃ (mps mps' mps'' : List (Tensor ℂ)) (v : QState 2) (O : Tensor ℂ),
    HoldsState mps v ∧ Represents2 O !![1, 0; 0, 2] ∧ MPS_expec mps [0] [O] = .ok (2, mps') ∧
      MPS_expec mps' [0] [O] = .ok (8, mps'') := by
  have hO : Represents2 (Tensor.ofFn [2, 2] (fun i => if i = [0, 0] then (1 : ℂ) else if i = [1, 1] then 2 else 0))
      !![1, 0; 0, 2] := by
    refine ⟨rfl, fun x y => ?_⟩
    rw [Tensor.get_ofFn (by have := x.isLt; have := y.isLt; inb)]
    fin_cases x <;> fin_cases y <;> simp
  have hv : (fun a : Bits 2 => (if a 0 = 0 then (0 : ℂ) else 1) * (if a 1 = 0 then 0 else 1)) =
      fun a => if a = 1 then 1 else 0 := by
    funext a
    have : a = 1 ↔ ¬ a 0 = 0 ∧ ¬ a 1 = 0 := by revert a; decide
    by_cases h0 : a 0 = 0 <;> by_cases h1 : a 1 = 0 <;> simp [this, h0, h1]
  have h := holds_iff.2 (site1_pair 0 1 0 1)
  rw [hv] at h
  have he : onQubit (0 : Fin 2) !![1, 0; 0, (2 : ℂ)] *ᵥ (fun a => if a = 1 then 1 else 0) =
      fun a => 2 * (if a = 1 then (1 : ℂ) else 0) := by
    funext a
    simp only [mulVec, dotProduct, mul_ite, mul_one, mul_zero, Finset.sum_ite_eq', Finset.mem_univ, if_true]
    have key : a = 1 ↔ (∀ j, j ≠ 0 → a j = (1 : Bits 2) j) ∧ a 0 = 1 := by revert a; decide
    unfold onQubit
    rw [if_congr key rfl rfl]
    by_cases h1 : ∀ j, j ≠ 0 → a j = (1 : Bits 2) j
    · rw [if_pos h1]
      have h2 : a 0 = 0 ∨ a 0 = 1 := by omega
      rcases h2 with h2 | h2 <;> simp [h1, h2]
    · rw [if_neg h1, if_neg (fun h => h1 h.1)]
  obtain ⟨m1, e1, h1⟩ := C31_value (by omega) _ _ h [((0 : Fin 2), !![1, 0; 0, (2 : ℂ)])] [_] (.cons hO .nil)
  obtain ⟨m2, e2, -⟩ := C31_value (by omega) _ _ h1 [((0 : Fin 2), !![1, 0; 0, (2 : ℂ)])] [_] (.cons hO .nil)
  refine ⟨_, m1, m2, _, _, h, hO, e1.trans ?_, e2.trans ?_⟩
  · simp only [List.map_cons, List.map_nil, timeOrdered_singleton, ← braket_dot, he]
    simp [dotProduct]
  · simp only [List.map_cons, List.map_nil, timeOrdered_singleton, ← braket_dot, he]
    have : (fun a : Bits 2 => 2 * (if a = 1 then (1 : ℂ) else 0)) = (2 : ℂ) • fun a => if a = 1 then 1 else 0 := rfl
    rw [this, mulVec_smul, he]
    simp [dotProduct]
    norm_num

end QTN.Props
