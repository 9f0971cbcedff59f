import Verif.Lemmas.MpsOps
import Verif.SpecAccuracy
import Verif.Lemmas.ContractItems

/-! # Chains of neighbouring SWAPs -/

namespace QTN

open Finset Spec Matrix

variable {N : ℕ}

/-- The operator permuting the qubits. -/
def permOp (σ : Equiv.Perm (Fin N)) : QOp N := fun a b => if a = b ∘ σ then 1 else 0

theorem permOp_swap (p q : Fin N) : permOp (Equiv.swap p q) = Spec.swap p q := rfl

theorem comp_perm_iff (σ : Equiv.Perm (Fin N)) (a b : Bits N) : a = b ∘ σ ↔ b = a ∘ ⇑σ⁻¹ := by
  constructor
  · rintro rfl; funext j; simp
  · rintro rfl; funext j; simp

theorem permOp_one : permOp (1 : Equiv.Perm (Fin N)) = 1 := by
  ext a b
  simp [permOp, Matrix.one_apply, funext_iff]

theorem permOp_mul (σ τ : Equiv.Perm (Fin N)) : permOp σ * permOp τ = permOp (τ * σ) := by
  ext a b
  rw [Matrix.mul_apply]
  simp only [permOp]
  rw [Finset.sum_eq_single (b ∘ τ)]
  · simp only [if_true, mul_one]
    rfl
  · intro c _ hc
    rw [if_neg hc, mul_zero]
  · simp

theorem permOp_mul_apply (σ : Equiv.Perm (Fin N)) (E : QOp N) (a b : Bits N) :
    (permOp σ * E) a b = E (a ∘ ⇑σ⁻¹) b := by
  rw [Matrix.mul_apply]
  simp only [permOp]
  rw [Finset.sum_eq_single (a ∘ ⇑σ⁻¹)]
  · rw [if_pos ((comp_perm_iff σ a _).2 rfl), one_mul]
  · intro c _ hc
    rw [if_neg (fun h => hc ((comp_perm_iff σ a c).1 h)), zero_mul]
  · simp

theorem mul_permOp_apply (σ : Equiv.Perm (Fin N)) (E : QOp N) (a b : Bits N) :
    (E * permOp σ) a b = E a (b ∘ σ) := by
  rw [Matrix.mul_apply]
  simp only [permOp]
  rw [Finset.sum_eq_single (b ∘ σ)]
  · simp
  · intro c _ hc
    rw [if_neg hc, mul_zero]
  · simp

/-- Conjugation by a permutation of the qubits moves an operator to other wires. -/
theorem embed_conj {k : ℕ} (σ : Equiv.Perm (Fin N)) (f : Fin k → Fin N) (M : QOp k) :
    permOp σ⁻¹ * embed f M * permOp σ = embed (σ ∘ f) M := by
  ext a b
  rw [mul_permOp_apply, permOp_mul_apply]
  simp only [embed, inv_inv]
  have : (∀ j, (∀ i, f i ≠ j) → (a ∘ σ) j = (b ∘ σ) j) ↔ (∀ j, (∀ i, (σ ∘ f) i ≠ j) → a j = b j) := by
    constructor
    · intro h j hj
      have := h (σ⁻¹ j) (fun i hi => hj i (by simp [hi]))
      simpa using this
    · intro h j hj
      exact h (σ j) (fun i hi => hj i (σ.injective hi))
  by_cases h : ∀ j, (∀ i, f i ≠ j) → (a ∘ σ) j = (b ∘ σ) j
  · rw [if_pos h, if_pos (this.1 h)]
    rfl
  · rw [if_neg h, if_neg (fun h' => h (this.2 h'))]

theorem timeOrdered_permOp {ι : Type} (l : List ι) (p : ι → Equiv.Perm (Fin N)) :
    timeOrdered (l.map (fun i => permOp (p i))) = permOp ((l.map p).prod) := by
  induction l with
  | nil => simp [permOp_one]
  | cons i l ih => rw [List.map_cons, timeOrdered_cons, ih, permOp_mul]; simp

/-! ## Neighbour transpositions -/

/-- The exchange of qubits `i` and `i+1`. -/
def adj (N i : ℕ) : Equiv.Perm (Fin N) :=
  if h : i + 1 < N then Equiv.swap ⟨i, by omega⟩ ⟨i + 1, h⟩ else 1

theorem adj_inv (i : ℕ) : (adj N i)⁻¹ = adj N i := by
  unfold adj
  split
  · simp
  · simp

theorem adj_fix {i : ℕ} {x : Fin N} (h1 : (x : ℕ) ≠ i) (h2 : (x : ℕ) ≠ i + 1) : adj N i x = x := by
  unfold adj
  split
  · exact Equiv.swap_apply_of_ne_of_ne (by intro h; rw [h] at h1; simp at h1)
      (by intro h; rw [h] at h2; simp at h2)
  · rfl

/-- Product of the exchanges `(a,a+1), …, (a+n-1,a+n)`. -/
def cyc (N a n : ℕ) : Equiv.Perm (Fin N) := ((List.range n).map (fun k => adj N (a + k))).prod

theorem cyc_zero (a : ℕ) : cyc N a 0 = 1 := rfl

theorem cyc_succ (a n : ℕ) : cyc N a (n + 1) = cyc N a n * adj N (a + n) := by
  unfold cyc
  rw [List.range_succ, List.map_append, List.prod_append]
  simp

theorem cyc_last {a n : ℕ} (h : a + n < N) : cyc N a n ⟨a + n, h⟩ = ⟨a, by omega⟩ := by
  induction n with
  | zero => rfl
  | succ n ih =>
    rw [cyc_succ, Equiv.Perm.mul_apply]
    have : adj N (a + n) ⟨a + (n + 1), h⟩ = ⟨a + n, by omega⟩ := by
      unfold adj
      rw [dif_pos (by omega)]
      exact Equiv.swap_apply_right _ _
    rw [this, ih]

theorem cyc_fix {a n : ℕ} {x : Fin N} (h : (x : ℕ) < a ∨ a + n < (x : ℕ)) : cyc N a n x = x := by
  induction n with
  | zero => rfl
  | succ n ih =>
    rw [cyc_succ, Equiv.Perm.mul_apply, adj_fix (by omega) (by omega), ih (by omega)]

theorem cyc_inv (a n : ℕ) :
    ((List.range n).map (fun k => adj N (a + (n - 1 - k)))).prod = (cyc N a n)⁻¹ := by
  induction n with
  | zero => simp [cyc_zero]
  | succ n ih =>
    rw [cyc_succ, _root_.mul_inv_rev, adj_inv, ← ih, List.range_succ_eq_map, List.map_cons, List.prod_cons,
      List.map_map]
    congr 2
    apply List.map_congr_left
    intro k _
    simp only [Function.comp]
    congr 2
    omega

theorem cyc_inv_first {a n : ℕ} (h : a + n < N) : (cyc N a n)⁻¹ ⟨a, by omega⟩ = ⟨a + n, h⟩ := by
  rw [Equiv.Perm.inv_eq_iff_eq, cyc_last h]

theorem cyc_inv_fix {a n : ℕ} {x : Fin N} (h : (x : ℕ) < a ∨ a + n < (x : ℕ)) :
    (cyc N a n)⁻¹ x = x := by
  rw [Equiv.Perm.inv_eq_iff_eq, cyc_fix h]

/-- A neighbour exchange conjugated by the chain is an exchange over a distance. -/
theorem cyc_swap {a n : ℕ} (h : a + n + 1 < N) :
    cyc N a (n + 1) * (cyc N a n)⁻¹ = Equiv.swap ⟨a, by omega⟩ ⟨a + n + 1, h⟩ := by
  rw [cyc_succ]
  have e : adj N (a + n) = Equiv.swap ⟨a + n, by omega⟩ ⟨a + n + 1, h⟩ := by
    unfold adj; rw [dif_pos h]
  rw [e, ← Equiv.swap_apply_apply, cyc_last (by omega), cyc_fix (by simp only; omega)]

/-! ## Loops of neighbour exchanges -/

variable {svd : SVDOracle} (T : Theory N svd)

namespace Theory

/-- `range(a, b)` upwards, exchanging `(i, i+1)`. -/
theorem up {F : ℤ → List (Tensor ℂ) → TNM (List (Tensor ℂ))}
    (hF : ∀ i : ℕ, i + 1 < N → T.Act (F (i : ℤ)) (permOp (adj N i)) 1) {a n : ℕ} (h : a + n < N) {lo hi : ℤ}
    (hlo : lo = a) (hhi : hi = ((a + n : ℕ) : ℤ)) :
    T.Act (fun mps => (pyRange2 lo hi).foldlM (fun mps i => F i mps) mps) (permOp (cyc N a n)) n := by
  subst hlo hhi
  have h1 := T.foldlM_one (fun k : ℕ => F ((a : ℤ) + (k : ℤ))) (fun k => permOp (adj N (a + k)))
    (List.range n) (by
      intro k hk
      have hk := List.mem_range.1 hk
      have := hF (a + k) (by omega)
      rwa [Nat.cast_add] at this)
  rw [timeOrdered_permOp (List.range n) (fun k => adj N (a + k))] at h1
  refine T.cast (T.congr h1 (fun mps => ?_)) rfl (by simp)
  unfold pyRange2
  rw [show (((a + n : ℕ) : ℤ) - (a : ℤ)).toNat = n by omega, List.foldlM_map]

/-- `range(b, a, -1)` downwards, exchanging `(i-1, i)`. -/
theorem down {F : ℤ → List (Tensor ℂ) → TNM (List (Tensor ℂ))}
    (hF : ∀ i : ℕ, i + 1 < N → T.Act (F (i : ℤ)) (permOp (adj N i)) 1) {a n : ℕ} (h : a + n < N) {lo hi : ℤ}
    (hlo : lo = a) (hhi : hi = ((a + n : ℕ) : ℤ)) :
    T.Act (fun mps => (pyRangeDown hi lo).foldlM (fun mps i => F (i - 1) mps) mps)
      (permOp (cyc N a n)⁻¹) n := by
  subst hlo hhi
  have h1 := T.foldlM_one (fun k : ℕ => F (((a + n : ℕ) : ℤ) - (k : ℤ) - 1))
    (fun k => permOp (adj N (a + (n - 1 - k)))) (List.range n) (by
      intro k hk
      have hk := List.mem_range.1 hk
      have := hF (a + (n - 1 - k)) (by omega)
      rwa [show ((a + (n - 1 - k) : ℕ) : ℤ) = ((a + n : ℕ) : ℤ) - (k : ℤ) - 1 by omega] at this)
  rw [timeOrdered_permOp (List.range n) (fun k => adj N (a + (n - 1 - k))), cyc_inv] at h1
  refine T.cast (T.congr h1 (fun mps => ?_)) rfl (by simp)
  unfold pyRangeDown
  rw [show (((a + n : ℕ) : ℤ) - (a : ℤ)).toNat = n by omega, List.foldlM_map]

/-! ## SWAP -/

theorem applySwap {i : ℕ} (h : i + 1 < N) :
    T.Act (fun mps => Gate.applyTwo svd swapMat mps (i : ℤ)) (permOp (adj N i)) 1 := by
  have hne : (⟨i, by omega⟩ : Fin N) ≠ ⟨i + 1, h⟩ := by simp
  refine T.cast (T.two swapMat_rep (swap_unitary 0 1) (f := ![⟨i, by omega⟩, ⟨i + 1, h⟩]) (by
    intro j; fin_cases j <;> rfl)) ?_ rfl
  rw [embed_swap (inj_two hne)]
  unfold adj
  rw [dif_pos h]
  rfl

end Theory

theorem pyMin_pair (x y : ℤ) : pyMin [x, y] = .ok (min x y) := rfl
theorem pyMax_pair (x y : ℤ) : pyMax [x, y] = .ok (max x y) := rfl

theorem minmax_wires {p q : Fin N} (h : p ≠ q) :
    ∃ a n : ℕ, ∃ h' : a + n + 1 < N, min (wire p) (wire q) = (a : ℤ) ∧
      max (wire p) (wire q) = ((a + n + 1 : ℕ) : ℤ) ∧
      ((p = ⟨a, by omega⟩ ∧ q = ⟨a + n + 1, h'⟩) ∨ (q = ⟨a, by omega⟩ ∧ p = ⟨a + n + 1, h'⟩)) := by
  have hp := p.isLt
  have hq := q.isLt
  have hne : (p : ℕ) ≠ q := fun e => h (Fin.ext e)
  rcases Nat.lt_or_gt_of_ne hne with hlt | hlt
  · refine ⟨p, q - p - 1, by omega, ?_, ?_, Or.inl ⟨rfl, Fin.ext ?_⟩⟩
    · unfold wire; omega
    · unfold wire; omega
    · simp; omega
  · refine ⟨q, p - q - 1, by omega, ?_, ?_, Or.inr ⟨rfl, Fin.ext ?_⟩⟩
    · unfold wire; omega
    · unfold wire; omega
    · simp; omega

theorem gap_eq {p q : Fin N} {a n : ℕ} {h' : a + n + 1 < N}
    (h : (p = ⟨a, by omega⟩ ∧ q = ⟨a + n + 1, h'⟩) ∨ (q = ⟨a, by omega⟩ ∧ p = ⟨a + n + 1, h'⟩)) :
    gap p q = n + 1 := by
  unfold gap
  rcases h with ⟨rfl, rfl⟩ | ⟨rfl, rfl⟩ <;> simp only <;> omega

namespace Theory

theorem swapTN {p q : Fin N} (h : p ≠ q) :
    T.Act (fun mps => Gate.swapTN svd swapMat [wire p, wire q] mps) (Spec.swap p q)
      (2 * gap p q - 1) := by
  obtain ⟨a, n, h', hmin, hmax, hpq⟩ := minmax_wires h
  have h1 := T.up (F := fun i mps => Gate.applyTwo svd swapMat mps i)
    (fun i hi => T.applySwap hi) (a := a) (n := n + 1) (by omega) (lo := (a : ℤ))
    (hi := ((a + n + 1 : ℕ) : ℤ)) rfl rfl
  have h2 := T.down (F := fun i mps => Gate.applyTwo svd swapMat mps i)
    (fun i hi => T.applySwap hi) (a := a) (n := n) (by omega) (lo := (a : ℤ))
    (hi := ((a + n + 1 : ℕ) : ℤ) - 1) rfl (by push_cast; ring)
  refine T.cast (T.congr (T.comp h1 h2) (fun mps => ?_)) ?_ (by rw [gap_eq hpq]; omega)
  · unfold Gate.swapTN
    rw [raiseIf_false (by simp), TNM.lift_ok_bind, pyMin_pair, TNM.lift_ok_bind, pyMax_pair,
      TNM.lift_ok_bind, hmin, hmax]
  · rw [permOp_mul, cyc_swap h', permOp_swap]
    rcases hpq with ⟨rfl, rfl⟩ | ⟨rfl, rfl⟩
    · rfl
    · unfold Spec.swap; rw [Equiv.swap_comm]

theorem swap_gate {g : Gate} {p q : Fin N} (h : p ≠ q)
    (hn : g.nqubits = (N : ℤ)) (hw : g.wires = .list [wire p, wire q]) (hm : g.matrix = swapMat) :
    T.Act (g.swap_TN_operation svd) (Spec.swap p q) (2 * gap p q - 1) := by
  refine T.congr (T.swapTN h) (fun mps => ?_)
  unfold Gate.swap_TN_operation
  rw [guard_list hn hw, TNM.lift_ok_bind, hw, asList_list, TNM.lift_ok_bind, hm]

theorem swapCall {i : ℕ} (h : i + 1 < N) :
    T.Act (fun mps => Gate.swapCall svd (N : ℤ) (i : ℤ) ((i : ℤ) + 1) mps) (permOp (adj N i)) 1 := by
  have hne : (⟨i, by omega⟩ : Fin N) ≠ ⟨i + 1, h⟩ := by simp
  have := T.swap_gate (g := mkSwap N (.list [(i : ℤ), (i : ℤ) + 1])) hne rfl
    (by unfold wire; push_cast; rfl) rfl
  refine T.cast this ?_ (by simp [gap])
  unfold adj
  rw [dif_pos h]
  rfl

/-- The same with the index of the upper wire as argument. -/
theorem swapCall' {i : ℕ} (h : i + 1 < N) :
    T.Act ((fun (i : ℤ) mps => Gate.swapCall svd (N : ℤ) i (i + 1) mps) (i : ℤ)) (permOp (adj N i)) 1 :=
  T.swapCall h

end Theory

end QTN
