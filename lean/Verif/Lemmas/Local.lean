import Verif.Lemmas.Window
import Verif.Lemmas.PTrace
import Verif.Lemmas.Unitary
import Verif.SpecSpan
import Verif.SpecExp
import Mathlib.Algebra.Algebra.Subalgebra.Lattice

/-! # Operators on disjoint sets of qubits -/

namespace QTN

open Finset Spec Matrix

variable {N M : ℕ}

/-- The operators on the qubits in `W`: the algebra generated by the single-qubit operators on them. -/
noncomputable def opsOn (W : Fin N → Prop) : Subalgebra ℂ (QOp N) :=
  Algebra.adjoin ℂ {A | ∃ i g, W i ∧ A = onQubit i g}

theorem onQubit_mem {W : Fin N → Prop} {i : Fin N} (h : W i) (g : Mat2) : onQubit i g ∈ opsOn W :=
  Algebra.subset_adjoin ⟨i, g, h, rfl⟩

theorem opsOn_mono {W V : Fin N → Prop} (h : ∀ i, W i → V i) : opsOn W ≤ opsOn V :=
  Algebra.adjoin_mono fun _ ⟨i, g, hi, e⟩ => ⟨i, g, h i hi, e⟩

theorem opsOn_comm {W V : Fin N → Prop} (h : ∀ i, W i → ¬ V i) {A B : QOp N} (hA : A ∈ opsOn W)
    (hB : B ∈ opsOn V) : Commute A B := by
  refine Algebra.commute_of_mem_adjoin_of_forall_mem_commute hB fun b hb => ?_
  refine (Algebra.commute_of_mem_adjoin_of_forall_mem_commute hA fun a ha => ?_).symm
  obtain ⟨j, g, hj, rfl⟩ := hb
  obtain ⟨i, k, hi, rfl⟩ := ha
  exact (onQubit_comm (show i ≠ j by rintro rfl; exact h i hi hj) _ _).symm

theorem onEach_mem {W : Fin N → Prop} (g : Fin N → Mat2) (h : ∀ i, ¬ W i → g i = 1) : onEach g ∈ opsOn W := by
  have key : ∀ s : Finset (Fin N), onEach (fun i => if i ∈ s then g i else 1) ∈ opsOn W := by
    intro s
    induction s using Finset.induction_on with
    | empty =>
      have : onEach (fun i : Fin N => if i ∈ (∅ : Finset (Fin N)) then g i else 1) = 1 := by
        rw [← onEach_one]; simp
      rw [this]
      exact one_mem _
    | insert a s ha ih =>
      have : onEach (fun i => if i ∈ insert a s then g i else 1) =
          onQubit a (g a) * onEach (fun i => if i ∈ s then g i else 1) := by
        rw [← onEach_update_one, onEach_mul]
        congr 1
        funext j
        by_cases hj : j = a
        · subst hj; simp [ha]
        · simp [hj]
      rw [this]
      refine mul_mem ?_ ih
      by_cases hW : W a
      · exact onQubit_mem hW _
      · rw [h a hW, ← onEach_update_one]
        have : onEach (Function.update (fun _ => 1) a 1) = (1 : QOp N) := by
          rw [← onEach_one]
          congr 1
          funext j
          by_cases hj : j = a
          · subst hj; simp
          · simp [hj]
        rw [this]
        exact one_mem _
  simpa using key univ

theorem controlled_mem {W : Fin N → Prop} {cs : List (Fin N)} {t : Fin N} (ht : t ∉ cs) (hW : W t)
    (hc : ∀ c ∈ cs, W c) (g : Mat2) : controlled cs t g ∈ opsOn W := by
  rw [controlled_multi_eq cs ht]
  have hp : ∀ i, ¬ W i → ctrlProj cs i = 1 := fun i hi => if_neg fun h => hi (hc i h)
  refine add_mem (sub_mem (one_mem _) (onEach_mem _ hp)) (onEach_mem _ fun i hi => ?_)
  rw [Function.update_of_ne (show i ≠ t by rintro rfl; exact hi hW)]
  exact hp i hi

theorem swap_mem {W : Fin N → Prop} {p q : Fin N} (h : p ≠ q) (hp : W p) (hq : W q) : Spec.swap p q ∈ opsOn W := by
  rw [swap_eq h]
  have : ∀ g k : Mat2, onEach (Function.update (Function.update (fun _ => 1) p g) q k) ∈ opsOn W := fun g k =>
    onEach_mem _ fun i hi => by
      rw [Function.update_of_ne (show i ≠ q by rintro rfl; exact hi hq), Function.update_of_ne (show i ≠ p by rintro rfl; exact hi hp)]
  exact add_mem (add_mem (add_mem (this _ _) (this _ _)) (this _ _)) (this _ _)

theorem rot2_mem {W : Fin N → Prop} {p q : Fin N} (hp : W p) (hq : W q) (P : Mat2) (θ : ℝ) : rot2 P θ p q ∈ opsOn W :=
  sub_mem (Subalgebra.smul_mem _ (one_mem _) _) (Subalgebra.smul_mem _ (mul_mem (onQubit_mem hp _) (onQubit_mem hq _)) _)

theorem timeOrdered_mem {W : Fin N → Prop} (l : List (QOp N)) (h : ∀ A ∈ l, A ∈ opsOn W) : timeOrdered l ∈ opsOn W := by
  have key : ∀ (l : List (QOp N)) (acc : QOp N), acc ∈ opsOn W → (∀ A ∈ l, A ∈ opsOn W) →
      l.foldl (fun acc u => u * acc) acc ∈ opsOn W := by
    intro l
    induction l with
    | nil => intro acc ha _; exact ha
    | cons A l ih =>
      intro acc ha hl
      exact ih _ (mul_mem (hl A (by simp)) ha) fun B hB => hl B (by simp [hB])
  exact key l 1 (one_mem _) h

theorem instr_mem (ins : Instr N) (h : ins.WF) : ins.op ∈ opsOn (· ∈ ins.qubits) := by
  have hne : ∀ {c t : Fin N}, c ≠ t → t ∉ [c] := fun h => by simpa using h.symm
  cases ins with
  | rxx θ p q => exact rot2_mem (by simp [Instr.qubits]) (by simp [Instr.qubits]) _ _
  | ryy θ p q => exact rot2_mem (by simp [Instr.qubits]) (by simp [Instr.qubits]) _ _
  | rzz θ p q => exact rot2_mem (by simp [Instr.qubits]) (by simp [Instr.qubits]) _ _
  | cnot c t => exact controlled_mem (hne h) (by simp [Instr.qubits]) (by simp [Instr.qubits]) _
  | cz c t => exact controlled_mem (hne h) (by simp [Instr.qubits]) (by simp [Instr.qubits]) _
  | cphase θ c t => exact controlled_mem (hne h) (by simp [Instr.qubits]) (by simp [Instr.qubits]) _
  | cu3 θ φ l c t => exact controlled_mem (hne h) (by simp [Instr.qubits]) (by simp [Instr.qubits]) _
  | swap p q => exact swap_mem h (by simp [Instr.qubits]) (by simp [Instr.qubits])
  | toffoli a b t =>
    exact controlled_mem (by simpa using ⟨h.2.1.symm, h.2.2.symm⟩) (by simp [Instr.qubits]) (by simp [Instr.qubits]) _
  | mcnot cs t => exact controlled_mem h.2 (by simp [Instr.qubits]) (fun c hc => by simp [Instr.qubits, hc]) _
  | _ => exact onQubit_mem (by simp [Instr.qubits]) _

theorem ringGates_on {ws : List (Fin N)} (h : ws.Nodup) {d : ℕ} (hd : ∀ i < ws.length, (i + d) % ws.length ≠ i) :
    ∀ A ∈ ringGates d ws, A ∈ opsOn (· ∈ ws) := by
  intro A hA
  obtain ⟨i, rfl⟩ := (List.mem_ofFn' _ _).1 hA
  refine controlled_mem ?_ (List.get_mem _ _) (by simp) _
  rw [List.mem_singleton]
  intro e
  have := (List.Nodup.get_inj_iff h).1 e
  exact hd i i.isLt (congrArg Fin.val this)

theorem mod_ne {n i d : ℕ} (hi : i < n) (hd : d % n ≠ 0) : (i + d) % n ≠ i := by
  intro e
  have h1 : (i + d) % n = (i + 0) % n := by rw [e, add_zero, Nat.mod_eq_of_lt hi]
  have h2 : d ≡ 0 [MOD n] := Nat.ModEq.add_left_cancel' i h1
  exact hd (by simpa [Nat.ModEq] using h2)

theorem ringOp_mem {ws : List (Fin N)} (h : ws.Nodup) (h2 : 2 ≤ ws.length) {d : ℕ} (hd0 : 0 < d) (hd : d < 3) :
    ringOp d ws ∈ opsOn (· ∈ ws) := by
  match ws, h, h2 with
  | [a, b], h, _ =>
    have hab : a ≠ b := by simpa using h
    exact controlled_mem (by simpa using hab.symm) (by simp) (by simp) _
  | a :: b :: c :: ws, h, _ =>
    refine timeOrdered_mem _ (ringGates_on h fun i hi => mod_ne hi ?_)
    rw [Nat.mod_eq_of_lt (by simp; omega)]
    omega

theorem ringDagOp_mem {ws : List (Fin N)} (h : ws.Nodup) (h2 : 2 ≤ ws.length) :
    ringDagOp ws ∈ opsOn (· ∈ ws) := by
  match ws, h, h2 with
  | [a, b], h, _ =>
    have hab : a ≠ b := by simpa using h
    exact controlled_mem (by simpa using hab.symm) (by simp) (by simp) _
  | a :: b :: c :: ws, h, _ =>
    refine timeOrdered_mem _ fun A hA => ringGates_on h (fun i hi => mod_ne hi ?_) A (List.mem_reverse.1 hA)
    rw [Nat.mod_eq_of_lt (by simp)]
    omega

theorem layerOp_mem (axes : List Mat2) (ws : List (Fin N)) (p : List ℝ) : layerOp axes ws p ∈ opsOn (· ∈ ws) :=
  onEach_mem _ fun _ hi => if_neg hi

/-- The operator of an item is an operator on the qubits of the item. -/
theorem item_mem (it : Item N) (h : it.WF) : it.op ∈ opsOn (· ∈ it.qubits) := by
  cases it with
  | gate ins => exact instr_mem ins h
  | layer k ws p => exact layerOp_mem _ _ _
  | hlayer ws => exact onEach_mem _ fun _ hi => if_neg hi
  | ring ws => exact ringOp_mem h.1 h.2 (by omega) (by omega)
  | ringDag ws => exact ringDagOp_mem h.1 h.2
  | ring2 ws => exact ringOp_mem h.1 h.2 (by omega) (by omega)
  | basic ws p reps =>
    refine timeOrdered_mem _ fun A hA => ?_
    obtain ⟨r, -, rfl⟩ := List.mem_map.1 hA
    exact mul_mem (ringOp_mem h.1 h.2.1 (by omega) (by omega)) (layerOp_mem _ _ _)

theorem circuit_mem (l : List (Item N)) (h : ∀ it ∈ l, it.WF) {W : Fin N → Prop}
    (hW : ∀ it ∈ l, ∀ i ∈ it.qubits, W i) : circuitOp l ∈ opsOn W := by
  refine timeOrdered_mem _ fun A hA => ?_
  obtain ⟨it, hit, rfl⟩ := List.mem_map.1 hA
  exact opsOn_mono (hW it hit) (item_mem it (h it hit))

/-! ## Partial trace -/

/-- The matrix unit `|y⟩⟨x|` on the qubits `keep`. -/
noncomputable def unitOn (keep : Fin M → Fin N) (y x : Bits M) : QOp N :=
  embed keep (Matrix.single y x 1)

theorem unitOn_mem {keep : Fin M → Fin N} (hk : Function.Injective keep) (y x : Bits M) :
    unitOn keep y x ∈ opsOn (· ∈ Set.range keep) := by
  classical
  have e : (Matrix.single y x 1 : QOp M) = onEach fun k => Matrix.single (y k) (x k) 1 := by
    ext a b
    simp only [Matrix.single_apply, onEach]
    rw [Finset.prod_ite_zero]
    simp [funext_iff, forall_and]
  unfold unitOn
  rw [e, embed_onEach hk _ (fun i => if h : i ∈ Set.range keep then Matrix.single (y h.choose) (x h.choose) 1 else 1)]
  · exact onEach_mem _ fun i hi => dif_neg hi
  · intro k
    have h : keep k ∈ Set.range keep := ⟨k, rfl⟩
    rw [dif_pos h, hk h.choose_spec]
  · intro j hj
    exact dif_neg fun ⟨k, e⟩ => hj k e

theorem embed_mem {keep : Fin M → Fin N} (hk : Function.Injective keep) (o : QOp M) :
    embed keep o ∈ opsOn (· ∈ Set.range keep) := by
  have : embed keep o = ∑ y : Bits M, ∑ x : Bits M, o y x • unitOn keep y x := by
    ext a b
    simp only [Matrix.sum_apply, Matrix.smul_apply, unitOn, embed, Matrix.single_apply, smul_eq_mul]
    split
    · rw [Finset.sum_eq_single (a ∘ keep), Finset.sum_eq_single (b ∘ keep)]
      · simp
      · intro x _ hx; simp [hx]
      · simp
      · intro y _ hy
        exact Finset.sum_eq_zero fun x _ => by simp [hy]
      · simp
    · simp
  rw [this]
  exact sum_mem fun y _ => sum_mem fun x _ => Subalgebra.smul_mem _ (unitOn_mem hk y x) _

theorem ptr_eq_trace (keep : Fin M → Fin N) (r : QOp N) (x y : Bits M) :
    ptr keep r x y = Matrix.trace (unitOn keep y x * r) := by
  classical
  simp only [ptr, Matrix.trace, Matrix.diag_apply, Matrix.mul_apply]
  rw [Finset.sum_comm]
  refine Finset.sum_congr rfl fun b _ => Finset.sum_congr rfl fun a _ => ?_
  simp only [unitOn, embed, Matrix.single_apply, Set.mem_range, not_exists]
  by_cases h : ∀ j, (∀ i, keep i ≠ j) → b j = a j
  · have h' : ∀ i, (∀ k, ¬ keep k = i) → a i = b i := fun i hi => (h i hi).symm
    rw [if_pos h]
    by_cases hx : y = b ∘ keep ∧ x = a ∘ keep
    · rw [if_pos hx, if_pos ⟨hx.2.symm, hx.1.symm, h'⟩, one_mul]
    · rw [if_neg hx, if_neg (fun g => hx ⟨g.2.1.symm, g.1.symm⟩), zero_mul]
  · rw [if_neg h, if_neg (fun g => h fun j hj => (g.2.2 j hj).symm), zero_mul]

theorem ptr_conj {keep : Fin M → Fin N} (hk : Function.Injective keep) {W : Fin N → Prop}
    (hW : ∀ i, W i → i ∉ Set.range keep) {A : QOp N} (hA : A ∈ opsOn W) (hu : Aᴴ * A = 1) (r : QOp N) :
    ptr keep (A * r * Aᴴ) = ptr keep r := by
  ext x y
  have hc := (opsOn_comm hW hA (unitOn_mem hk y x)).eq
  rw [ptr_eq_trace, ptr_eq_trace, ← mul_assoc, ← mul_assoc, ← hc, Matrix.trace_mul_comm, ← mul_assoc, ← mul_assoc, hu, one_mul]

end QTN
