import Verif.SpecTrace
import Verif.Lemmas.Embed
import Verif.Model.QMath
import Mathlib.LinearAlgebra.Matrix.PosDef
import Mathlib.Data.Fin.Tuple.Basic

/-! # The partial trace of operators -/

namespace QTN

open Finset Spec Matrix

variable {N M K : ℕ}

theorem ptr_comp {k1 : Fin M → Fin N} (h1 : Function.Injective k1) (k2 : Fin K → Fin M) (r : QOp N) :
    ptr k2 (ptr k1 r) = ptr (k1 ∘ k2) r := by
  funext x y
  have hc : ∀ a b : Bits N, ((a ∘ k1) ∘ k2 = x ∧ (b ∘ k1) ∘ k2 = y ∧
      (∀ i, i ∉ Set.range k2 → (a ∘ k1) i = (b ∘ k1) i)) ∧ (∀ i, i ∉ Set.range k1 → a i = b i) ↔
      a ∘ (k1 ∘ k2) = x ∧ b ∘ (k1 ∘ k2) = y ∧ ∀ i, i ∉ Set.range (k1 ∘ k2) → a i = b i := by
    intro a b
    constructor
    · rintro ⟨⟨e1, e2, e3⟩, e4⟩
      refine ⟨e1, e2, fun i hi => ?_⟩
      by_cases hk : i ∈ Set.range k1
      · obtain ⟨j, rfl⟩ := hk
        refine e3 j ?_
        rintro ⟨l, rfl⟩
        exact hi ⟨l, rfl⟩
      · exact e4 i hk
    · rintro ⟨e1, e2, e3⟩
      refine ⟨⟨e1, e2, fun i hi => e3 _ ?_⟩, fun i hi => e3 _ ?_⟩
      · rintro ⟨l, hl⟩
        exact hi ⟨l, h1 hl⟩
      · rintro ⟨l, hl⟩
        exact hi ⟨_, hl⟩
  unfold ptr
  calc _ = ∑ x' : Bits M, ∑ y' : Bits M, ∑ a : Bits N, ∑ b : Bits N,
        if (x' ∘ k2 = x ∧ y' ∘ k2 = y ∧ ∀ i, i ∉ Set.range k2 → x' i = y' i) ∧
          (a ∘ k1 = x' ∧ b ∘ k1 = y' ∧ ∀ i, i ∉ Set.range k1 → a i = b i) then r a b else 0 := by
        refine sum_congr rfl fun x' _ => sum_congr rfl fun y' _ => ?_
        by_cases h : x' ∘ k2 = x ∧ y' ∘ k2 = y ∧ ∀ i, i ∉ Set.range k2 → x' i = y' i
        · rw [if_pos h]; simp only [h, true_and]
          refine sum_congr rfl fun a _ => sum_congr rfl fun b _ => ?_
          congr 1
          simp only [eq_iff_iff]
          exact ⟨fun g => ⟨h.2.2, g⟩, fun g => g.2⟩
        · rw [if_neg h]
          symm
          refine sum_eq_zero fun a _ => sum_eq_zero fun b _ => ?_
          rw [if_neg (fun g => h g.1)]
    _ = ∑ a : Bits N, ∑ b : Bits N, ∑ x' : Bits M, ∑ y' : Bits M,
        if (x' ∘ k2 = x ∧ y' ∘ k2 = y ∧ ∀ i, i ∉ Set.range k2 → x' i = y' i) ∧
          (a ∘ k1 = x' ∧ b ∘ k1 = y' ∧ ∀ i, i ∉ Set.range k1 → a i = b i) then r a b else 0 := by
        have e1 : ∀ f : Bits M → Bits M → Bits N → Bits N → ℂ,
            ∑ x', ∑ y', ∑ a, ∑ b, f x' y' a b = ∑ a, ∑ b, ∑ x', ∑ y', f x' y' a b := by
          intro f
          calc _ = ∑ x', ∑ a, ∑ y', ∑ b, f x' y' a b := sum_congr rfl fun x' _ => sum_comm
            _ = ∑ a, ∑ x', ∑ y', ∑ b, f x' y' a b := sum_comm
            _ = ∑ a, ∑ x', ∑ b, ∑ y', f x' y' a b :=
              sum_congr rfl fun a _ => sum_congr rfl fun x' _ => sum_comm
            _ = _ := sum_congr rfl fun a _ => sum_comm
        exact e1 _
    _ = _ := by
        refine sum_congr rfl fun a _ => sum_congr rfl fun b _ => ?_
        rw [sum_eq_single (a ∘ k1), sum_eq_single (b ∘ k1)]
        · congr 1
          simp only [eq_iff_iff, true_and]
          exact hc a b
        · intro y' _ hy
          rw [if_neg (fun g => hy g.2.2.1.symm)]
        · simp
        · intro x' _ hx
          refine sum_eq_zero fun y' _ => ?_
          rw [if_neg (fun g => hx g.2.1.symm)]
        · simp

theorem ptr_id (r : QOp N) : ptr id r = r := by
  funext x y
  unfold ptr
  rw [sum_eq_single x, sum_eq_single y]
  · simp
  · intro b _ hb
    rw [if_neg (fun g => hb g.2.1)]
  · simp
  · intro a _ ha
    refine sum_eq_zero fun b _ => ?_
    rw [if_neg (fun g => ha g.1)]
  · simp

theorem tr_ptr (keep : Fin M → Fin N) (r : QOp N) : tr (ptr keep r) = tr r := by
  unfold tr ptr
  rw [sum_comm]
  refine sum_congr rfl fun a _ => ?_
  rw [sum_comm]
  rw [sum_eq_single a]
  · rw [sum_eq_single (a ∘ keep)]
    · simp
    · intro x _ hx
      rw [if_neg (fun g => hx g.1.symm)]
    · simp
  · intro b _ hb
    refine sum_eq_zero fun x _ => ?_
    rw [if_neg]
    rintro ⟨g1, g2, g3⟩
    apply hb
    funext i
    by_cases hi : i ∈ Set.range keep
    · obtain ⟨j, rfl⟩ := hi
      exact (congrFun (g1.trans g2.symm) j).symm
    · exact (g3 i hi).symm
  · simp

theorem ptr_conjTranspose (keep : Fin M → Fin N) (r : QOp N) : ptr keep rᴴ = (ptr keep r)ᴴ := by
  funext x y
  rw [conjTranspose_apply]
  unfold ptr
  rw [star_sum, sum_comm]
  simp only [star_sum]
  refine sum_congr rfl fun a _ => sum_congr rfl fun b _ => ?_
  rw [apply_ite star, star_zero, conjTranspose_apply]
  congr 1
  simp only [eq_iff_iff]
  exact ⟨fun ⟨g1, g2, g3⟩ => ⟨g2, g1, fun i hi => (g3 i hi).symm⟩,
    fun ⟨g1, g2, g3⟩ => ⟨g2, g1, fun i hi => (g3 i hi).symm⟩⟩

theorem ite_mul_star (p q : Prop) [Decidable p] [Decidable q] (c : ℂ) :
    (if p then (1 : ℂ) else 0) * c * star (if q then (1 : ℂ) else 0) = if p ∧ q then c else 0 := by
  by_cases hp : p <;> by_cases hq : q <;> simp [hp, hq]

open Classical in
/-- the operator that projects the qubits outside `keep` on `t` and drops them -/
noncomputable def dropOn (keep : Fin M → Fin N) (t : Bits N) : Matrix (Bits M) (Bits N) ℂ := fun x a =>
  if a ∘ keep = x ∧ ∀ i, i ∉ Set.range keep → a i = t i then 1 else 0

theorem ptr_kraus (keep : Fin M → Fin N) (r : QOp N) :
    ptr keep r = ∑ t : Bits N with t ∘ keep = 0, dropOn keep t * r * (dropOn keep t)ᴴ := by
  classical
  funext x y
  rw [Matrix.sum_apply]
  have e : ∀ t : Bits N, (dropOn keep t * r * (dropOn keep t)ᴴ) x y = ∑ a : Bits N, ∑ b : Bits N,
      if (a ∘ keep = x ∧ ∀ i, i ∉ Set.range keep → a i = t i) ∧
        (b ∘ keep = y ∧ ∀ i, i ∉ Set.range keep → b i = t i) then r a b else 0 := by
    intro t
    rw [Matrix.mul_apply, sum_comm]
    refine sum_congr rfl fun b _ => ?_
    rw [Matrix.mul_apply, sum_mul]
    refine sum_congr rfl fun a _ => ?_
    rw [conjTranspose_apply]
    unfold dropOn
    exact ite_mul_star _ _ _
  simp only [e]
  rw [sum_comm]
  unfold ptr
  refine sum_congr rfl fun a _ => ?_
  rw [sum_comm]
  refine sum_congr rfl fun b _ => ?_
  have h0 : (fun i => if i ∈ Set.range keep then (0 : Fin 2) else a i) ∘ keep = 0 := by
    funext j; simp
  rw [sum_eq_single (fun i => if i ∈ Set.range keep then (0 : Fin 2) else a i)]
  · refine if_congr ?_ rfl rfl
    constructor
    · rintro ⟨g1, g2, g3⟩
      refine ⟨⟨g1, fun i hi => by simp only [if_neg hi]⟩, g2, fun i hi => by simp only [if_neg hi, g3 i hi]⟩
    · rintro ⟨⟨g1, g3⟩, g2, g4⟩
      exact ⟨g1, g2, fun i hi => by rw [g3 i hi, g4 i hi]⟩
  · intro t ht hne
    rw [if_neg]
    rintro ⟨⟨g1, g3⟩, -⟩
    apply hne
    funext i
    by_cases hi : i ∈ Set.range keep
    · rw [if_pos hi]
      obtain ⟨j, rfl⟩ := hi
      exact congrFun (mem_filter.1 ht).2 j
    · rw [if_neg hi, g3 i hi]
  · intro h
    refine absurd (mem_filter.2 ⟨mem_univ _, ?_⟩) h
    exact h0

open scoped ComplexOrder in
theorem ptr_posSemidef (keep : Fin M → Fin N) {r : QOp N} (h : r.PosSemidef) : (ptr keep r).PosSemidef := by
  rw [ptr_kraus]
  exact Matrix.posSemidef_sum _ fun t _ => h.mul_mul_conjTranspose_same _

theorem ptr_hermitian (keep : Fin M → Fin N) {r : QOp N} (h : rᴴ = r) : (ptr keep r)ᴴ = ptr keep r := by
  rw [← ptr_conjTranspose, h]

/-- tracing out one qubit -/
theorem ptr_one (i : Fin (N + 1)) (r : QOp (N + 1)) :
    ptr i.succAbove r = fun x y => ∑ b, r (i.insertNth b x) (i.insertNth b y) := by
  funext x y
  have hr : ∀ j, j ∉ Set.range i.succAbove ↔ j = i := by
    intro j; rw [Fin.range_succAbove]; simp
  have hi : ∀ (a : Bits (N + 1)) (z : Bits N), a ∘ i.succAbove = z ↔ a = i.insertNth (a i) z := by
    intro a z
    constructor
    · rintro rfl
      exact (Fin.insertNth_self_removeNth i a).symm
    · intro h
      rw [h]
      funext j
      simp
  unfold ptr
  simp only [hr, forall_eq]
  have := (Fin.insertNthEquiv (fun _ => Fin 2) i).sum_comp (fun a : Bits (N + 1) =>
    ∑ b : Bits (N + 1), if a ∘ i.succAbove = x ∧ b ∘ i.succAbove = y ∧ a i = b i then r a b else 0)
  rw [← this, Fintype.sum_prod_type]
  refine sum_congr rfl fun b _ => ?_
  simp only [Fin.insertNthEquiv_apply]
  rw [sum_eq_single x]
  · rw [sum_eq_single (i.insertNth b y)]
    · refine if_pos ⟨?_, ?_, by simp⟩ <;> funext j <;> simp
    · intro b' _ hne
      rw [if_neg]
      rintro ⟨-, g2, g3⟩
      apply hne
      rw [hi] at g2
      rw [g2, ← g3]
      simp
    · simp
  · intro x' _ hx
    refine sum_eq_zero fun b' _ => ?_
    rw [if_neg]
    rintro ⟨g1, -⟩
    apply hx
    rw [← g1]
    funext j
    simp
  · simp

/-- tracing out the last qubits -/
theorem ptr_castAdd (A B : ℕ) (r : QOp (A + B)) :
    ptr (Fin.castAdd B) r = fun x y => ∑ t : Bits B, r (Fin.append x t) (Fin.append y t) := by
  funext x y
  have hr : ∀ j : Fin (A + B), j ∉ Set.range (Fin.castAdd B) ↔ ∃ k : Fin B, j = Fin.natAdd A k := by
    intro j
    refine Fin.addCases (fun k => ?_) (fun k => ?_) j
    · simp only [Set.mem_range, exists_apply_eq_apply, not_true_eq_false, false_iff, not_exists]
      intro l h
      have := congrArg Fin.val h
      simp at this
      omega
    · constructor
      · intro _; exact ⟨k, rfl⟩
      · rintro - ⟨l, h⟩
        have := congrArg Fin.val h
        simp at this
        omega
  have hap : ∀ z : Bits (A + B), Fin.append (fun k => z (Fin.castAdd B k)) (fun k => z (Fin.natAdd A k)) = z := by
    intro z
    exact Fin.append_castAdd_natAdd
  have hall : ∀ a b : Bits (A + B), (∀ i, i ∉ Set.range (Fin.castAdd (n := A) B) → a i = b i) ↔
      ∀ k : Fin B, a (Fin.natAdd A k) = b (Fin.natAdd A k) := by
    intro a b
    simp only [hr]
    exact ⟨fun h k => h _ ⟨k, rfl⟩, fun h i ⟨k, hk⟩ => hk ▸ h k⟩
  unfold ptr
  simp only [hall]
  have e : ∀ f : Bits (A + B) → ℂ, ∑ a, f a = ∑ z : Bits A, ∑ t : Bits B, f (Fin.append z t) := by
    intro f
    rw [← Fintype.sum_prod_type', ← (Fin.appendEquiv A B).sum_comp]
    rfl
  rw [e, sum_eq_single x]
  · refine sum_congr rfl fun t _ => ?_
    rw [sum_eq_single (Fin.append y t)]
    · rw [if_pos]
      refine ⟨?_, ?_, fun k => by simp⟩ <;> funext k <;> simp
    · intro b _ hne
      rw [if_neg]
      rintro ⟨-, g2, g3⟩
      apply hne
      rw [← hap b]
      congr 1
      funext k
      rw [← g3 k]
      simp
    · simp
  · intro z _ hz
    refine sum_eq_zero fun t _ => sum_eq_zero fun b _ => ?_
    rw [if_neg]
    rintro ⟨g1, -⟩
    apply hz
    rw [← g1]
    funext k
    simp
  · simp

end QTN
