import Verif.Spec
import Mathlib.Tactic.FinCases
import Mathlib.Tactic.Ring
import Mathlib.Tactic.LinearCombination
import Mathlib.Algebra.BigOperators.Ring.Finset
import Mathlib.LinearAlgebra.Matrix.Notation

/-! # Algebra of the specification operators -/

namespace QTN

open Finset Spec Matrix Complex

variable {N : ℕ}

theorem onEach_mul (f g : Fin N → Mat2) : onEach f * onEach g = onEach (fun i => f i * g i) := by
  ext a b
  simp only [Matrix.mul_apply, onEach]
  rw [Finset.prod_univ_sum]
  simp only [Fintype.piFinset_univ, Finset.prod_mul_distrib]

theorem onEach_one : onEach (fun _ : Fin N => (1 : Mat2)) = 1 := by
  ext a b
  simp only [onEach, Matrix.one_apply]
  by_cases h : a = b
  · subst h; simp
  · rw [if_neg h]
    obtain ⟨i, hi⟩ := Function.ne_iff.1 h
    exact Finset.prod_eq_zero (mem_univ i) (by simp [hi])

theorem onEach_conjTranspose (f : Fin N → Mat2) : (onEach f)ᴴ = onEach (fun i => (f i)ᴴ) := by
  ext a b
  simp [onEach, Matrix.conjTranspose_apply]

theorem onEach_update_one (i : Fin N) (g : Mat2) :
    onEach (Function.update (fun _ => 1) i g) = onQubit i g := by
  ext a b
  simp only [onEach, onQubit]
  rw [← Finset.mul_prod_erase _ _ (mem_univ i)]
  simp only [Function.update_self]
  split_ifs with h
  · rw [Finset.prod_eq_one, mul_one]
    intro j hj
    have hj' := (Finset.mem_erase.1 hj).1
    simp [Function.update_of_ne hj', h j hj']
  · push Not at h
    obtain ⟨j, hj, hne⟩ := h
    rw [Finset.prod_eq_zero (i := j) (by simp [hj]), mul_zero]
    simp [Function.update_of_ne hj, hne]

theorem onEach_two {p q : Fin N} (hpq : p ≠ q) (g h : Mat2) (a b : Bits N) :
    onEach (Function.update (Function.update (fun _ => 1) p g) q h) a b =
      if ∀ j, j ≠ p → j ≠ q → a j = b j then g (a p) (b p) * h (a q) (b q) else 0 := by
  simp only [onEach]
  rw [← Finset.mul_prod_erase _ _ (mem_univ p),
    ← Finset.mul_prod_erase _ _ (Finset.mem_erase.2 ⟨hpq.symm, mem_univ q⟩)]
  simp only [Function.update_self, Function.update_of_ne hpq]
  split_ifs with hh
  · rw [Finset.prod_eq_one, mul_one]
    intro j hj
    simp only [Finset.mem_erase, mem_univ, and_true] at hj
    simp [Function.update_of_ne hj.1, Function.update_of_ne hj.2, hh j hj.2 hj.1]
  · push Not at hh
    obtain ⟨j, hj, hj', hne⟩ := hh
    rw [Finset.prod_eq_zero (i := j) (by simp [hj, hj']), mul_zero, mul_zero]
    simp [Function.update_of_ne hj, Function.update_of_ne hj', hne]

theorem onQubit_one (i : Fin N) : onQubit i 1 = (1 : QOp N) := by
  rw [← onEach_update_one, Function.update_eq_self, onEach_one]

theorem onQubit_mul (i : Fin N) (g h : Mat2) :
    onQubit i g * onQubit i h = onQubit i (g * h) := by
  rw [← onEach_update_one, ← onEach_update_one, ← onEach_update_one, onEach_mul]
  congr 1
  funext j
  by_cases hj : j = i
  · subst hj; simp
  · simp [Function.update_of_ne hj]

theorem onQubit_mul_onQubit {p q : Fin N} (hpq : p ≠ q) (g h : Mat2) :
    onQubit p g * onQubit q h =
      onEach (Function.update (Function.update (fun _ => 1) p g) q h) := by
  rw [← onEach_update_one, ← onEach_update_one, onEach_mul]
  congr 1
  funext j
  by_cases hj : j = q
  · subst hj; simp [Function.update_of_ne hpq.symm]
  · by_cases hj' : j = p
    · subst hj'; simp [Function.update_of_ne hj]
    · simp [Function.update_of_ne hj, Function.update_of_ne hj']

theorem onQubit_comm {p q : Fin N} (hpq : p ≠ q) (g h : Mat2) :
    onQubit p g * onQubit q h = onQubit q h * onQubit p g := by
  rw [onQubit_mul_onQubit hpq, onQubit_mul_onQubit hpq.symm, Function.update_comm hpq]

theorem onQubit_conjTranspose (i : Fin N) (g : Mat2) : (onQubit i g)ᴴ = onQubit i gᴴ := by
  rw [← onEach_update_one, ← onEach_update_one, onEach_conjTranspose]
  congr 1
  funext j
  by_cases hj : j = i
  · subst hj; simp
  · simp [Function.update_of_ne hj]

/-- projector on 0 -/
def P0 : Mat2 := !![1, 0; 0, 0]
/-- projector on 1 -/
def P1 : Mat2 := !![0, 0; 0, 1]

theorem controlled_eq {c t : Fin N} (h : c ≠ t) (g : Mat2) :
    controlled [c] t g = onEach (Function.update (fun _ => 1) c P0) +
      onEach (Function.update (Function.update (fun _ => 1) c P1) t g) := by
  ext a b
  rw [Matrix.add_apply, onEach_update_one, onEach_two h]
  simp only [controlled, List.mem_singleton, forall_eq, onQubit, Matrix.one_apply]
  have key : ∀ x : Fin 2, x = 0 ∨ x = 1 := by decide
  rcases key (b c) with hb | hb
  · rw [if_neg (by simp [hb])]
    have : P1 (a c) (b c) = 0 := by
      rw [hb]; rcases key (a c) with ha | ha <;> simp [ha, P1]
    simp only [this, zero_mul, ite_self, add_zero]
    by_cases hab : a = b
    · subst hab; simp [hb, P0]
    · rw [if_neg hab]
      split_ifs with hh
      · have hne : a c ≠ b c := fun he => hab (by
          funext j
          by_cases hj : j = c
          · subst hj; exact he
          · exact hh j hj)
        rcases key (a c) with ha | ha
        · exact absurd (ha.trans hb.symm) hne
        · rw [ha, hb]; simp [P0]
      · rfl
  · rw [if_pos hb]
    have h0 : P0 (a c) (b c) = 0 := by
      rw [hb]; rcases key (a c) with ha | ha <;> simp [ha, P0]
    simp only [h0, ite_self, zero_add]
    rcases key (a c) with ha | ha
    · have hne : a c ≠ b c := by rw [ha, hb]; decide
      have h1 : P1 (a c) (b c) = 0 := by rw [ha, hb]; simp [P1]
      rw [if_neg (fun hh => hne (hh c h))]
      simp [h1]
    · have h1 : P1 (a c) (b c) = 1 := by rw [ha, hb]; simp [P1]
      rw [h1, one_mul]
      congr 1
      apply propext
      constructor
      · intro hh j _ hj; exact hh j hj
      · intro hh j hj
        by_cases hjc : j = c
        · subst hjc; rw [ha, hb]
        · exact hh j hjc hj

/-- All wires in `cs` carry the projector on 1. -/
def ctrlProj (cs : List (Fin N)) : Fin N → Mat2 := fun j => if j ∈ cs then P1 else 1

theorem onEach_ctrlProj (cs : List (Fin N)) (a b : Bits N) :
    onEach (ctrlProj cs) a b = if a = b ∧ ∀ c ∈ cs, b c = 1 then 1 else 0 := by
  simp only [onEach]
  have key : ∀ x : Fin 2, x = 0 ∨ x = 1 := by decide
  split_ifs with h
  · apply Finset.prod_eq_one
    intro j _
    rw [h.1]
    unfold ctrlProj
    split_ifs with hj
    · rw [h.2 j hj]; simp [P1]
    · simp
  · by_cases hab : a = b
    · subst hab
      simp only [true_and, not_forall] at h
      obtain ⟨c, hc, hne⟩ := h
      apply Finset.prod_eq_zero (mem_univ c)
      simp only [ctrlProj, hc, if_true]
      rcases key (a c) with h0 | h0
      · rw [h0]; simp [P1]
      · exact absurd h0 hne
    · obtain ⟨j, hj⟩ := Function.ne_iff.1 hab
      apply Finset.prod_eq_zero (mem_univ j)
      unfold ctrlProj
      split_ifs
      · rcases key (a j) with h0 | h0 <;> rcases key (b j) with h1 | h1 <;>
          simp_all [P1]
      · simp [hj]

theorem onEach_ctrlProj_target (cs : List (Fin N)) {t : Fin N} (ht : t ∉ cs) (g : Mat2)
    (a b : Bits N) :
    onEach (Function.update (ctrlProj cs) t g) a b =
      if ∀ c ∈ cs, b c = 1 then onQubit t g a b else 0 := by
  have key : ∀ x : Fin 2, x = 0 ∨ x = 1 := by decide
  simp only [onEach, onQubit]
  rw [← Finset.mul_prod_erase _ _ (mem_univ t)]
  simp only [Function.update_self]
  by_cases h1 : ∀ c ∈ cs, b c = 1
  · rw [if_pos h1]
    split_ifs with h2
    · rw [Finset.prod_eq_one, mul_one]
      intro j hj
      have hj' := (Finset.mem_erase.1 hj).1
      rw [Function.update_of_ne hj', h2 j hj']
      unfold ctrlProj
      split_ifs with hc
      · rw [h1 j hc]; simp [P1]
      · simp
    · push Not at h2
      obtain ⟨j, hj, hne⟩ := h2
      rw [Finset.prod_eq_zero (i := j) (by simp [hj]), mul_zero]
      rw [Function.update_of_ne hj]
      unfold ctrlProj
      split_ifs with hc
      · rcases key (a j) with h0 | h0 <;> rcases key (b j) with h1 | h1 <;> simp_all [P1]
      · simp [hne]
  · rw [if_neg h1]
    push Not at h1
    obtain ⟨c, hc, hne⟩ := h1
    have hct : c ≠ t := fun h => ht (h ▸ hc)
    rw [Finset.prod_eq_zero (i := c) (by simp [hct]), mul_zero]
    rw [Function.update_of_ne hct]
    simp only [ctrlProj, hc, if_true]
    rcases key (b c) with h0 | h0
    · rw [h0]; rcases key (a c) with h1 | h1 <;> simp [h1, P1]
    · exact absurd h0 hne

theorem controlled_multi_eq (cs : List (Fin N)) {t : Fin N} (ht : t ∉ cs) (g : Mat2) :
    controlled cs t g = 1 - onEach (ctrlProj cs) + onEach (Function.update (ctrlProj cs) t g) := by
  ext a b
  rw [Matrix.add_apply, Matrix.sub_apply, onEach_ctrlProj, onEach_ctrlProj_target cs ht]
  simp only [controlled, Matrix.one_apply]
  by_cases h : ∀ c ∈ cs, b c = 1
  · rw [if_pos h, if_pos h]
    by_cases hab : a = b
    · rw [if_pos hab, if_pos ⟨hab, h⟩]; ring
    · rw [if_neg hab, if_neg (fun hh => hab hh.1)]; ring
  · have hn : ¬ (a = b ∧ ∀ c ∈ cs, b c = 1) := fun hh => h hh.2
    rw [if_neg h, if_neg h, if_neg hn]; ring

theorem swap_apply_iff {p q : Fin N} (a b : Bits N) :
    a = b ∘ Equiv.swap p q ↔ (∀ j, j ≠ p → j ≠ q → a j = b j) ∧ a p = b q ∧ a q = b p := by
  constructor
  · rintro rfl
    refine ⟨fun j hp hq => ?_, ?_, ?_⟩
    · simp [Equiv.swap_apply_of_ne_of_ne hp hq]
    · simp
    · simp
  · rintro ⟨h1, h2, h3⟩
    funext j
    by_cases hp : j = p
    · subst hp; simp [h2]
    · by_cases hq : j = q
      · subst hq; simp [h3]
      · simp [Equiv.swap_apply_of_ne_of_ne hp hq, h1 j hp hq]

theorem swap_eq {p q : Fin N} (h : p ≠ q) :
    Spec.swap p q =
      onEach (Function.update (Function.update (fun _ => 1) p !![1, 0; 0, 0]) q !![1, 0; 0, 0]) +
      onEach (Function.update (Function.update (fun _ => 1) p !![0, 0; 1, 0]) q !![0, 1; 0, 0]) +
      onEach (Function.update (Function.update (fun _ => 1) p !![0, 1; 0, 0]) q !![0, 0; 1, 0]) +
      onEach (Function.update (Function.update (fun _ => 1) p !![0, 0; 0, 1]) q !![0, 0; 0, 1]) := by
  ext a b
  simp only [Matrix.add_apply, onEach_two h, Spec.swap, swap_apply_iff]
  by_cases hh : ∀ j, j ≠ p → j ≠ q → a j = b j
  · simp only [eq_true hh, true_and]
    have key : ∀ x : Fin 2, x = 0 ∨ x = 1 := by decide
    rcases key (a p) with h1 | h1 <;> rcases key (a q) with h2 | h2 <;>
      rcases key (b p) with h3 | h3 <;> rcases key (b q) with h4 | h4 <;>
      simp [h1, h2, h3, h4]
  · simp only [eq_false hh, false_and, if_false, add_zero]

end QTN
