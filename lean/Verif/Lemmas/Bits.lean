import Verif.Spec
import Verif.Lemmas.Index
import Mathlib.Data.Fin.Tuple.Basic
import Mathlib.Algebra.BigOperators.Fin

/-! # Bit strings and their big-endian encoding -/

namespace QTN

open Finset Spec

@[simp] theorem bl_length {N : ℕ} (b : Bits N) : (bl b).length = N := by simp [bl]

theorem bl_getD {N : ℕ} (b : Bits N) (k : ℕ) (h : k < N) : (bl b).getD k 0 = (b ⟨k, h⟩ : ℕ) := by
  simp [bl, List.getD_eq_getElem?_getD, h]

theorem bl_getElem {N : ℕ} (b : Bits N) (k : ℕ) (h : k < (bl b).length) :
    (bl b)[k] = (b ⟨k, by simpa using h⟩ : ℕ) := by
  simp [bl]

theorem bl_succ {N : ℕ} (b : Bits (N + 1)) : bl b = (b 0 : ℕ) :: bl (fun i => b i.succ) := by
  simp [bl, List.ofFn_succ]

theorem bl_snoc {N : ℕ} (b : Bits (N + 1)) :
    bl b = bl (fun i => b i.castSucc) ++ [(b (Fin.last N) : ℕ)] := by
  unfold bl; rw [List.ofFn_succ', List.concat_eq_append]

theorem inB_bl {N : ℕ} (b : Bits N) : inB (List.replicate N 2) (bl b) = true := by
  rw [inB_iff]
  refine ⟨by simp, fun k hk => ?_⟩
  simp at hk
  rw [bl_getD b k hk]
  simp [List.getD_eq_getElem?_getD, hk]
  omega

theorem bl_injective {N : ℕ} : Function.Injective (bl (N := N)) := by
  intro a b h
  have := List.ofFn_injective h
  funext i
  exact Fin.ext (congrFun this i)

theorem exists_bl {N : ℕ} {l : List ℕ} (h : inB (List.replicate N 2) l = true) :
    ∃ b : Bits N, l = bl b := by
  rw [inB_iff] at h
  obtain ⟨h1, h2⟩ := h
  simp at h1 h2
  have key : ∀ k, (hk : k < N) → l.getD k 0 < 2 := fun k hk => by
    have := h2 k hk
    simpa [List.getD_eq_getElem?_getD, hk] using this
  refine ⟨fun i => ⟨l.getD i 0, key i i.2⟩, ?_⟩
  apply List.ext_getElem
  · simp [h1]
  · intro k hk hk'
    simp [bl, List.getD_eq_getElem?_getD, hk]

theorem bl_set {N : ℕ} (b : Bits N) (i : Fin N) (x : Fin 2) :
    (bl b).set i x = bl (Function.update b i x) := by
  apply List.ext_getElem
  · simp
  · intro k hk hk'
    simp at hk
    rw [List.getElem_set, bl_getElem, bl_getElem]
    by_cases h : (i : ℕ) = k
    · subst h; simp
    · have : (⟨k, hk⟩ : Fin N) ≠ i := fun he => h (by rw [← he])
      simp [h, Function.update_of_ne this]

@[simp] theorem prod_replicate_two (N : ℕ) : (List.replicate N 2).prod = 2 ^ N := by simp

theorem enc_zero (b : Bits 0) : enc b = 0 := by simp [enc]

theorem enc_succ {N : ℕ} (b : Bits (N + 1)) :
    enc b = (b 0 : ℕ) * 2 ^ N + enc (fun i => b i.succ) := by
  simp only [enc, Fin.sum_univ_succ, Fin.val_zero, Fin.val_succ]
  congr 1
  apply Finset.sum_congr rfl
  intro i _
  congr 2
  omega

theorem enc_snoc {N : ℕ} (b : Bits (N + 1)) :
    enc b = enc (fun i => b i.castSucc) * 2 + (b (Fin.last N) : ℕ) := by
  simp only [enc, Fin.sum_univ_castSucc, Fin.val_last, Fin.val_castSucc, Finset.sum_mul]
  congr 1
  · apply Finset.sum_congr rfl
    intro i _
    rw [mul_assoc, ← pow_succ]
    congr 2
    omega
  · simp

theorem enc_eq_ravel {N : ℕ} (b : Bits N) : enc b = ravel (List.replicate N 2) (bl b) := by
  induction N with
  | zero => simp [enc_zero, ravel]
  | succ n ih =>
    rw [enc_succ, bl_succ, List.replicate_succ]
    simp only [ravel, prod_replicate_two]
    rw [ih]

theorem enc_lt {N : ℕ} (b : Bits N) : enc b < 2 ^ N := by
  rw [enc_eq_ravel]
  have := ravel_lt (inB_bl b)
  rwa [prod_replicate_two] at this

theorem unravel_enc {N : ℕ} (b : Bits N) : unravel (List.replicate N 2) (enc b) = bl b := by
  rw [enc_eq_ravel, unravel_ravel (inB_bl b)]

theorem enc_injective {N : ℕ} : Function.Injective (enc (N := N)) := by
  intro a b h
  apply bl_injective
  rw [← unravel_enc, ← unravel_enc, h]

theorem exists_enc {N k : ℕ} (h : k < 2 ^ N) : ∃ b : Bits N, k = enc b := by
  have h' : k < (List.replicate N 2).prod := by rwa [prod_replicate_two]
  obtain ⟨b, hb⟩ := exists_bl (inB_unravel h')
  refine ⟨b, ?_⟩
  rw [enc_eq_ravel, ← hb, ravel_unravel h']

theorem sum_enc {M : Type*} [AddCommMonoid M] (N : ℕ) (f : ℕ → M) :
    ∑ k ∈ range (2 ^ N), f k = ∑ b : Bits N, f (enc b) := by
  symm
  apply Finset.sum_bij (fun b _ => enc b)
  · intro b _; exact mem_range.2 (enc_lt b)
  · intro a _ b _ h; exact enc_injective h
  · intro k hk
    obtain ⟨b, hb⟩ := exists_enc (mem_range.1 hk)
    exact ⟨b, mem_univ _, hb.symm⟩
  · intro b _; rfl

theorem inB_enc2 {N : ℕ} (a b : Bits N) : inB [2 ^ N, 2 ^ N] [enc a, enc b] = true := by
  simp [enc_lt]

theorem set_ofFn {α : Type*} {N : ℕ} (f : Fin N → α) (i : Fin N) (v : α) :
    (List.ofFn f).set i v = List.ofFn (Function.update f i v) := by
  apply List.ext_getElem
  · simp
  · intro k hk hk'
    simp at hk
    rw [List.getElem_set]
    by_cases h : (i : ℕ) = k
    · subst h; simp
    · have : (⟨k, hk⟩ : Fin N) ≠ i := fun he => h (by rw [← he])
      simp [h, Function.update_of_ne this]

theorem replicate_eq_ofFn {α : Type*} (N : ℕ) (x : α) :
    List.replicate N x = List.ofFn (fun _ : Fin N => x) := by
  simp

end QTN
