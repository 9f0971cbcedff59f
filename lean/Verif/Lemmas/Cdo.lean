import Mathlib.Data.Nat.Digits.Lemmas
import Verif.Model.Cdo
import Verif.Lemmas.Train

/-! # Lemmas for the comparison with Qiskit -/

namespace QTN

open Finset Spec Matrix

variable {N : ℕ}

/-! ## Reversing the binary digits -/

theorem ofDigits_two_inj : ∀ L L' : List ℕ, L.length = L'.length → (∀ d ∈ L, d < 2) → (∀ d ∈ L', d < 2) →
    Nat.ofDigits 2 L = Nat.ofDigits 2 L' → L = L'
  | [], [], _, _, _, _ => rfl
  | [], _ :: _, h, _, _, _ => by simp at h
  | _ :: _, [], h, _, _, _ => by simp at h
  | d :: L, d' :: L', h, h1, h2, e => by
    rw [Nat.ofDigits_cons, Nat.ofDigits_cons] at e
    have hd := h1 d (by simp)
    have hd' := h2 d' (by simp)
    have := ofDigits_two_inj L L' (by simpa using h) (fun x hx => h1 x (by simp [hx]))
      (fun x hx => h2 x (by simp [hx])) (by omega)
    rw [this, show d = d' by omega]

theorem testBit_ofDigits : ∀ (L : List ℕ) (k : ℕ), (∀ d ∈ L, d < 2) →
    ((Nat.ofDigits 2 L).testBit k = true ↔ L.getD k 0 = 1)
  | [], k, _ => by simp
  | d :: L, k, h => by
    have hd := h d (by simp)
    rw [Nat.ofDigits_cons]
    cases k with
    | zero =>
      rw [Nat.testBit_zero, List.getD_cons_zero]
      simp only [decide_eq_true_eq]
      omega
    | succ k =>
      rw [Nat.testBit_succ, List.getD_cons_succ, show (d + 2 * Nat.ofDigits 2 L) / 2 = Nat.ofDigits 2 L by omega]
      exact testBit_ofDigits L k fun x hx => h x (by simp [hx])

theorem bl_lt (a : Bits N) : ∀ d ∈ bl a, d < 2 := by
  intro d hd
  unfold bl at hd
  obtain ⟨i, rfl⟩ := (List.mem_ofFn' _ _).1 hd
  exact (a i).2

theorem ofDigits_bl : ∀ {N : ℕ} (a : Bits N), Nat.ofDigits 2 (bl a).reverse = enc a
  | 0, a => by simp [bl, enc_zero]
  | N + 1, a => by
    rw [bl_snoc, List.reverse_append, List.reverse_singleton, List.singleton_append, Nat.ofDigits_cons,
      ofDigits_bl, enc_snoc]
    omega

theorem ofBin_reverse (l : List ℕ) : Cdo.ofBin l.reverse = Nat.ofDigits 2 l := by
  unfold Cdo.ofBin
  rw [List.foldl_reverse]
  induction l with
  | nil => simp
  | cons d l ih =>
    rw [List.foldr_cons, ih, Nat.ofDigits_cons]
    omega

theorem padded (hN : 0 < N) (a : Bits N) :
    List.replicate (N - (Cdo.binDigits (enc a)).length) 0 ++ Cdo.binDigits (enc a) = bl a := by
  have hlen : (Cdo.binDigits (enc a)).length ≤ N := by
    unfold Cdo.binDigits
    split_ifs with h
    · exact hN
    · rw [List.length_reverse, Nat.digits_length_le_iff (by norm_num)]
      exact enc_lt a
  have hval : Nat.ofDigits 2 (Cdo.binDigits (enc a)).reverse = enc a := by
    unfold Cdo.binDigits
    split_ifs with h
    · simp [h]
    · rw [List.reverse_reverse, Nat.ofDigits_digits]
  have hd : ∀ d ∈ Cdo.binDigits (enc a), d < 2 := by
    intro d hd
    unfold Cdo.binDigits at hd
    split_ifs at hd with h
    · simp at hd; omega
    · exact Nat.digits_lt_base (by norm_num) (List.mem_reverse.1 hd)
  apply List.reverse_injective
  refine ofDigits_two_inj _ _ ?_ ?_ ?_ ?_
  · simp only [List.length_reverse, List.length_append, List.length_replicate, bl_length]
    omega
  · intro d hd'
    simp only [List.mem_reverse, List.mem_append, List.mem_replicate] at hd'
    rcases hd' with h | h
    · omega
    · exact hd d h
  · intro d hd'
    exact bl_lt a d (List.mem_reverse.1 hd')
  · rw [List.reverse_append, List.reverse_replicate, Nat.ofDigits_append_replicate_zero, hval, ofDigits_bl]

/-- The bits of the reversed index are the bits of the string, the first one being the lowest. -/
theorem revIndex_bit (hN : 0 < N) (a : Bits N) (q : Fin N) :
    (if (Cdo.revIndex N (enc a)).testBit q then (1 : Fin 2) else 0) = a q := by
  have e : Cdo.revIndex N (enc a) = Nat.ofDigits 2 (bl a) := by
    unfold Cdo.revIndex
    dsimp only
    rw [padded hN, ofBin_reverse]
  have h := testBit_ofDigits (bl a) q (bl_lt a)
  rw [bl_getD a q q.2] at h
  rw [e]
  split_ifs with hb
  · exact Fin.ext (h.1 hb).symm
  · have : ((a q : Fin 2) : ℕ) ≠ 1 := fun h' => hb (h.2 h')
    apply Fin.ext
    simp
    omega

/-! ## Scalars -/

theorem onQubit_smul (i : Fin N) (z : ℂ) (g : Mat2) : onQubit i (z • g) = z • onQubit i g := by
  ext a b
  simp [onQubit]

theorem timeOrdered_smul {α : Type*} (l : List α) (z : α → ℂ) (f : α → QOp N) :
    timeOrdered (l.map fun c => z c • f c) = (l.map z).prod • timeOrdered (l.map f) := by
  induction l with
  | nil => simp [timeOrdered]
  | cons c l ih =>
    rw [List.map_cons, List.map_cons, List.map_cons, timeOrdered_cons, timeOrdered_cons, ih, List.prod_cons,
      Matrix.smul_mul, Matrix.mul_smul, smul_smul, mul_comm]

end QTN
