import Verif.Model.Tensor
import Mathlib.Tactic.Ring
import Mathlib.Tactic.Linarith
import Mathlib.Algebra.BigOperators.Group.List.Lemmas

/-! # Index arithmetic: bounds, row-major linearisation -/

namespace QTN

open Finset

@[simp] theorem inB_nil : inB [] [] = true := rfl
@[simp] theorem inB_cons {d : ℕ} {ds : List ℕ} {i : ℕ} {is : List ℕ} :
    inB (d :: ds) (i :: is) = (decide (i < d) && inB ds is) := rfl
@[simp] theorem inB_nil_cons {i : ℕ} {is : List ℕ} : inB [] (i :: is) = false := rfl
@[simp] theorem inB_cons_nil {d : ℕ} {ds : List ℕ} : inB (d :: ds) [] = false := rfl

theorem inB_length {s idx : List ℕ} (h : inB s idx = true) : idx.length = s.length := by
  induction s generalizing idx with
  | nil => cases idx <;> simp_all
  | cons d ds ih =>
    cases idx with
    | nil => simp at h
    | cons i is => simp at h; simp [ih h.2]

theorem inB_iff {s idx : List ℕ} :
    inB s idx = true ↔ idx.length = s.length ∧ ∀ k, k < s.length → idx.getD k 0 < s.getD k 0 := by
  induction s generalizing idx with
  | nil => cases idx <;> simp
  | cons d ds ih =>
    cases idx with
    | nil => simp
    | cons i is =>
      simp only [inB_cons, Bool.and_eq_true, decide_eq_true_eq, ih, List.length_cons,
        Nat.add_right_cancel_iff]
      constructor
      · rintro ⟨h1, h2, h3⟩
        refine ⟨h2, fun k hk => ?_⟩
        cases k with
        | zero => simpa using h1
        | succ k => simpa using h3 k (by omega)
      · rintro ⟨h2, h3⟩
        refine ⟨by simpa using h3 0 (by omega), h2, fun k hk => ?_⟩
        simpa using h3 (k + 1) (by omega)

theorem inB_append {s s' i i' : List ℕ} (h : i.length = s.length) :
    inB (s ++ s') (i ++ i') = (inB s i && inB s' i') := by
  induction s generalizing i with
  | nil => cases i <;> simp_all
  | cons d ds ih =>
    cases i with
    | nil => simp at h
    | cons j js => simp at h; simp [ih h, Bool.and_assoc]

theorem ravel_lt {s idx : List ℕ} (h : inB s idx = true) : ravel s idx < s.prod := by
  induction s generalizing idx with
  | nil => cases idx <;> simp_all [ravel]
  | cons d ds ih =>
    cases idx with
    | nil => simp at h
    | cons i is =>
      simp at h
      have := ih h.2
      simp only [ravel, List.prod_cons]
      calc i * ds.prod + ravel ds is < i * ds.prod + ds.prod := by omega
        _ = (i + 1) * ds.prod := by ring
        _ ≤ d * ds.prod := Nat.mul_le_mul_right _ h.1

theorem unravel_ravel {s idx : List ℕ} (h : inB s idx = true) : unravel s (ravel s idx) = idx := by
  induction s generalizing idx with
  | nil => cases idx <;> simp_all [unravel]
  | cons d ds ih =>
    cases idx with
    | nil => simp at h
    | cons i is =>
      simp at h
      have hl := ravel_lt h.2
      have hp : 0 < ds.prod := by omega
      simp only [ravel, unravel]
      have h1 : (i * ds.prod + ravel ds is) / ds.prod = i := by
        rw [Nat.mul_comm, Nat.mul_add_div hp, Nat.div_eq_of_lt hl]; simp
      have h2 : (i * ds.prod + ravel ds is) % ds.prod = ravel ds is := by
        rw [Nat.mul_comm, Nat.mul_add_mod, Nat.mod_eq_of_lt hl]
      rw [h1, h2, ih h.2]

theorem unravel_length (s : List ℕ) (k : ℕ) : (unravel s k).length = s.length := by
  induction s generalizing k with
  | nil => rfl
  | cons d ds ih => simp [unravel, ih]

theorem inB_unravel {s : List ℕ} {k : ℕ} (h : k < s.prod) : inB s (unravel s k) = true := by
  induction s generalizing k with
  | nil => simp [unravel]
  | cons d ds ih =>
    simp only [List.prod_cons] at h
    have hp : 0 < ds.prod := by
      rcases Nat.eq_zero_or_pos ds.prod with h0 | h0
      · simp [h0] at h
      · exact h0
    simp only [unravel, inB_cons, Bool.and_eq_true, decide_eq_true_eq]
    exact ⟨Nat.div_lt_of_lt_mul (by rwa [Nat.mul_comm] at h), ih (Nat.mod_lt _ hp)⟩

theorem ravel_unravel {s : List ℕ} {k : ℕ} (h : k < s.prod) : ravel s (unravel s k) = k := by
  induction s generalizing k with
  | nil => simp [ravel] at *; omega
  | cons d ds ih =>
    simp only [List.prod_cons] at h
    have hp : 0 < ds.prod := by
      rcases Nat.eq_zero_or_pos ds.prod with h0 | h0
      · simp [h0] at h
      · exact h0
    simp only [unravel, ravel, ih (Nat.mod_lt _ hp)]
    rw [Nat.mul_comm]; exact Nat.div_add_mod _ _

theorem ravel_append {s s' i i' : List ℕ} (h : i.length = s.length) :
    ravel (s ++ s') (i ++ i') = ravel s i * s'.prod + ravel s' i' := by
  induction s generalizing i with
  | nil => cases i <;> simp_all [ravel]
  | cons d ds ih =>
    cases i with
    | nil => simp at h
    | cons j js =>
      simp at h
      simp only [List.cons_append, ravel, ih h, List.prod_append]
      ring

theorem unravel_append {s s' i : List ℕ} {b : ℕ} (hi : inB s i = true) (h : b < s'.prod) :
    unravel (s ++ s') (ravel s i * s'.prod + b) = i ++ unravel s' b := by
  conv_lhs => rw [← ravel_unravel h, ← ravel_append (inB_length hi)]
  apply unravel_ravel
  rw [inB_append (inB_length hi), hi, inB_unravel h]; rfl

namespace Tensor

section
variable {α : Type} [Zero α]

theorem ext' {a b : Tensor α} (hs : a.shape = b.shape)
    (hg : ∀ idx, inB a.shape idx = true → a.get idx = b.get idx) : a = b := by
  cases a with
  | mk sa ga pa =>
    cases b with
    | mk sb gb pb =>
      simp only at hs hg
      subst hs
      congr
      funext idx
      cases h : inB sa idx with
      | true => exact hg idx h
      | false => rw [pa idx h, pb idx h]

@[simp] theorem shape_ofFn (s : List ℕ) (f : List ℕ → α) : (ofFn s f).shape = s := rfl

theorem get_ofFn {s : List ℕ} {f : List ℕ → α} {idx : List ℕ} (h : inB s idx = true) :
    (ofFn s f).get idx = f idx := by simp [ofFn, h]

theorem get_ofFn' {s : List ℕ} {f : List ℕ → α} {idx : List ℕ} :
    (ofFn s f).get idx = if inB s idx = true then f idx else 0 := rfl

theorem get_out {t : Tensor α} {idx : List ℕ} (h : inB t.shape idx = false) : t.get idx = 0 :=
  t.supp idx h

theorem inB_of_get_ne {t : Tensor α} {idx : List ℕ} (h : t.get idx ≠ 0) :
    inB t.shape idx = true := by
  by_contra hc
  exact h (t.supp idx (by simpa using hc))

end
end Tensor

end QTN
