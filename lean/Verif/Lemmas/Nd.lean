import Verif.Lemmas.Permute

/-! # unsqueeze at any position and broadcasting matrix products -/

namespace QTN

open Finset

namespace Tensor

theorem unsqueeze_at {α : Type} [Zero α] {t : Tensor α} (p q : List ℕ) (h : t.shape = p ++ q) :
    ∃ t', t.unsqueeze (p.length : ℤ) = .ok t' ∧ t'.shape = p ++ 1 :: q ∧
      ∀ i j, inB p i = true → inB q j = true → t'.get (i ++ 0 :: j) = t.get (i ++ j) := by
  have hw : wrapIdx (t.rank + 1) (p.length : ℤ) = .ok p.length :=
    wrapIdx_nat (by simp [rank, h])
  have e : (p ++ q).insertIdx p.length 1 = p ++ 1 :: q := by
    clear hw h
    induction p with
    | nil => rfl
    | cons d p ih => simp [ih]
  refine ⟨ofFn (p ++ 1 :: q) (fun idx => t.get (idx.eraseIdx p.length)), ?_, rfl, ?_⟩
  · unfold unsqueeze
    rw [hw, Py.ok_bind, h, e]
  · intro i j hi hj
    have hl := inB_length hi
    rw [get_ofFn (by rw [inB_append hl, hi]; simp [hj])]
    congr 1
    rw [← hl, List.eraseIdx_append_of_length_le (le_refl _)]
    simp

/-- The broadcasting matrix product. -/
theorem matmul_nd {α : Type} [CommRing α] {a b : Tensor α} {sa sb s : List ℕ} {n k m : ℕ}
    (ha : a.shape = sa ++ [n, k]) (hb : b.shape = sb ++ [k, m]) (hs : bcast sa sb = some s) :
    ∃ t', a.matmul b = .ok t' ∧ t'.shape = s ++ [n, m] ∧
      ∀ idx i j, inB s idx = true → i < n → j < m →
        t'.get (idx ++ [i, j]) =
          ∑ x ∈ range k, a.get (bIdx sa idx ++ [i, x]) * b.get (bIdx sb idx ++ [x, j]) := by
  have hra : a.rank = sa.length + 2 := by simp [rank, ha]
  have hrb : b.rank = sb.length + 2 := by simp [rank, hb]
  have e1 : a.shape.take (a.rank - 2) = sa := by simp [hra, ha]
  have e2 : b.shape.take (b.rank - 2) = sb := by simp [hrb, hb]
  have e3 : a.shape.getD (a.rank - 2) 0 = n := by simp [hra, ha, List.getD_eq_getElem?_getD]
  have e4 : a.shape.getD (a.rank - 1) 0 = k := by simp [hra, ha, List.getD_eq_getElem?_getD]
  have e5 : b.shape.getD (b.rank - 2) 0 = k := by simp [hrb, hb, List.getD_eq_getElem?_getD]
  have e6 : b.shape.getD (b.rank - 1) 0 = m := by simp [hrb, hb, List.getD_eq_getElem?_getD]
  refine ⟨ofFn (s ++ [n, m]) (fun idx =>
      let pre := idx.take s.length
      let i := idx.getD s.length 0
      let j := idx.getD (s.length + 1) 0
      ∑ x ∈ range k, a.get (bIdx sa pre ++ [i, x]) * b.get (bIdx sb pre ++ [x, j])), ?_, rfl, ?_⟩
  · unfold matmul
    rw [if_neg (by omega), if_neg (by omega), if_neg (by omega), if_neg (by omega)]
    unfold matmulND
    simp only [e1, e2, e3, e4, e5, e6, hs]
    simp
  · intro idx i j hi hip hjq
    have hl := inB_length hi
    rw [get_ofFn (by rw [inB_append hl, hi]; simp [hip, hjq])]
    have t1 : (idx ++ [i, j]).take s.length = idx := by simp [← hl]
    have t2 : (idx ++ [i, j]).getD s.length 0 = i := by simp [← hl, List.getD_eq_getElem?_getD]
    have t3 : (idx ++ [i, j]).getD (s.length + 1) 0 = j := by
      simp [← hl, List.getD_eq_getElem?_getD]
    simp only [t1, t2, t3]

end Tensor

theorem one_idx {d i : ℕ} (h : i < d) : (if d = 1 then 0 else i) = i := by
  split <;> omega

/-! ## View of concrete shapes -/

theorem Tensor.view3 {α : Type} [Zero α] (t : Tensor α) (a b c : ℕ) (h : a * b * c = t.numel) :
    t.view [(a : ℤ), (b : ℤ), (c : ℤ)] = .ok (t.reshapeN [a, b, c]) :=
  t.view_nat [a, b, c] (by simpa [mul_assoc] using h)

theorem Tensor.view4 {α : Type} [Zero α] (t : Tensor α) (a b c d : ℕ) (h : a * b * c * d = t.numel) :
    t.view [(a : ℤ), (b : ℤ), (c : ℤ), (d : ℤ)] = .ok (t.reshapeN [a, b, c, d]) :=
  t.view_nat [a, b, c, d] (by simpa [mul_assoc] using h)

/-- `view(a, -1, c)` -/
theorem Tensor.view_neg_mid {α : Type} [Zero α] (t : Tensor α) (a b c : ℕ) (h : a * b * c = t.numel)
    (ha : 0 < a) (hc : 0 < c) :
    t.view [(a : ℤ), -1, (c : ℤ)] = .ok (t.reshapeN [a, b, c]) := by
  have e3 : t.numel % (a * c) = 0 := by
    rw [← h, show a * b * c = a * c * b by ring]; exact Nat.mul_mod_right _ _
  have e4 : t.numel / (a * c) = b := by
    rw [← h, show a * b * c = a * c * b by ring]; exact Nat.mul_div_cancel_left _ (by positivity)
  have n1 : ¬ ((a : ℤ) = -1) := by omega
  have n2 : ¬ ((c : ℤ) = -1) := by omega
  have n3 : ¬ ((a : ℤ) < 0) := by omega
  have n4 : ¬ ((c : ℤ) < 0) := by omega
  have hp : a * c ≠ 0 := by positivity
  unfold view inferShape
  have f1 : [(a : ℤ), -1, (c : ℤ)].filter (· ≠ -1) = [(a : ℤ), (c : ℤ)] := by
    simp [List.filter, n1, n2]
  have f2 : [(a : ℤ), -1, (c : ℤ)].count (-1) = 1 := by
    simp [n1]
  simp only [f1, f2]
  rw [if_neg (by simp [n3, n4])]
  simp [hp, e3, e4, n1, n2]

end QTN
