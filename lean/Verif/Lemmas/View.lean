import Verif.Lemmas.Kron

/-! # view / reshape -/

namespace QTN

namespace Tensor

variable {α : Type} [Zero α]

@[simp] theorem reshapeN_shape (t : Tensor α) (s : List ℕ) : (t.reshapeN s).shape = s := rfl

theorem reshapeN_get_eq {t : Tensor α} {s idx idx' : List ℕ} (h : inB s idx = true)
    (h' : inB t.shape idx' = true) (e : ravel t.shape idx' = ravel s idx) :
    (t.reshapeN s).get idx = t.get idx' := by
  unfold reshapeN
  rw [get_ofFn h, ← e, unravel_ravel h']

theorem filter_nat (s : List ℕ) : (s.map (fun k : ℕ => (k : ℤ))).filter (· ≠ -1) =
    s.map (fun k : ℕ => (k : ℤ)) := by
  apply List.filter_eq_self.2
  intro a ha
  obtain ⟨k, -, rfl⟩ := List.mem_map.1 ha
  simp

theorem any_nat (s : List ℕ) : (s.map (fun k : ℕ => (k : ℤ))).any (· < 0) = false := by
  simp

theorem toNat_map_nat (s : List ℕ) : (s.map (fun k : ℕ => (k : ℤ))).map Int.toNat = s := by
  rw [List.map_map]
  conv_rhs => rw [← List.map_id s]
  rfl

theorem count_nat (s : List ℕ) : (s.map (fun k : ℕ => (k : ℤ))).count (-1) = 0 := by
  rw [List.count_eq_zero]
  intro h
  obtain ⟨k, -, hk⟩ := List.mem_map.1 h
  omega

theorem inferShape_nat (n : ℕ) (s : List ℕ) (h : s.prod = n) :
    inferShape n (s.map (fun k : ℕ => (k : ℤ))) = .ok s := by
  unfold inferShape
  simp only [filter_nat, any_nat, toNat_map_nat, count_nat]
  simp [h]

/-- `view` with a complete shape -/
theorem view_nat (t : Tensor α) (s : List ℕ) (h : s.prod = t.numel) :
    t.view (s.map (fun k : ℕ => (k : ℤ))) = .ok (t.reshapeN s) := by
  unfold view
  rw [inferShape_nat _ _ h, Py.ok_bind]

/-- `view` with a leading `-1` -/
theorem inferShape_neg_first (n m : ℕ) (s : List ℕ) (h : m * s.prod = n) (hs : 0 < s.prod) :
    inferShape n (-1 :: s.map (fun k : ℕ => (k : ℤ))) = .ok (m :: s) := by
  unfold inferShape
  have e1 : ((-1 : ℤ) :: s.map (fun k : ℕ => (k : ℤ))).filter (· ≠ -1) =
      s.map (fun k : ℕ => (k : ℤ)) := by
    rw [List.filter_cons_of_neg (by simp), filter_nat]
  have e2 : ((-1 : ℤ) :: s.map (fun k : ℕ => (k : ℤ))).count (-1) = 1 := by
    rw [List.count_cons_self, count_nat]
  simp only [e1, e2, any_nat, toNat_map_nat]
  have e3 : n % s.prod = 0 := by rw [← h]; exact Nat.mul_mod_left _ _
  have e4 : n / s.prod = m := by rw [← h]; exact Nat.mul_div_cancel _ hs
  rw [if_neg (by simp), if_neg (by omega), if_pos e3, e4]
  simp only [List.map_cons, if_true, List.map_map]
  congr 2
  conv_rhs => rw [← List.map_id s]
  apply List.map_congr_left
  intro a _
  simp

theorem view_neg_first (t : Tensor α) (m : ℕ) (s : List ℕ) (h : m * s.prod = t.numel)
    (hs : 0 < s.prod) :
    t.view (-1 :: s.map (fun k : ℕ => (k : ℤ))) = .ok (t.reshapeN (m :: s)) := by
  unfold view
  rw [inferShape_neg_first _ m _ h hs, Py.ok_bind]

/-- `view(a, -1)` -/
theorem inferShape_neg_last (n a m : ℕ) (h : a * m = n) (ha : 0 < a) :
    inferShape n [(a : ℤ), -1] = .ok [a, m] := by
  have e3 : n % a = 0 := by rw [← h]; exact Nat.mul_mod_right _ _
  have e4 : n / a = m := by rw [← h]; exact Nat.mul_div_cancel_left _ ha
  have e0 : ¬ ((a : ℤ) = -1) := by omega
  have e1 : ([(a : ℤ), -1]).filter (· ≠ -1) = [(a : ℤ)] := by
    rw [List.filter_cons_of_pos (by simp), List.filter_cons_of_neg (by simp)]; rfl
  have e2 : ([(a : ℤ), -1]).count (-1) = 1 := by
    rw [List.count_cons_of_ne (by omega)]; simp
  unfold inferShape
  simp only [e1, e2]
  simp [e0, e3, e4, ha.ne']

theorem view_neg_last (t : Tensor α) (a m : ℕ) (h : a * m = t.numel) (ha : 0 < a) :
    t.view [(a : ℤ), -1] = .ok (t.reshapeN [a, m]) := by
  unfold view
  rw [inferShape_neg_last _ a m h ha, Py.ok_bind]

end Tensor

end QTN
