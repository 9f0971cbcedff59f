import Verif.Lemmas.Grad2Approx

/-! # An entangled state for the examples -/

namespace QTN

open QTN.Spec

variable {N : ℕ}

/-- The entangled state with amplitudes 3/5 for all zeros and 4/5 for all ones. -/
theorem ghz_row (hN : 0 < N) : ∃ (psi : Tensor ℂ) (v : QState N), IsRow psi v ∧ norm2 v = 1 ∧
    psi.get [0, 0] = 3 / 5 ∧ psi.get [0, 2 ^ N - 1] = 4 / 5 := by
  set psi : Tensor ℂ := Tensor.ofFn [1, 2 ^ N]
    (fun idx => if idx = [0, 0] then 3 / 5 else if idx = [0, 2 ^ N - 1] then 4 / 5 else 0) with hpsi
  have hr : IsRow psi (fun a : Bits N => psi.get [0, enc a]) := row_of_shape rfl
  have h2 : 2 ≤ 2 ^ N := by
    calc 2 = 2 ^ 1 := rfl
      _ ≤ 2 ^ N := Nat.pow_le_pow_right (by omega) hN
  have hg : ∀ k < 2 ^ N, psi.get [0, k] = if k = 0 then 3 / 5 else if k = 2 ^ N - 1 then 4 / 5 else 0 := by
    intro k hk
    rw [hpsi, Tensor.get_ofFn (by simpa using hk)]
    simp
  refine ⟨psi, _, hr, ?_, by rw [hg 0 (by omega)]; simp, by
    rw [hg (2 ^ N - 1) (by omega), if_neg (by omega), if_pos rfl]⟩
  unfold norm2
  rw [← sum_enc (N := N) (fun k => ‖psi.get [0, k]‖ ^ 2), Finset.sum_congr rfl fun k hk => by
    rw [hg k (Finset.mem_range.1 hk)]]
  have e : ∀ k ∈ Finset.range (2 ^ N), ‖(if k = 0 then 3 / 5 else if k = 2 ^ N - 1 then 4 / 5 else 0 : ℂ)‖ ^ 2 =
      (if k = 0 then 9 / 25 else 0) + (if k = 2 ^ N - 1 then 16 / 25 else 0) := by
    intro k _
    by_cases h0 : k = 0
    · rw [if_pos h0, if_pos h0, if_neg (by omega)]; norm_num
    · rw [if_neg h0, if_neg h0]
      split_ifs <;> norm_num
  rw [Finset.sum_congr rfl e, Finset.sum_add_distrib, Finset.sum_ite_eq' , Finset.sum_ite_eq',
    if_pos (by simp), if_pos (by simp)]
  norm_num

end QTN
