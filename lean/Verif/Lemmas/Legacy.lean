import Verif.SpecLegacy
import Verif.Lemmas.Gates

/-! # The older circuit class -/

namespace QTN.Legacy

open QTN Finset Spec Complex

variable {N : ℕ}

theorem kron_ones {x : Tensor ℂ} {p q : ℕ} (h : x.shape = [p, q]) :
    Tensor.kron (Tensor.ofFn [1] (fun _ => 1)) x = x := by
  have hx : x.rank = 2 := by simp [Tensor.rank, h]
  have h1 : (Tensor.ofFn [1] (fun _ => (1 : ℂ))).rank = 1 := rfl
  unfold Tensor.kron
  rw [hx, h1]
  have e2 : x.padTo (max 1 2) = x := by
    have := Tensor.padTo_self x
    rw [hx] at this; exact this
  rw [e2]
  unfold Tensor.kronEq
  apply Tensor.ext'
  · simp [Tensor.padTo, Tensor.ofFn, Tensor.rank, h]
  · intro idx hi
    have hs : (Tensor.padTo (Tensor.ofFn [1] (fun _ => (1 : ℂ))) (max 1 2)).shape = [1, 1] := rfl
    have hi' : inB [p, q] idx = true := by
      have hi2 := hi
      simp only [Tensor.ofFn] at hi2
      rw [h] at hi2
      simpa [Tensor.padTo, Tensor.ofFn, Tensor.rank] using hi2
    obtain ⟨i, j, rfl⟩ : ∃ i j, idx = [i, j] := by
      match idx, hi' with
      | [i, j], _ => exact ⟨i, j, rfl⟩
      | [], h => simp [inB] at h
      | [_], h => simp [inB] at h
      | _ :: _ :: _ :: _, h => simp [inB] at h
    · have hij := hi'
      simp only [inB, Bool.and_true, Bool.and_eq_true, decide_eq_true_eq] at hij
      rw [Tensor.get_ofFn (by rw [hs, h]; simp [inB, hij.1, hij.2])]
      rw [h]
      simp only [List.zipWith_cons_cons, List.zipWith_nil_right, Nat.mod_eq_of_lt hij.1,
        Nat.mod_eq_of_lt hij.2, Nat.div_eq_of_lt hij.1, Nat.div_eq_of_lt hij.2]
      have : (Tensor.padTo (Tensor.ofFn [1] (fun _ => (1 : ℂ))) (max 1 2)).get [0, 0] = 1 := rfl
      rw [this, one_mul]

theorem multi_kron_cons {x : Tensor ℂ} {p q : ℕ} (h : x.shape = [p, q]) (l : List (Tensor ℂ)) :
    multi_kron (x :: l) = QTN.multi_kron (x :: l) := by
  unfold multi_kron QTN.multi_kron
  rw [raiseIf_false (by simp), Py.ok_bind, List.foldl_cons, kron_ones h]

theorem multi_kron_rep' (hN : 0 < N) (f : Fin N → Tensor ℂ) (g : Fin N → Mat2)
    (h : ∀ i, Represents2 (f i) (g i)) :
    ∃ t, multi_kron (List.ofFn f) = .ok t ∧ Represents t (onEach g) := by
  obtain ⟨t, ht, hr⟩ := QTN.multi_kron_rep' hN f g h
  refine ⟨t, ?_, hr⟩
  obtain ⟨m, rfl⟩ : ∃ m, N = m + 1 := ⟨N - 1, by omega⟩
  rw [List.ofFn_succ] at ht ⊢
  rw [multi_kron_cons (h 0).1, ht]

theorem wrap_qubit {i : ℤ} {q : Fin N} (h : qubitAt N i = some q) : wrapIdx N i = .ok (q : ℕ) := by
  unfold qubitAt at h
  unfold wrapIdx
  split_ifs at h with h1 h2
  · cases h
    rw [if_pos h1.1, if_pos h1.2]
  · cases h
    rw [if_neg (by omega), if_pos (by omega)]

theorem wrap_none {i : ℤ} (h : qubitAt N i = none) : wrapIdx N i = .error .indexError := by
  unfold qubitAt at h
  unfold wrapIdx
  split_ifs at h with h1 h2
  split_ifs <;> first | rfl | omega

theorem qubitAt_wire (i : Fin N) : qubitAt N (wire i) = some i := by
  unfold qubitAt
  rw [dif_pos (by have := i.2; simp only [wire]; omega)]
  simp

theorem qubitAt_range {i : ℤ} (h : 0 ≤ i ∧ i < N) : ∃ q : Fin N, i = wire q :=
  ⟨⟨i.toNat, by omega⟩, by simp [wire]; omega⟩

theorem pySet_qubit {α : Type} (f : Fin N → α) {i : ℤ} {q : Fin N} (h : qubitAt N i = some q) (v : α) :
    pySet (List.ofFn f) i v = .ok (List.ofFn (Function.update f q v)) := by
  rw [← pySet_ofFn f q v]
  unfold pySet
  rw [List.length_ofFn, wrap_qubit h, wrapIdx_nat q.2]

theorem pySet_none {α : Type} (f : Fin N → α) {i : ℤ} (h : qubitAt N i = none) (v : α) :
    pySet (List.ofFn f) i v = .error .indexError := by
  unfold pySet
  rw [List.length_ofFn, wrap_none h]
  rfl

theorem gate_expand_rep (i : Fin N) {u : Tensor ℂ} {m : Mat2} (hu : Represents2 u m) :
    Computes (gate_expand_1toN u N (wire i)) (onQubit i m) := by
  have hN : 0 < N := i.pos
  have hi := Fin.castInt_le i
  obtain ⟨U, hU, hr⟩ := multi_kron_rep' hN _ _ (rep2_update rep2_const i hu)
  refine ⟨U, ?_, hr.congr (onEach_update_one i m)⟩
  unfold gate_expand_1toN
  rw [raiseIf_false (by omega), raiseIf_false (by simp only [wire]; omega), pyRep_nat]
  simp only [Py.ok_bind, pySet_ofFn]
  exact hU

/-- A controlled gate, also for a control counted from the end. -/
theorem two_control_rep {k : ℤ} {c t : Fin N} (hk : qubitAt N k = some c) (hct : c ≠ t) {u : Tensor ℂ}
    {m : Mat2} (hu : Represents2 u m) :
    Computes (two_qubit_control_gate u N k (wire t)) (controlled [c] t m) := by
  have hN : 0 < N := c.pos
  have ht := Fin.castInt_le t
  have hkN : k < N := by
    unfold qubitAt at hk
    split_ifs at hk <;> omega
  have hne : wire t ≠ k := by
    rintro rfl
    rw [qubitAt_wire] at hk
    exact hct (Option.some.inj hk).symm
  obtain ⟨U1, hU1, hr1⟩ := multi_kron_rep' hN _ _
    (rep2_update rep2_const c (represents2_ofRows 1 0 0 0))
  obtain ⟨U2, hU2, hr2⟩ := multi_kron_rep' hN _ _
    (rep2_update (rep2_update rep2_const c (represents2_ofRows 0 0 0 1)) t hu)
  obtain ⟨U, hU, hr⟩ := hr1.add hr2
  refine ⟨U, ?_, hr.congr (controlled_eq hct m).symm⟩
  unfold two_qubit_control_gate zero_zero one_one
  rw [raiseIf_false (by omega), raiseIf_false (by omega), raiseIf_false (by simp only [wire]; omega),
    raiseIf_false hne, pyRep_nat]
  simp only [Py.ok_bind, pySet_qubit _ hk, pySet_ofFn, hU1, hU2]
  exact hU

/-- The exact outcome of `two_qubit_control_gate` outside the valid range. -/
theorem two_control_error {k : ℤ} {t : Fin N} {u : Tensor ℂ}
    (h : (N : ℤ) ≤ k ∨ k < -N ∨ k = wire t) :
    ∃ e, two_qubit_control_gate u N k (wire t) = .error e ∧ e ≠ .assertionError := by
  have hN : 0 < N := t.pos
  have ht := Fin.castInt_le t
  unfold two_qubit_control_gate
  rw [raiseIf_false (by omega), Py.ok_bind]
  by_cases h1 : (N : ℤ) ≤ k
  · rw [raiseIf_true h1]; exact ⟨_, rfl, by simp⟩
  rw [raiseIf_false (by omega), Py.ok_bind, raiseIf_false (by simp only [wire]; omega), Py.ok_bind]
  by_cases h2 : wire t = k
  · rw [raiseIf_true h2]; exact ⟨_, rfl, by simp⟩
  have h3 : k < -N := by
    rcases h with h | h | h
    · omega
    · exact h
    · exact absurd h.symm h2
  rw [raiseIf_false h2, Py.ok_bind, pyRep_nat, pySet_none _ (by
    unfold qubitAt; rw [dif_neg (by omega), dif_neg (by omega)])]
  exact ⟨_, rfl, by simp⟩

theorem rotation_rep {p q : Fin N} (hpq : p ≠ q) {P : Tensor ℂ} {m : Mat2} (hP : Represents2 P m) (θ : ℝ) :
    Computes (two_qubit_rotation_gate θ N (wire p) (wire q) P) (Spec.rot2 m θ p q) := by
  have hN : 0 < N := p.pos
  have hp := Fin.castInt_le p
  have hq := Fin.castInt_le q
  have hne : wire p ≠ wire q := by
    intro h; exact hpq (Fin.ext (by exact_mod_cast h))
  obtain ⟨U1, hU1, hr1⟩ := multi_kron_rep' hN _ _ (rep2_const (N := N))
  obtain ⟨U2, hU2, hr2⟩ := multi_kron_rep' hN _ _ (rep2_update (rep2_update rep2_const p hP) q hP)
  obtain ⟨U, hU, hr⟩ := ((hr1.congr onEach_one).smul ((Real.cos (θ / 2) : ℝ) : ℂ)).sub
    (hr2.smul (I * ((Real.sin (θ / 2) : ℝ) : ℂ)))
  refine ⟨U, ?_, hr.congr ?_⟩
  · unfold two_qubit_rotation_gate
    rw [raiseIf_false (by omega), Py.ok_bind, raiseIf_false (by simp only [wire]; omega), Py.ok_bind,
      raiseIf_false hne, Py.ok_bind, pyRep_nat]
    simp only [Py.ok_bind, pySet_ofFn, hU1, hU2]
    exact hU
  · rw [Spec.rot2, onQubit_mul_onQubit hpq]

theorem rotation_error {a b : ℤ} {θ : ℝ} {P : Tensor ℂ}
    (h : ¬ (0 ≤ a ∧ a < N ∧ 0 ≤ b ∧ b < N ∧ a ≠ b)) :
    two_qubit_rotation_gate θ N a b P = .error .valueError := by
  unfold two_qubit_rotation_gate
  by_cases h1 : (N : ℤ) < 1
  · rw [raiseIf_true h1]; rfl
  rw [raiseIf_false h1, Py.ok_bind]
  by_cases h2 : a < 0 ∨ a > (N : ℤ) - 1 ∨ b < 0 ∨ b > (N : ℤ) - 1
  · rw [raiseIf_true h2]; rfl
  rw [raiseIf_false h2, Py.ok_bind, raiseIf_true (by omega)]; rfl

theorem multi_control_rep {cs : List (Fin N)} {t : Fin N} (hcs : cs ≠ []) (ht : t ∉ cs)
    {u : Tensor ℂ} {m : Mat2} (hu : Represents2 u m) :
    Computes (multi_control_gate u N (wireList cs) (wire t)) (controlled cs t m) := by
  have hN : 0 < N := t.pos
  have ht' := Fin.castInt_le t
  obtain ⟨mx, hmx, hmx'⟩ := pyMax_wires hcs
  obtain ⟨mn, hmn, hmn'⟩ := pyMin_wires hcs
  have hmem : ¬ ∃ each ∈ wireList cs, each = wire t := by
    rintro ⟨e, he, rfl⟩
    obtain ⟨d, hd, hde⟩ := List.mem_map.1 he
    have : d = t := Fin.ext (by exact_mod_cast hde)
    exact ht (this ▸ hd)
  have hp : ∀ j, Represents2 ((fun j => if j ∈ cs then one_one else Tensor.eye 2 :
      Fin N → Tensor ℂ) j) (ctrlProj cs j) := by
    intro j
    by_cases hj : j ∈ cs
    · simpa [ctrlProj, hj, one_one, P1] using represents2_ofRows 0 0 0 1
    · simpa [ctrlProj, hj] using represents2_eye
  obtain ⟨U2, hU2, hr2⟩ := multi_kron_rep' hN _ _ (rep2_const (N := N))
  obtain ⟨U3, hU3, hr3⟩ := multi_kron_rep' hN _ _ hp
  obtain ⟨U1, hU1, hr1⟩ := multi_kron_rep' hN _ _ (rep2_update hp t hu)
  obtain ⟨S, hS, hrS⟩ := (hr2.congr onEach_one).sub hr3
  obtain ⟨U, hU, hr⟩ := hrS.add hr1
  refine ⟨U, ?_, hr.congr (controlled_multi_eq cs ht m).symm⟩
  unfold multi_control_gate
  rw [raiseIf_false (by omega), hmx, hmn]
  simp only [Py.ok_bind]
  rw [raiseIf_false (by simp only [wire]; omega), raiseIf_false (by simp only [wire]; omega),
    raiseIf_false hmem, pyRep_nat, foldlM_pySet]
  simp only [Py.ok_bind, pySet_ofFn, hU1, hU2, hU3, hS]
  exact hU

/-! ## Matrices -/

theorem xMat_rep : Represents2 xMat Spec.X := represents2_ofRows _ _ _ _
theorem yMat_rep : Represents2 yMat Spec.Y := represents2_ofRows _ _ _ _
theorem zMat_rep : Represents2 zMat Spec.Z := represents2_ofRows _ _ _ _
theorem hMat_rep : Represents2 hMat Spec.H := hadamardMat_rep

theorem rxMat_rep (φ : ℝ) : Represents2 (rxMat φ) (Spec.rot Spec.X φ) := by
  refine represents2_cast (represents2_ofRows _ _ _ _) ?_
  rw [rot_X_eq, neg_mul]

theorem ryMat_rep (φ : ℝ) : Represents2 (ryMat φ) (Spec.rot Spec.Y φ) := by
  refine represents2_cast (represents2_ofRows _ _ _ _) ?_
  rw [rot_Y_eq, neg_one_mul]

theorem rzMat_rep (φ : ℝ) : Represents2 (rzMat φ) (Spec.rot Spec.Z φ) := by
  refine represents2_cast (represents2_ofRows _ _ _ _) ?_
  rw [rot_Z_eq]
  have h1 : -I * φ / 2 = -((φ / 2 : ℝ) * I) := by push_cast; ring
  have h2 : I * φ / 2 = (φ / 2 : ℝ) * I := by push_cast; ring
  rw [h1, h2]

end QTN.Legacy
