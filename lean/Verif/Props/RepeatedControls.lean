import Verif.Lemmas.NegWires
import Verif.Lemmas.BadWires
import Verif.Props.Gates
import Verif.Props.Mps

/-! # Property C59: a control wire listed twice -/

namespace QTN.Props

open QTN QTN.Spec Matrix

variable {N : ℕ}

theorem toffoli_equal_up (svd : SVDOracle) (g : Gate) (mps : List (Tensor ℂ)) {a t : ℤ} (h : t < a)
    (hw : g.wires = .list [a, a, t]) :
    g.toffoli_TN_operation svd mps =
      ({ g with wires := .list [a, a + 1, t] } : Gate).toffoli_TN_operation svd mps := by
  unfold Gate.toffoli_TN_operation
  rw [guard_wires g [a, a, t] _ hw, hw]
  have e0 : ∀ x y z : ℤ, pyGet [x, y, z] 0 = .ok x := fun _ _ _ => rfl
  have e1 : ∀ x y z : ℤ, pyGet [x, y, z] 1 = .ok y := fun _ _ _ => rfl
  have e2 : ∀ x y z : ℤ, pyGet [x, y, z] 2 = .ok z := fun _ _ _ => rfl
  have e3 : Gate.toffoliG t a a = Gate.toffoliG t a (a + 1) := by
    unfold Gate.toffoliG
    rw [if_neg (by omega), if_neg (by omega), if_neg (by omega)]
  have s1 : [a, a, t].mergeSort (· ≤ ·) = [t, a, a] := by
    refine List.Perm.eq_of_pairwise' (r := (· ≤ ·)) (by simpa using List.pairwise_mergeSort' (· ≤ ·) [a, a, t])
      (by simp; omega) ((List.mergeSort_perm _ _).trans ?_)
    exact (List.perm_append_comm (l₁ := [a, a]) (l₂ := [t]))
  have s2 : [a, a + 1, t].mergeSort (· ≤ ·) = [t, a, a + 1] := by
    refine List.Perm.eq_of_pairwise' (r := (· ≤ ·)) (by simpa using List.pairwise_mergeSort' (· ≤ ·) [a, a + 1, t])
      (by simp; omega) ((List.mergeSort_perm _ _).trans ?_)
    exact (List.perm_append_comm (l₁ := [a, a + 1]) (l₂ := [t]))
  simp only [asList_list, TNM.lift_ok_bind, s1, s2, e0, e1, e2, e3]
  rw [pyRangeDown_empty (show a ≤ a + 1 by omega), pyRangeDown_empty (show a + 1 ≤ a + 1 by omega),
    pyRange2_empty (show a ≤ a + 1 by omega), pyRange2_empty (show a + 1 ≤ a + 1 by omega)]

/-- C59 (partial: `U_expand`): a repeated control counts once, for toffoli and for multi_control_cnot.
Missing for the full statement: the tensor-network methods of toffoli (`C59_contract_raises`,
`C59_operation_wrong`). -/
theorem C59_U_partial (a t : Fin N) (h : a ≠ t) (cs : List (Fin N)) (hcs : cs ≠ []) (ht : t ∉ cs) :
    Computes (do (← mkToffoli N (.list [wire a, wire a, wire t])).U_expand) (controlled [a] t X) ∧
    Computes (do (← mkMcnot N (.list (cs.map wire ++ [wire t]))).U_expand) (controlled cs.dedup t X) := by
  have e1 : (controlled [a, a] t X : QOp N) = controlled [a] t X := by
    funext x y; simp [controlled]
  have e2 : (controlled cs t X : QOp N) = controlled cs.dedup t X := by
    funext x y; simp [controlled]
  exact ⟨e1 ▸ (C03_multi_controlled_not N).1 a a t h h, e2 ▸ (C03_multi_controlled_not N).2 cs t hcs ht⟩

/-- C59 is false for `toffoli.TN_contract`: with a repeated control it raises AssertionError on every tensor. -/
theorem C59_contract_raises (a t : Fin N) :
    ∃ g, mkToffoli N (.list [wire a, wire a, wire t]) = .ok g ∧
      ∀ T b, g.TN_contract T b = .error .assertionError := by
  refine ⟨_, rfl, fun T b => ?_⟩
  show Gate.toffoli_TN_contract _ T b = _
  unfold Gate.toffoli_TN_contract
  rw [guard_list (N := N) rfl rfl, Py.ok_bind]
  show (pyAssert (wire a ≠ wire t ∧ wire a ≠ wire t ∧ wire a ≠ wire a) >>= _) = _
  rw [pyAssert_false (by simp)]
  rfl

/-- C59 is false for `toffoli.TN_operation`: with a repeated control `a` it takes a neighbour of `a` as the
second control - the previous qubit if the target is below, the next one if the target is above. -/
theorem C59_operation_wrong {svd : SVDOracle} (hv : ValidSVD svd) (a t : Fin N) :
    ∃ g, mkToffoli N (.list [wire a, wire a, wire t]) = .ok g ∧
      (∀ b : Fin N, b + 1 = (a : ℕ) → a < t → ∀ mps (v : QState N) s, HoldsState mps v →
        (∀ A ∈ (g.TN_operation svd mps s).2, Lossless A) →
        (∃ mps' s', g.TN_operation svd mps s = (.ok mps', s') ∧ HoldsState mps' (controlled [b, a] t X *ᵥ v)) ∨
        (v = 0 ∧ ∃ s', g.TN_operation svd mps s = (.error .runtimeError, s'))) ∧
      (∀ b : Fin N, (b : ℕ) = a + 1 → t < a → ∀ mps (v : QState N) s, HoldsState mps v →
        (∀ A ∈ (g.TN_operation svd mps s).2, Lossless A) →
        (∃ mps' s', g.TN_operation svd mps s = (.ok mps', s') ∧ HoldsState mps' (controlled [a, b] t X *ᵥ v)) ∨
        (v = 0 ∧ ∃ s', g.TN_operation svd mps s = (.error .runtimeError, s'))) := by
  refine ⟨_, rfl, fun b hb hat mps v s hm hl => ?_, fun b hb hat mps v s hm hl => ?_⟩
  · have hbt : b < t := by
      have : (a : ℕ) < t := hat
      exact Fin.lt_def.2 (by omega)
    have e : ∀ mps, (⟨.toffoli, N, .list [wire a, wire a, wire t], [], toffoliMat, noMat⟩ : Gate).TN_operation svd mps =
        (⟨.toffoli, N, .list [wire b, wire a, wire t], [], toffoliMat, noMat⟩ : Gate).toffoli_TN_operation svd mps := by
      intro mps
      have := toffoli_equal svd (⟨.toffoli, N, .list [wire a, wire a, wire t], [], toffoliMat, noMat⟩ : Gate) mps
        (a := wire a) (t := wire t) (by simpa [wire] using hat) rfl
      rw [show wire a - 1 = wire b by unfold wire; omega] at this
      exact this
    rw [e] at hl ⊢
    rcases (acts_toffoli hv (p := b) (q := a) (r := t) (fun h => by rw [h] at hb; omega) hbt.ne hat.ne
      (g := ⟨.toffoli, N, .list [wire b, wire a, wire t], [], toffoliMat, noMat⟩) rfl rfl).2.2 mps v s
      (holds_iff.1 hm) hl with ⟨m', s', h1, h2⟩ | h
    · exact .inl ⟨m', s', h1, holds_iff.2 h2⟩
    · exact .inr h
  · have hbt : t < b := by
      have : (t : ℕ) < a := hat
      exact Fin.lt_def.2 (by omega)
    have e : ∀ mps, (⟨.toffoli, N, .list [wire a, wire a, wire t], [], toffoliMat, noMat⟩ : Gate).TN_operation svd mps =
        (⟨.toffoli, N, .list [wire a, wire b, wire t], [], toffoliMat, noMat⟩ : Gate).toffoli_TN_operation svd mps := by
      intro mps
      have := toffoli_equal_up svd (⟨.toffoli, N, .list [wire a, wire a, wire t], [], toffoliMat, noMat⟩ : Gate) mps
        (a := wire a) (t := wire t) (by simpa [wire] using hat) rfl
      rw [show wire a + 1 = wire b by unfold wire; omega] at this
      exact this
    rw [e] at hl ⊢
    rcases (acts_toffoli hv (p := a) (q := b) (r := t) (fun h => by rw [← h] at hb; omega) hat.ne' hbt.ne'
      (g := ⟨.toffoli, N, .list [wire a, wire b, wire t], [], toffoliMat, noMat⟩) rfl rfl).2.2 mps v s
      (holds_iff.1 hm) hl with ⟨m', s', h1, h2⟩ | h
    · exact .inl ⟨m', s', h1, holds_iff.2 h2⟩
    · exact .inr h

/-- C59: if the repeated control is the last qubit and the target is above, `TN_operation` raises on every state. -/
theorem C59_operation_raises (svd : SVDOracle) (a t : Fin N) (ha : (a : ℕ) + 1 = N) (hat : t < a)
    (mps s : List (Tensor ℂ)) (hm : mps.length = N) :
    ∃ g, mkToffoli N (.list [wire a, wire a, wire t]) = .ok g ∧ ∃ e s', g.TN_operation svd mps s = (.error e, s') := by
  refine ⟨_, rfl, ?_⟩
  have := toffoli_equal_up svd (⟨.toffoli, N, .list [wire a, wire a, wire t], [], toffoliMat, noMat⟩ : Gate) mps
    (a := wire a) (t := wire t) (by simpa [wire] using hat) rfl
  show ∃ e s', Gate.toffoli_TN_operation svd _ mps s = _
  rw [this]
  exact toffoli_high svd _ (wire a) (wire a + 1) (wire t) rfl mps
    ⟨wire a + 1, by simp, .inl (by rw [hm]; unfold wire; omega)⟩ s

/-- C59 is false: `toffoli(3,[1,1,2])` on `|010⟩`: the product of `U_expand` and the vector is `|011⟩`, but
`TN_operation` returns a matrix product state of `|010⟩`. -/
theorem C59_paths_differ : ∃ svd, ValidSVD svd ∧ ∃ (g : Gate) (mps mps' : List (Tensor ℂ)) (v : QState 3)
    (s' : List (Tensor ℂ)), mkToffoli 3 (.list [1, 1, 2]) = .ok g ∧ HoldsState mps v ∧
      Computes g.U_expand (controlled [(1 : Fin 3)] 2 X) ∧ g.TN_operation svd mps [] = (.ok mps', s') ∧
      HoldsState mps' v ∧ controlled [(1 : Fin 3)] 2 X *ᵥ v ≠ v := by
  obtain ⟨svd, hv⟩ := exists_validSVD
  have hm : HoldsState [site1 1 0, site1 0 1, site1 1 0]
      (fun a : Bits 3 => if a = ![0, 1, 0] then 1 else 0) := by
    refine holds_iff.2 ⟨rfl, ⟨by omega, 1, rfl, by omega, 1, rfl, by omega, 1, rfl, rfl⟩, fun a => ?_⟩
    rw [bl_three, amp_triple (A := site1 1 0) (B := site1 0 1) (C := site1 1 0) rfl rfl rfl _ _ _ _
      (by omega : 0 < 1)]
    simp only [Finset.sum_range_one]
    have : a = ![0, 1, 0] ↔ a 0 = 0 ∧ a 1 = 1 ∧ a 2 = 0 := by
      constructor
      · rintro rfl; exact ⟨rfl, rfl, rfl⟩
      · rintro ⟨h0, h1, h2⟩; funext i; fin_cases i <;> assumption
    simp only [this]
    generalize a 0 = x, a 1 = y, a 2 = z
    fin_cases x <;> fin_cases y <;> fin_cases z <;> simp [site1_get0, site1_get1]
  obtain ⟨g, eg, h1, -⟩ := C59_operation_wrong hv (1 : Fin 3) 2
  have hl : ∀ A ∈ (g.TN_operation svd [site1 1 0, site1 0 1, site1 1 0] []).2, Lossless A := by
    have e := toffoli_equal svd (⟨.toffoli, 3, .list [1, 1, 2], [], toffoliMat, noMat⟩ : Gate)
      [site1 1 0, site1 0 1, site1 1 0] (a := 1) (t := 2) (by omega) rfl
    have := toffoli_run_010 hv (g := ⟨.toffoli, 3, .list [0, 1, 2], [], toffoliMat, noMat⟩) rfl
    cases eg
    intro A hA
    refine this A ?_
    have e' : Gate.TN_operation svd (⟨.toffoli, 3, .list [1, 1, 2], [], toffoliMat, noMat⟩ : Gate)
        [site1 1 0, site1 0 1, site1 1 0] = Gate.TN_operation svd
        (⟨.toffoli, 3, .list [0, 1, 2], [], toffoliMat, noMat⟩ : Gate) [site1 1 0, site1 0 1, site1 1 0] := e
    rw [← e']
    exact hA
  have hne : (fun a : Bits 3 => if a = ![0, 1, 0] then (1 : ℂ) else 0) ≠ 0 := fun h => by
    have := congrFun h ![0, 1, 0]
    simp at this
  rcases h1 0 rfl (by decide) _ _ [] hm hl with ⟨mps', s', e1, e2⟩ | ⟨h, -⟩
  · refine ⟨svd, hv, g, _, mps', _, s', eg, hm, ?_, e1, ?_, ?_⟩
    · have := (C59_U_partial (1 : Fin 3) 2 (by decide) [0] (by simp) (by decide)).1
      have eg' : mkToffoli ((3 : ℕ) : ℤ) (.list [wire (1 : Fin 3), wire (1 : Fin 3), wire (2 : Fin 3)]) = .ok g := eg
      rw [eg'] at this
      exact this
    · have : controlled [(0 : Fin 3), 1] 2 X *ᵥ (fun a : Bits 3 => if a = ![0, 1, 0] then (1 : ℂ) else 0) =
          fun a : Bits 3 => if a = ![0, 1, 0] then (1 : ℂ) else 0 := by
        funext a
        rw [Matrix.mulVec, dotProduct]
        simp only [mul_ite, mul_one, mul_zero, Finset.sum_ite_eq', Finset.mem_univ, if_true]
        simp [controlled, Matrix.one_apply]
      rw [this] at e2
      exact e2
    · intro h
      have := congrFun h ![0, 1, 0]
      rw [Matrix.mulVec, dotProduct] at this
      simp only [mul_ite, mul_one, mul_zero, Finset.sum_ite_eq', Finset.mem_univ, if_true] at this
      simp [controlled, onQubit, X] at this
  · exact absurd h hne

/-- Wires for each of the theorems. -/
example : ((1 : Fin 4) : ℕ) + 1 = (2 : Fin 4) ∧ (2 : Fin 4) < 3 ∧ ((3 : Fin 4) : ℕ) = (2 : Fin 4) + 1 ∧
    (0 : Fin 4) < 2 ∧ ((3 : Fin 4) : ℕ) + 1 = 4 ∧ (3 : Fin 4) ∉ [0, 2, 0, (2 : Fin 4)] := by decide

end QTN.Props
