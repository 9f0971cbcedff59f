import Verif.Lemmas.Grad2Approx

/-! # Property C66: accuracy of the gradients when singular values are discarded -/

namespace QTN.Props

open QTN QTN.Spec Matrix

variable {N : ℕ}

/-- C66: whatever the decompositions discard, entry `j` of `cal_params_grad()` is within
`2 B · accuracy l` of the partial derivative, where `‖O w‖ ≤ B ‖w‖`; every parameter except those of a
controlled U3 (for which the exact rule is already wrong, `C40_cu3_wrong`).  The call returns and leaves the
circuit as it was. -/
theorem C66_shift_gradient {svd : SVDOracle} (hv : ValidSVD svd) (hN : 0 < N) (l : List (Item N))
    (h : ∀ it ∈ l, it.WF) (hc : ∀ it ∈ l, HasTN it) (init M : Tensor ℂ) (v : QState N)
    (hi : IsRow init v) (hn : norm2 v ≤ 1) (ha : accuracy l < norm2 v) (O : QOp N) (hM : Represents M O)
    (B : ℝ) (hB : ∀ w : QState N, norm2 (O *ᵥ w) ≤ B * norm2 w) :
    ∃ ops, l.mapM buildItem = .ok ops ∧ ∀ s, ∃ g s',
      (⟨init, M⟩ : PShift).cal_params_grad svd (circ N ops, s) = (.ok g, (circ N ops, s')) ∧
      g.length = (allParams l).length ∧
      ∀ j, j < g.length → (∀ it, ownerOf l j = some it → ¬ IsCu3 it) →
        ∃ δ, IsPartial O v l j δ ∧ |g.getD j 0 - δ| ≤ 2 * B * accuracy l := by
  obtain ⟨ops, hops, -⟩ := C13_items N l h
  refine ⟨ops, hops, fun s => ?_⟩
  obtain ⟨g, s', e, hg⟩ := grad_within (svd := svd) (ps := ⟨init, M⟩) (O := O) (v := v)
    (ε := 2 * B * accuracy l) h (fun l' hl' => by
      rw [← accuracy_sibling hl'] at ha ⊢
      exact evalWithin_tn hv hN l' (sibling_all hl' (fun it p hp hw => wf_withParams hw hp) h)
        (sibling_all hl' (fun it p hp hw => hasTN_withParams hw hp) hc) hi hn ha hM hB) (mapM_mem hops) s
  have hl : g.length = (allParams l).length := by rw [← hg.length_eq, List.length_range]
  refine ⟨g, s', e, hl, fun j hj ho => ?_⟩
  have hj' : j < (allParams l).length := by omega
  refine ⟨_, shift_partial O v l h j hj' fun it hit => shiftOk_of (ho it hit), ?_⟩
  have := hg.get (i := j) (by simpa using hj') hj
  rw [List.get_eq_getElem, List.get_eq_getElem, List.getElem_range] at this
  rw [List.getD_eq_getElem?_getD, List.getElem?_eq_getElem hj, Option.getD_some]
  exact this

/-- C66 for the routine that saves states: whatever the decompositions discard, entry `j` of
`cal_params_grad2(save_mid_MPS(m))` is within `accuracy l + accuracy (l ++ m :: l)` of the partial derivative,
for every parameter that is not a phase (for which the exact rule is already wrong, `C42_u1_wrong`), and the
state `save_mid_MPS` returns is within `accuracy l` of the exact one. -/
theorem C66_saved_gradient {svd : SVDOracle} (hv : ValidSVD svd) (hN : 0 < N) (l : List (Item N))
    (hne : l ≠ []) (h : ∀ it ∈ l, it.WF) (hc : ∀ it ∈ l, HasTN it) (ps : PShift) (v : QState N)
    (hi : IsRow ps.init_state v) (hn : norm2 v ≤ 1) (m : Item N) (hm : m.WF) (hmc : HasTN m)
    (hmh : Hermitian m.op) (ha : accuracy (l ++ m :: l) < norm2 v) :
    ∃ ops mo, l.mapM buildItem = .ok ops ∧ buildItem m = .ok mo ∧ ∀ s,
      ∃ d psi w s1, ps.save_mid_MPS svd (circ N ops) mo s = (.ok (d, psi), s1) ∧ IsRow psi w ∧
        dist2 w (circuitOp l *ᵥ v) ≤ accuracy l ∧
        ∀ s2, ∃ g s', ps.cal_params_grad2 svd d (circ N ops, s2) = (.ok g, (circ N ops, s')) ∧
          g.length = (allParams l).length ∧
          ∀ j, j < g.length → (∀ it, ownerOf l j = some it → ¬ IsPhase it) →
            ∃ δ, IsPartial m.op v l j δ ∧ |g.getD j 0 - δ| ≤ accuracy l + accuracy (l ++ m :: l) := by
  obtain ⟨ops, hops, -⟩ := C13_items N l h
  obtain ⟨mo, hmo, -⟩ := item_ok (it := m) hm
  refine ⟨ops, mo, hops, hmo, fun s => ?_⟩
  have hb := mapM_mem hops
  obtain ⟨d, psi, w, s1, e1, h1, hd, hF, hB⟩ := save_near hv hN hn h hc hb hne hi (circ_nqubits N ops)
    (circ_gate N ops) hm hmc hmo ha s
  refine ⟨d, psi, w, s1, e1, h1, hd, fun s2 => ?_⟩
  have hal : accuracy l < norm2 v := by
    refine lt_of_le_of_lt ?_ ha
    rw [accuracy_eq, accuracy_eq, cuts_append]
    exact cut_mono (by omega)
  obtain ⟨g, s', e2, h2⟩ := grad2_near hv hN hn hal h hc hi (circ_nqubits N ops) hF hB
    (by rw [circ_gate]; exact hb) (circ_recorded h hb) (circ_count h hb) s2
  have hl : g.length = (allParams l).length := by rw [← h2.length_eq, overlapGrad_length]
  refine ⟨g, s', e2, hl, fun j hj ho => ?_⟩
  have hj' : j < (overlapGrad m.op v [] l).length := by rw [overlapGrad_length]; omega
  obtain ⟨p1, it, p2, i, rfl, hi', rfl, hg⟩ := overlapGrad_get m.op v l [] j (by omega)
  refine ⟨_, overlap_partial hmh v p1 it p2 i (h it (by simp)) (trigOk_of (ho it (ownerOf_append _ _ _ _ hi'))) hi', ?_⟩
  have := h2.get hj' hj
  rw [List.get_eq_getElem, List.get_eq_getElem] at this
  rw [List.getD_eq_getElem?_getD, List.getElem?_eq_getElem hj', Option.getD_some, List.nil_append] at hg
  rw [hg] at this
  rw [List.getD_eq_getElem?_getD, List.getElem?_eq_getElem hj, Option.getD_some]
  exact this

/-- C66: the two routines agree up to the sum of both bounds, for the observable given once as a matrix and
once as a gate. -/
theorem C66_routines_close {svd : SVDOracle} (hv : ValidSVD svd) (hN : 0 < N) (l : List (Item N))
    (hne : l ≠ []) (h : ∀ it ∈ l, it.WF) (hc : ∀ it ∈ l, HasTN it) (init M : Tensor ℂ) (v : QState N)
    (hi : IsRow init v) (hn : norm2 v ≤ 1) (m : Item N) (hm : m.WF) (hmc : HasTN m)
    (hmh : Hermitian m.op) (hM : Represents M m.op) (ha : accuracy (l ++ m :: l) < norm2 v) :
    ∃ ops mo, l.mapM buildItem = .ok ops ∧ buildItem m = .ok mo ∧ ∀ s s2 s3,
      ∃ d psi s1 g s2' g' s3', (⟨init, M⟩ : PShift).save_mid_MPS svd (circ N ops) mo s = (.ok (d, psi), s1) ∧
        (⟨init, M⟩ : PShift).cal_params_grad2 svd d (circ N ops, s2) = (.ok g, (circ N ops, s2')) ∧
        (⟨init, M⟩ : PShift).cal_params_grad svd (circ N ops, s3) = (.ok g', (circ N ops, s3')) ∧
        g.length = g'.length ∧
        ∀ j, j < g.length → (∀ it, ownerOf l j = some it → ¬ IsPhase it) →
          |g.getD j 0 - g'.getD j 0| ≤ 3 * accuracy l + accuracy (l ++ m :: l) := by
  obtain ⟨ops, mo, hops, hmo, H⟩ := C66_saved_gradient hv hN l hne h hc ⟨init, M⟩ v hi hn m hm hmc hmh ha
  have hal : accuracy l < norm2 v := by
    refine lt_of_le_of_lt ?_ ha
    rw [accuracy_eq, accuracy_eq, cuts_append]
    exact cut_mono (by omega)
  obtain ⟨ops', hops', H'⟩ := C66_shift_gradient hv hN l h hc init M v hi hn hal m.op hM 1 (fun w => by
    rw [norm2_unitary (item_unitary m hm), one_mul])
  obtain rfl : ops' = ops := by rw [hops] at hops'; cases hops'; rfl
  refine ⟨ops', mo, hops, hmo, fun s s2 s3 => ?_⟩
  obtain ⟨d, psi, w, s1, e1, -, -, K⟩ := H s
  obtain ⟨g, s2', e2, hl, h2⟩ := K s2
  obtain ⟨g', s3', e3, hl', h3⟩ := H' s3
  refine ⟨d, psi, s1, g, s2', g', s3', e1, e2, e3, by omega, fun j hj ho => ?_⟩
  obtain ⟨δ, hδ, b1⟩ := h2 j hj ho
  obtain ⟨δ', hδ', b2⟩ := h3 j (by omega) (fun it hit hcu => ho it hit (by
    cases it with
    | gate ins =>
      cases ins with
      | cu3 => trivial
      | _ => exact hcu.elim
    | _ => exact hcu.elim))
  obtain rfl : δ' = δ := HasDerivAt.unique hδ' hδ
  rw [abs_sub_comm] at b2
  have := abs_sub_le (g.getD j 0) δ' (g'.getD j 0)
  linarith

/-- A circuit with rotations, entangling gates and a rotation layer on `|000⟩`. -/
noncomputable def sampleItems : List (Item 3) :=
  [.gate (.ry 1 0), .gate (.cnot 0 2), .layer .xz (List.finRange 3) [1, 2, 3, 4, 5, 6], .gate (.u3 1 2 3 1)]

/-- The hypotheses of the three theorems hold for the sample circuit and the observable Z on qubit 1; the
circuit has ten parameters and converting and running it with the observable makes eight decompositions. -/
example : ∃ svd, ValidSVD svd ∧ (∀ it ∈ sampleItems, it.WF ∧ HasTN it ∧ ¬ IsPhase it ∧ ¬ IsCu3 it) ∧
    (allParams sampleItems).length = 10 ∧
    IsRow basis000 (fun a : Bits 3 => if enc a = 0 then (1 : ℂ) else 0) ∧
    norm2 (fun a : Bits 3 => if enc a = 0 then (1 : ℂ) else 0) ≤ 1 ∧
    (Item.gate (.z (1 : Fin 3))).WF ∧ HasTN (Item.gate (.z (1 : Fin 3))) ∧
    Hermitian (Item.gate (.z (1 : Fin 3))).op ∧
    svdCount (sampleItems ++ .gate (.z 1) :: sampleItems) = 8 ∧
    accuracy (sampleItems ++ .gate (.z 1) :: sampleItems) <
      norm2 (fun a : Bits 3 => if enc a = 0 then (1 : ℂ) else 0) := by
  obtain ⟨svd, hv⟩ := exists_validSVD
  have hcount : svdCount (sampleItems ++ .gate (.z 1) :: sampleItems) = 8 := by
    simp [sampleItems, svdCount, Item.decomps, Instr.decomps, gap]
  refine ⟨svd, hv, ?_, rfl, basis000_row, basis_norm.le, trivial, trivial, ?_, hcount, ?_⟩
  · intro it hit
    simp only [sampleItems, List.mem_cons, List.not_mem_nil, or_false] at hit
    rcases hit with rfl | rfl | rfl | rfl
    · exact ⟨trivial, trivial, id, id⟩
    · exact ⟨show (0 : Fin 3) ≠ 2 by decide, trivial, id, id⟩
    · exact ⟨⟨by decide, List.nodup_finRange 3, by simp [LayerKind.axes]⟩, trivial, id, id⟩
    · exact ⟨trivial, trivial, id, id⟩
  · exact onQubit_hermitian 1 (by ext i j; fin_cases i <;> fin_cases j <;> simp [Z])
  · rw [basis_norm]
    unfold accuracy
    rw [hcount]
    have : Real.sqrt (2 ^ (3 / 2)) ≤ 2 := Real.sqrt_le_iff.2 ⟨by norm_num, by norm_num⟩
    push_cast
    linarith

end QTN.Props
