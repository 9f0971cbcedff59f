import Verif.Lemmas.SharedEx
import Verif.Lemmas.Grad2Ex
import Verif.Props.Grad2

/-! # Property C64: one object at several positions of a circuit -/

namespace QTN.Props

open QTN QTN.Spec Matrix

variable {N : ℕ}

/-- Adding the objects `refs`, which may repeat, to `Circuit(N)`. -/
theorem shared_circ {h : Heap} {refs : List Ref} {I : Ref → Item N} (hw : ∀ r ∈ refs, (I r).WF)
    (hb : Loaded h refs I) : ∃ c ops, (∀ s, addAll refs ⟨h, OCircuit.new N, s⟩ = (.ok (), ⟨h, c, s⟩)) ∧
      c.gate = refs ∧ View h c (circ N ops) ∧ List.Forall₂ Built (refs.map I) ops ∧ ORecorded c I ∧
      (allParams (refs.map I)).length = c.cir_num_params := by
  obtain ⟨ops, ha, hf⟩ := hb.ops
  obtain ⟨c, -, v, hg⟩ := addAll_view h refs ops ha (OCircuit.new N) (Circuit.new N) [] ⟨rfl, rfl, rfl, rfl⟩
  have hw' : ∀ it ∈ refs.map I, it.WF := by
    intro it hit
    obtain ⟨r, hr, rfl⟩ := List.mem_map.1 hit
    exact hw r hr
  have hg' : c.gate = refs := by rw [hg]; rfl
  refine ⟨c, ops, fun s => ?_, hg', v, hf, fun k r hk hne => ?_, ?_⟩
  · obtain ⟨c2, e2, v2, hg2⟩ := addAll_view h refs ops ha (OCircuit.new N) (Circuit.new N) s ⟨rfl, rfl, rfl, rfl⟩
    have : c2 = c := by
      cases c; cases c2
      have a1 := v2.nqubits.trans v.nqubits.symm
      have a2 := v2.params.trans v.params.symm
      have a3 := v2.num.trans v.num.symm
      have a4 := hg2.trans hg.symm
      simp only at a1 a2 a3 a4
      rw [a1, a2, a3, a4]
    rw [← this]
    exact e2
  · rw [hg'] at hk
    obtain ⟨o, ho, hp⟩ := circ_recorded hw' hf k (I r) (by rw [List.getElem?_map, hk]; rfl) hne
    exact ⟨o, ho, by rw [v.params]; exact hp⟩
  · rw [v.num]; exact circ_count hw' hf

/-- C64, changing parameters: `params_update` on an object changes every position that refers to it, and no
other; `U()` is then the product with the new parameters at all these positions. -/
theorem C64_update_everywhere (h : Heap) (refs : List Ref) (I : Ref → Item N) (hw : ∀ r ∈ refs, (I r).WF)
    (hb : ∀ r ∈ refs, ∃ o, h r = .op o ∧ buildItem (I r) = .ok o) (r : Ref) (hr : r ∈ refs)
    (hne : (I r).params ≠ []) (p : List ℝ) (hp : p.length = (I r).params.length) (s : List (Tensor ℂ)) :
    ∃ c h', addAll refs ⟨h, OCircuit.new N, s⟩ = (.ok (), ⟨h, c, s⟩) ∧
      OM.touch r p ⟨h, c, s⟩ = (.ok (), ⟨h', c, s⟩) ∧
      Computes (c.U h) (circuitOp (refs.map I)) ∧
      Computes (c.U h') (circuitOp (refs.map fun r' => if r' = r then (I r).withParams p else I r')) := by
  obtain ⟨c, ops, h1, hg, v, hf, -, -⟩ := shared_circ hw hb
  obtain ⟨k, hk, hkr⟩ := List.mem_iff_getElem.1 hr
  obtain ⟨h', e1, hb', -⟩ := oupdate_ok (c := c) (I := I) (h := h) (idx := k) (r := r) (by
    rw [hg, List.getElem?_eq_getElem hk, hkr]) (hw r hr) hne rfl hp (by rw [withI_self, hg]; exact hb) s
  have e2 : OM.touch r p ⟨h, c, s⟩ = (.ok (), ⟨h', c, s⟩) := by
    rw [← e1]
    unfold OM.update
    dsimp only
    rw [hg, List.getElem?_eq_getElem hk, hkr]
  refine ⟨c, h', h1 s, e2, ?_, ?_⟩
  · obtain ⟨ops', hops, hU, -⟩ := C13_items N (refs.map I) (by
      intro it hit
      obtain ⟨r, hr, rfl⟩ := List.mem_map.1 hit
      exact hw r hr)
    have := built_unique hf (mapM_mem hops)
    subst this
    rw [v.U]
    exact hU
  · rw [hg] at hb'
    obtain ⟨c2, ops2, h12, hg2, v2, hf2, -, -⟩ := shared_circ (h := h') (I := withI I r p) (refs := refs)
      (fun r' hr' => by
        by_cases hrr : r' = r
        · subst hrr; rw [withI_at]; exact wf_withParams (hw _ hr') hp
        · rw [withI_ne _ _ hrr]; exact hw r' hr') hb'
    obtain ⟨ops', hops, hU, -⟩ := C13_items N (refs.map (withI I r p)) (by
      intro it hit
      obtain ⟨r', hr', rfl⟩ := List.mem_map.1 hit
      by_cases hrr : r' = r
      · subst hrr; rw [withI_at]; exact wf_withParams (hw _ hr') hp
      · rw [withI_ne _ _ hrr]; exact hw r' hr')
    have := built_unique hf2 (mapM_mem hops)
    subst this
    have eU : c.U h' = c2.U h' := by
      unfold OCircuit.U OCircuit.objs
      rw [hg, hg2, v.nqubits, v2.nqubits, circ_nqubits, circ_nqubits]
    rw [eU, v2.U]
    have : (refs.map fun r' => if r' = r then (I r).withParams p else I r') = refs.map (withI I r p) := by
      refine List.map_congr_left fun r' _ => ?_
      by_cases hrr : r' = r
      · subst hrr; rw [withI_at, if_pos rfl]
      · rw [withI_ne _ _ hrr, if_neg hrr]
    rw [this]
    exact hU

/-- The items with the `i`-th parameter of the object `r` replaced by `x`, at every position that refers to it. -/
noncomputable def setShared (refs : List Ref) (I : Ref → Item N) (r : Ref) (i : ℕ) (x : ℝ) : List (Item N) :=
  refs.map fun r' => if r' = r then (I r).withParams ((I r).params.set i x) else I r'

/-- Half the difference of the expectation values with parameter `i` of the object `r` moved by `±π/2` at every
position. -/
noncomputable def sharedDiff (O : QOp N) (v : QState N) (refs : List Ref) (I : Ref → Item N) (r : Ref) (i : ℕ) : ℝ :=
  (energy O v (setShared refs I r i ((I r).params.getD i 0 + Real.pi / 2)) -
    energy O v (setShared refs I r i ((I r).params.getD i 0 - Real.pi / 2))) / 2

theorem sharedDiff_eq (O : QOp N) (v : QState N) (refs : List Ref) (I : Ref → Item N) (r : Ref) (i : ℕ) :
    sharedShift O v refs I r i = sharedDiff O v refs I r i := by
  have e : ∀ x, refs.map (withI I r ((I r).params.set i x)) = setShared refs I r i x := by
    intro x
    unfold setShared
    refine List.map_congr_left fun r' _ => ?_
    by_cases hrr : r' = r
    · subst hrr; rw [withI_at, if_pos rfl]
    · rw [withI_ne _ _ hrr, if_neg hrr]
  unfold sharedShift sharedDiff
  rw [e, e, show (0.5 : ℝ) * Real.pi = Real.pi / 2 by norm_num; ring]
  norm_num
  ring

theorem setShared_once {pre post : List Ref} {I : Ref → Item N} {r : Ref} (h1 : r ∉ pre) (h2 : r ∉ post) (i : ℕ)
    (hi : i < (I r).params.length) (x : ℝ) : setShared (pre ++ r :: post) I r i x =
      setParam ((pre ++ r :: post).map I) ((allParams (pre.map I)).length + i) x := by
  rw [List.map_append, List.map_cons, setParam_append _ _ _ _ hi]
  unfold setShared
  rw [List.map_append, List.map_cons, if_pos rfl]
  have e : ∀ l : List Ref, r ∉ l → (l.map fun r' => if r' = r then (I r).withParams ((I r).params.set i x) else I r') =
      l.map I := by
    intro l hl
    refine List.map_congr_left fun r' hr' => if_neg ?_
    rintro rfl
    exact hl hr'
  rw [e _ h1, e _ h2]

/-- The list of entries, position by position. -/
noncomputable def sharedGrad (O : QOp N) (v : QState N) (refs : List Ref) (I : Ref → Item N) : List ℝ :=
  refs.flatMap fun r => (List.range (I r).params.length).map (sharedDiff O v refs I r)

theorem sharedGrad_at (O : QOp N) (v : QState N) (refs : List Ref) (I : Ref → Item N) (pre post : List Ref) (r : Ref)
    (e : refs = pre ++ r :: post) (i : ℕ) (hi : i < (I r).params.length) :
    (sharedGrad O v refs I).getD ((allParams (pre.map I)).length + i) 0 = sharedDiff O v refs I r i := by
  unfold sharedGrad
  have hl : ∀ l : List Ref, (l.flatMap fun r => (List.range (I r).params.length).map (sharedDiff O v refs I r)).length =
      (allParams (l.map I)).length := by
    intro l
    unfold allParams
    simp [List.length_flatMap, Function.comp_def]
  have e2 : refs.flatMap (fun r => (List.range (I r).params.length).map (sharedDiff O v refs I r)) =
      pre.flatMap (fun r => (List.range (I r).params.length).map (sharedDiff O v refs I r)) ++
      ((List.range (I r).params.length).map (sharedDiff O v refs I r) ++
        post.flatMap (fun r => (List.range (I r).params.length).map (sharedDiff O v refs I r))) := by
    conv_lhs => rw [e]
    simp only [List.flatMap_append, List.flatMap_cons, e]
  rw [e2, List.getD_eq_getElem?_getD, List.getElem?_append_right (by rw [hl]; omega), hl,
    Nat.add_sub_cancel_left, List.getElem?_append_left (by simpa using hi), List.getElem?_map,
    List.getElem?_range hi]
  rfl

theorem sharedGrad_once {O : QOp N} {v : QState N} {refs : List Ref} {I : Ref → Item N} (hw : ∀ r ∈ refs, (I r).WF)
    (pre post : List Ref) (r : Ref) (e : refs = pre ++ r :: post) (h1 : r ∉ pre) (h2 : r ∉ post)
    (hu : ¬ IsCu3 (I r)) (i : ℕ) (hi : i < (I r).params.length) :
    IsPartial O v (refs.map I) ((allParams (pre.map I)).length + i)
      ((sharedGrad O v refs I).getD ((allParams (pre.map I)).length + i) 0) := by
  rw [sharedGrad_at O v refs I pre post r e i hi]
  have em : refs.map I = pre.map I ++ I r :: post.map I := by rw [e]; simp
  have hj : (allParams (pre.map I)).length + i < (allParams (refs.map I)).length := by
    rw [em]
    unfold allParams
    simp only [List.flatMap_append, List.flatMap_cons, List.length_append]
    omega
  have key := shift_partial O v (refs.map I) (by
    intro it hit
    obtain ⟨r', hr', rfl⟩ := List.mem_map.1 hit
    exact hw r' hr') _ hj (by
    intro it hit
    rw [em, ownerOf_append _ _ _ _ hi] at hit
    cases hit
    exact shiftOk_of hu)
  have es : shiftValue O v (refs.map I) ((allParams (pre.map I)).length + i) = sharedDiff O v refs I r i := by
    unfold shiftValue sharedDiff
    have ep : (allParams (refs.map I)).getD ((allParams (pre.map I)).length + i) 0 = (I r).params.getD i 0 := by
      rw [em, allParams_getD _ _ _ _ hi]
    rw [ep]
    have est : ∀ x, setParam (refs.map I) ((allParams (pre.map I)).length + i) x = setShared refs I r i x := by
      intro x; rw [e]; exact (setShared_once h1 h2 i hi x).symm
    rw [est, est, show (0.5 : ℝ) * Real.pi = Real.pi / 2 by norm_num; ring]
    norm_num
    ring
  rw [← es]
  exact key

/-- C64 (partial), gradients on the matrix path: for objects that may stand at several positions,
`cal_params_grad()` returns for every position, in order, half the differences with the parameters moved at all
positions of that object; entries of an object that occurs once are partial derivatives; circuit and objects are
as before.  Missing for the full statement (each entry is the partial derivative with respect to its position):
it is false for objects that occur more than once (`C64_shared_wrong`). -/
theorem C64_gradient_matrix_partial (svd : SVDOracle) (h : Heap) (refs : List Ref) (I : Ref → Item N)
    (hw : ∀ r ∈ refs, (I r).WF) (hb : ∀ r ∈ refs, ∃ o, h r = .op o ∧ buildItem (I r) = .ok o)
    (r0 : Ref) (hr0 : r0 ∈ refs) (hu : Unflagged (I r0)) (init M : Tensor ℂ) (v : QState N) (hi : IsRow init v)
    (O : QOp N) (hM : Represents M O) (s : List (Tensor ℂ)) :
    ∃ c g s', addAll refs ⟨h, OCircuit.new N, s⟩ = (.ok (), ⟨h, c, s⟩) ∧
      (⟨init, M⟩ : PShift).ocal_params_grad svd ⟨h, c, s⟩ = (.ok g, ⟨h, c, s'⟩) ∧
      g = sharedGrad O v refs I ∧
      ∀ pre r post, refs = pre ++ r :: post → r ∉ pre → r ∉ post → ¬ IsCu3 (I r) →
        ∀ i, i < (I r).params.length → IsPartial O v (refs.map I) ((allParams (pre.map I)).length + i)
          (g.getD ((allParams (pre.map I)).length + i) 0) := by
  obtain ⟨c, ops, h1, hg, hv, hf, hrec, hn⟩ := shared_circ hw hb
  subst hg
  obtain ⟨s', e⟩ := ocal_params_grad_run (svd := svd) (q := False) (ps := ⟨init, M⟩)
    (by rw [hv.nqubits, circ_nqubits]) hi hM
    ⟨by
      intro it hit
      obtain ⟨r', hr', rfl⟩ := List.mem_map.1 hit
      exact hw r' hr', .inl ⟨I r0, List.mem_map_of_mem hr0, hu⟩⟩ hrec hn hb s (fun h => h.elim)
  have eg : (c.gate.flatMap fun r => (List.range (I r).params.length).map (sharedShift O v c.gate I r)) =
      sharedGrad O v c.gate I := by
    unfold sharedGrad
    simp only [funext (sharedDiff_eq O v c.gate I _)]
  rw [eg] at e
  exact ⟨c, _, s', h1 s, e, rfl, fun pre r post e' p1 p2 hc i hi => sharedGrad_once hw pre post r e' p1 p2 hc i hi⟩

/-- C64 (partial), gradients on the tensor network path, for every SVD routine, if no non-zero singular value is
discarded. -/
theorem C64_gradient_tn_partial {svd : SVDOracle} (hv : ValidSVD svd) (hN : 0 < N) (h : Heap) (refs : List Ref)
    (I : Ref → Item N) (hw : ∀ r ∈ refs, (I r).WF) (hb : ∀ r ∈ refs, ∃ o, h r = .op o ∧ buildItem (I r) = .ok o)
    (hc : ∀ r ∈ refs, HasTN (I r)) (init M : Tensor ℂ) (v : QState N) (hi : IsRow init v) (h0 : v ≠ 0)
    (O : QOp N) (hM : Represents M O) (s : List (Tensor ℂ)) :
    ∃ c, addAll refs ⟨h, OCircuit.new N, s⟩ = (.ok (), ⟨h, c, s⟩) ∧
      ((∀ A ∈ ((⟨init, M⟩ : PShift).ocal_params_grad svd ⟨h, c, s⟩).2.log, Lossless A) →
      ∃ g s', (⟨init, M⟩ : PShift).ocal_params_grad svd ⟨h, c, s⟩ = (.ok g, ⟨h, c, s'⟩) ∧
        g = sharedGrad O v refs I ∧
        ∀ pre r post, refs = pre ++ r :: post → r ∉ pre → r ∉ post → ¬ IsCu3 (I r) →
          ∀ i, i < (I r).params.length → IsPartial O v (refs.map I) ((allParams (pre.map I)).length + i)
            (g.getD ((allParams (pre.map I)).length + i) 0)) := by
  obtain ⟨c, ops, h1, hg, hvw, hf, hrec, hn⟩ := shared_circ hw hb
  subst hg
  refine ⟨c, h1 s, fun hl => ?_⟩
  obtain ⟨s', e⟩ := ocal_params_grad_run (svd := svd) (q := True) (ps := ⟨init, M⟩)
    (by rw [hvw.nqubits, circ_nqubits]) hi hM
    ⟨by
      intro it hit
      obtain ⟨r', hr', rfl⟩ := List.mem_map.1 hit
      exact hw r' hr', .inr ⟨trivial, hv, hN, h0, by
      intro it hit
      obtain ⟨r', hr', rfl⟩ := List.mem_map.1 hit
      exact hc r' hr'⟩⟩ hrec hn hb s (fun _ => hl)
  have eg : (c.gate.flatMap fun r => (List.range (I r).params.length).map (sharedShift O v c.gate I r)) =
      sharedGrad O v c.gate I := by
    unfold sharedGrad
    simp only [funext (sharedDiff_eq O v c.gate I _)]
  rw [eg] at e
  exact ⟨_, s', e, rfl, fun pre r post e' p1 p2 hc i hi => sharedGrad_once hw pre post r e' p1 p2 hc i hi⟩

/-- C64, the other gradient routine is not affected by sharing: `cal_params_grad2(save_mid_MPS(m))` returns the
partial derivatives position by position, under the restrictions of C42, and circuit and objects are as
before. -/
theorem C64_saved_gradient_partial {svd : SVDOracle} (hv : ValidSVD svd) (hN : 0 < N) (h : Heap) (refs : List Ref)
    (hne : refs ≠ []) (I : Ref → Item N) (hw : ∀ r ∈ refs, (I r).WF)
    (hb : ∀ r ∈ refs, ∃ o, h r = .op o ∧ buildItem (I r) = .ok o) (hc : ∀ r ∈ refs, HasTN (I r)) (ps : PShift)
    (v : QState N) (hi : IsRow ps.init_state v) (h0 : v ≠ 0) (m : Item N) (hm : m.WF) (hmc : HasTN m)
    (hmh : Hermitian m.op) (s : List (Tensor ℂ)) :
    ∃ c mo, addAll refs ⟨h, OCircuit.new N, s⟩ = (.ok (), ⟨h, c, s⟩) ∧ buildItem m = .ok mo ∧
      ((∀ A ∈ (ps.osave_mid_MPS svd h c mo s).2, Lossless A) →
      ∃ d psi s1, ps.osave_mid_MPS svd h c mo s = (.ok (d, psi), s1) ∧ IsRow psi (circuitOp (refs.map I) *ᵥ v) ∧
        ∀ s2, (∀ A ∈ (ps.ocal_params_grad2 svd d ⟨h, c, s2⟩).2.log, Lossless A) →
          ∃ g s', ps.ocal_params_grad2 svd d ⟨h, c, s2⟩ = (.ok g, ⟨h, c, s'⟩) ∧
            g.length = (allParams (refs.map I)).length ∧
            ∀ j, j < g.length → (∀ it, ownerOf (refs.map I) j = some it → ¬ IsPhase it) →
              IsPartial m.op v (refs.map I) j (g.getD j 0)) := by
  obtain ⟨c, ops, h1, hg, hvw, hf, hrec, hn⟩ := shared_circ hw hb
  subst hg
  have hmem : ∀ {P : Item N → Prop}, (∀ r ∈ c.gate, P (I r)) → ∀ it ∈ c.gate.map I, P it := by
    intro P hP it hit
    obtain ⟨r', hr', rfl⟩ := List.mem_map.1 hit
    exact hP r' hr'
  obtain ⟨ops', mo, hops, hmo, H⟩ := C42_saved_gradient_partial hv hN (c.gate.map I) (by simpa using hne) (hmem hw)
    (hmem hc) ps v hi h0 m hm hmc hmh
  obtain rfl := built_unique hf (mapM_mem hops)
  refine ⟨c, mo, h1 s, hmo, fun hl => ?_⟩
  rw [hvw.save_mid_MPS] at hl ⊢
  obtain ⟨d, psi, s1, e1, hpsi, H2⟩ := H s hl
  refine ⟨d, psi, s1, e1, hpsi, fun s2 hl2 => ?_⟩
  obtain ⟨a1, a2, a3⟩ := agree_grad2 (svd := svd) (d := d) hvw hb hrec hw ps s2
  rw [a2] at hl2
  obtain ⟨g, s', e2, hlen, hd⟩ := H2 s2 hl2
  rw [e2] at a1 a2
  obtain ⟨a4, a5, -⟩ := a3 g a1
  refine ⟨g, s', ?_, hlen, hd⟩
  rcases e : ps.ocal_params_grad2 svd d ⟨h, c, s2⟩ with ⟨r, h', c', s''⟩
  rw [e] at a1 a2 a4 a5
  dsimp only at a1 a2 a4 a5
  rw [a1, a2, a4, a5]

/-- The objects of the counterexample: 0 is `rx(θ)` on qubit 0, the others are a multi-control CNOT. -/
noncomputable def pairItems (θ : ℝ) : Ref → Item 2 := fun r => if r = 0 then .gate (.rx θ 0) else .gate (.mcnot [0] 1)

/-- `|00⟩` -/
noncomputable def zeroState : QState 2 := fun a => if a 0 = 0 ∧ a 1 = 0 then 1 else 0

theorem pair_energy (x y : ℝ) : energy (onQubit 0 Z) zeroState [.gate (.mcnot [0] 1), .gate (.rx x 0), .gate (.rx y 0)] =
    Real.cos (x + y) := by
  have h1 : controlled [0] 1 X *ᵥ zeroState = zeroState := by
    funext a
    have ha : a = ![a 0, a 1] := by ext i; fin_cases i <;> rfl
    rw [ha]
    generalize a 0 = x
    generalize a 1 = y
    simp only [Matrix.mulVec, dotProduct, sum_bits2, controlled, onQubit, zeroState]
    fin_cases x <;> fin_cases y <;> simp [X, Fin.forall_fin_two, Matrix.one_apply]
  have h2 : ∀ (t : ℝ) (p q : ℂ), onQubit 0 (rot X t) *ᵥ (fun a : Bits 2 => if a 1 = 0 then (if a 0 = 0 then p else q) else 0) =
      fun a : Bits 2 => if a 1 = 0 then (if a 0 = 0 then (Real.cos (t / 2) : ℂ) * p - Complex.I * (Real.sin (t / 2) : ℂ) * q
        else (Real.cos (t / 2) : ℂ) * q - Complex.I * (Real.sin (t / 2) : ℂ) * p) else 0 := by
    intro t p q
    funext a
    have ha : a = ![a 0, a 1] := by ext i; fin_cases i <;> rfl
    rw [ha]
    generalize a 0 = x
    generalize a 1 = y
    simp only [Matrix.mulVec, dotProduct, sum_bits2, onQubit]
    fin_cases x <;> fin_cases y <;> simp [X, rot, Fin.forall_fin_two] <;> ring
  have h3 : zeroState = fun a : Bits 2 => if a 1 = 0 then (if a 0 = 0 then (1 : ℂ) else 0) else 0 := by
    funext a
    unfold zeroState
    by_cases h0 : a 0 = 0 <;> by_cases h1 : a 1 = 0 <;> simp [h0, h1]
  have e : circuitOp [Item.gate (.mcnot [0] 1), .gate (.rx x 0), .gate (.rx y 0)] =
      onQubit 0 (rot X y) * (onQubit 0 (rot X x) * controlled [(0 : Fin 2)] 1 X) := by
    simp [circuitOp, timeOrdered, Item.op, Instr.op]
  unfold energy
  rw [e, ← Matrix.mulVec_mulVec, ← Matrix.mulVec_mulVec, h1, h3, h2, h2]
  have hc : Real.cos (x + y) = (Real.cos (x/2) * Real.cos (y/2) - Real.sin (x/2) * Real.sin (y/2))^2 -
      (Real.sin (x/2) * Real.cos (y/2) + Real.cos (x/2) * Real.sin (y/2))^2 := by
    rw [← Real.cos_add, ← Real.sin_add, show x + y = 2 * (x/2 + y/2) by ring, Real.cos_two_mul']
  rw [hc]
  unfold braket
  simp only [sum_bits2, onQubit]
  simp [Z, Fin.forall_fin_two, -Complex.ofReal_cos, -Complex.ofReal_sin]
  ring

/-- C64, negation: one `rx(θ)` object at two positions, on `|00⟩`, observable Z of the rotated qubit.  The
expectation value is `cos 2θ`.  Both entries of `cal_params_grad()` are 0, whatever `θ` is; the partial derivative
with respect to each position is `-sin 2θ`, and the derivative with respect to the angle of the object is
`-2 sin 2θ`. -/
theorem C64_shared_wrong (svd : SVDOracle) (θ : ℝ) (hθ : Real.sin (2 * θ) ≠ 0) (h : Heap)
    (h0 : ∃ o, h 0 = .op o ∧ buildItem (pairItems θ 0) = .ok o) (h1 : ∃ o, h 1 = .op o ∧ buildItem (pairItems θ 1) = .ok o)
    (init M : Tensor ℂ) (hi : IsRow init zeroState) (hM : Represents M (onQubit (0 : Fin 2) Z)) (s : List (Tensor ℂ)) :
    ∃ c s', addAll [1, 0, 0] ⟨h, OCircuit.new 2, s⟩ = (.ok (), ⟨h, c, s⟩) ∧
      (⟨init, M⟩ : PShift).ocal_params_grad svd ⟨h, c, s⟩ = (.ok [0, 0], ⟨h, c, s'⟩) ∧
      (∀ j, j < 2 → IsPartial (onQubit 0 Z) zeroState ([1, 0, 0].map (pairItems θ)) j (-Real.sin (2 * θ)) ∧
        ¬ IsPartial (onQubit 0 Z) zeroState ([1, 0, 0].map (pairItems θ)) j 0) ∧
      HasDerivAt (fun x => energy (onQubit 0 Z) zeroState ([1, 0, 0].map (pairItems x))) (-2 * Real.sin (2 * θ)) θ := by
  obtain ⟨c, g, s', e1, e2, eg, -⟩ := C64_gradient_matrix_partial svd h [1, 0, 0] (pairItems θ)
    (by
      intro r hr
      simp only [List.mem_cons, List.not_mem_nil, or_false] at hr
      rcases hr with rfl | rfl | rfl
      · exact ⟨by simp, by decide⟩
      · trivial
      · trivial)
    (by
      intro r hr
      simp only [List.mem_cons, List.not_mem_nil, or_false] at hr
      rcases hr with rfl | rfl | rfl
      · exact h1
      · exact h0
      · exact h0) 1 (by simp) trivial init M zeroState hi _ hM s
  have hE : ∀ x, setShared [1, 0, 0] (pairItems θ) 0 0 x = [.gate (.mcnot [0] 1), .gate (.rx x 0), .gate (.rx x 0)] :=
    fun x => rfl
  have hz : sharedDiff (onQubit 0 Z) zeroState [1, 0, 0] (pairItems θ) 0 0 = 0 := by
    unfold sharedDiff
    rw [hE, hE, pair_energy, pair_energy, show (pairItems θ 0).params.getD 0 0 = θ from rfl,
      show θ + Real.pi / 2 + (θ + Real.pi / 2) = 2 * θ + Real.pi by ring,
      show θ - Real.pi / 2 + (θ - Real.pi / 2) = 2 * θ - Real.pi by ring, Real.cos_add_pi, Real.cos_sub_pi]
    norm_num
  have hg : g = [0, 0] := by
    rw [eg]
    show [sharedDiff (onQubit 0 Z) zeroState [1, 0, 0] (pairItems θ) 0 0,
      sharedDiff (onQubit 0 Z) zeroState [1, 0, 0] (pairItems θ) 0 0] = _
    rw [hz]
  subst hg
  have hd : ∀ j, j < 2 → IsPartial (onQubit 0 Z) zeroState ([1, 0, 0].map (pairItems θ)) j (-Real.sin (2 * θ)) := by
    intro j hj
    have hder : HasDerivAt (fun x : ℝ => Real.cos (x + θ)) (-Real.sin (2 * θ)) θ := by
      have := ((hasDerivAt_id θ).add_const θ).cos
      simp only [id, mul_one, ← two_mul] at this
      exact this
    unfold IsPartial
    interval_cases j
    · have : ∀ x, setParam ([1, 0, 0].map (pairItems θ)) 0 x =
          [.gate (.mcnot [0] 1), .gate (.rx x 0), .gate (.rx θ 0)] := fun x => rfl
      simp only [this, pair_energy]
      exact hder
    · have : ∀ x, setParam ([1, 0, 0].map (pairItems θ)) 1 x =
          [.gate (.mcnot [0] 1), .gate (.rx θ 0), .gate (.rx x 0)] := fun x => rfl
      simp only [this, pair_energy, add_comm θ]
      exact hder
  refine ⟨c, s', e1, e2, fun j hj => ⟨hd j hj, fun hbad => ?_⟩, ?_⟩
  · exact hθ (neg_eq_zero.1 ((hd j hj).unique hbad))
  · have : ∀ x, [1, 0, 0].map (pairItems x) = [.gate (.mcnot [0] 1), .gate (.rx x 0), .gate (.rx x 0)] := fun x => rfl
    simp only [this, pair_energy]
    have : HasDerivAt (fun x : ℝ => Real.cos (x + x)) (-Real.sin (θ + θ) * (1 + 1)) θ :=
      ((hasDerivAt_id θ).add (hasDerivAt_id θ)).cos
    rw [← two_mul] at this
    convert this using 1
    ring

/-- The hypotheses of the counterexample hold for `θ = π/4`. -/
example : ∃ (θ : ℝ) (h : Heap), Real.sin (2 * θ) ≠ 0 ∧ (∃ o, h 0 = .op o ∧ buildItem (pairItems θ 0) = .ok o) ∧
    ∃ o, h 1 = .op o ∧ buildItem (pairItems θ 1) = .ok o := by
  obtain ⟨o0, e0, -⟩ := item_ok (it := pairItems (Real.pi / 4) 0) trivial
  obtain ⟨o1, e1, -⟩ := item_ok (it := pairItems (Real.pi / 4) 1) ⟨by simp, by decide⟩
  refine ⟨Real.pi / 4, fun r => if r = 0 then .op o0 else .op o1, ?_, ⟨o0, rfl, e0⟩, o1, rfl, e1⟩
  rw [show 2 * (Real.pi / 4) = Real.pi / 2 by ring, Real.sin_pi_div_two]
  norm_num

/-- One x rotation at three positions, on an entangled state: the hypothesis about the decomposed matrices
holds. -/
example : ∃ svd, ValidSVD svd ∧ ∃ (init : Tensor ℂ) (v : QState 2) (h : Heap) (c : OCircuit), IsRow init v ∧ v ≠ 0 ∧
    (∃ o, h 0 = .op o ∧ buildItem (.gate (.rx 0.3 (0 : Fin 2))) = .ok o) ∧
    addAll [0, 0, 0] ⟨h, OCircuit.new 2, []⟩ = (.ok (), ⟨h, c, []⟩) ∧
    ∀ A ∈ ((⟨init, Tensor.eye 4⟩ : PShift).ocal_params_grad svd ⟨h, c, []⟩).2.log, Lossless A := by
  obtain ⟨svd, hv⟩ := exists_validSVD
  have hr : IsRow (bellVec 1 1) (fun a : Bits 2 => (bellVec 1 1).get [0, enc a]) := row_of_shape rfl
  have h0 : (fun a : Bits 2 => (bellVec 1 1).get [0, enc a]) ≠ 0 := by
    intro h
    have := congrFun h ![0, 0]
    have e : enc (![0, 0] : Bits 2) = 0 := by simp [enc]
    simp [e, bellVec, Tensor.ofFn] at this
  have hb : buildItem (.gate (.rx 0.3 (0 : Fin 2))) = .ok (.gate (mkRx 0.3 2 (.int 0))) := rfl
  obtain ⟨c, ops, e1, hg, v, -⟩ := shared_circ (N := 2) (h := fun _ => .op (.gate (mkRx 0.3 2 (.int 0))))
    (refs := [0, 0, 0]) (I := fun _ => .gate (.rx 0.3 0)) (fun _ _ => trivial) (fun _ _ => ⟨_, rfl, hb⟩)
  refine ⟨svd, hv, _, _, _, c, hr, h0, ⟨_, rfl, hb⟩, e1 [], ?_⟩
  exact (safe_ograd (safe_oexpec hv (by norm_num) (by norm_num) rfl) _
    ⟨by rw [v.nqubits, circ_nqubits], fun r _ => ⟨0.3, rfl⟩⟩ (by simp)).2

end QTN.Props
