import Verif.Lemmas.GradEx

/-! # Properties C40 and C41: gradients by the parameter-shift rule -/

namespace QTN.Props

open QTN QTN.Spec Matrix

variable {N : ℕ}

/-- A controlled U3 gate. -/
def IsCu3 : Item N → Prop
  | .gate (.cu3 _ _ _ _ _) => True
  | _ => False

theorem shiftOk_of {it : Item N} (h : ¬ IsCu3 it) : Spec.Item.shiftOk it := by
  cases it with
  | gate ins =>
    cases ins with
    | cu3 => exact absurd trivial h
    | _ => trivial
  | _ => trivial

/-- Built by adding operations: the dictionary describes the operations. -/
theorem circ_recorded {l : List (Item N)} {ops : List Op} (hw : ∀ it ∈ l, it.WF)
    (hb : List.Forall₂ Built l ops) : ∀ k it, l[k]? = some it → Recorded (circ N ops) k it := by
  intro k it hk hne
  obtain ⟨o, ho, hbo⟩ : ∃ o, ops[k]? = some o ∧ Built it o := by
    clear hw
    induction hb generalizing k with
    | nil => simp at hk
    | @cons a b l m h _ ih =>
      cases k with
      | zero => simp at hk; subst hk; exact ⟨b, rfl, h⟩
      | succ k => simp at hk; simpa using ih k hk
  refine ⟨o, hbo, ?_⟩
  have hn := (built_facts (hw it (List.mem_of_getElem? hk)) hbo).1
  rw [(C39_adds_partial N ops).2 k, circ_gate, ho, Option.map_some, if_pos]
  rw [hn]
  exact fun h => hne (List.length_eq_zero_iff.1 h)

theorem circ_count {l : List (Item N)} {ops : List Op} (hw : ∀ it ∈ l, it.WF)
    (hb : List.Forall₂ Built l ops) : (allParams l).length = (circ N ops).cir_num_params := by
  rw [(C39_adds_partial N ops).1, circ_gate]
  induction hb with
  | nil => rfl
  | @cons a b l m h _ ih =>
    have e : allParams (a :: l) = a.params ++ allParams l := by simp [allParams]
    rw [e, List.length_append, ih (fun it hit => hw it (by simp [hit])), List.map_cons, List.sum_cons,
      (built_facts (hw a (by simp)) h).1]

theorem built_unique {l : List (Item N)} {a b : List Op} (ha : List.Forall₂ Built l a)
    (hb : List.Forall₂ Built l b) : a = b := by
  have h1 := mapM_of_forall₂ ha
  have h2 := mapM_of_forall₂ hb
  rw [h1] at h2
  cases h2
  rfl

theorem sibling_refl (l : List (Item N)) : List.Forall₂ Sibling l l :=
  List.forall₂_same.2 fun x _ => Sibling.refl x

theorem grad_circ {svd : SVDOracle} {q : Prop} {l : List (Item N)} {ops : List Op} {ps : PShift}
    {v : QState N} {O : QOp N} (hi : IsRow ps.init_state v) (hM : Represents ps.M O)
    (hr : Ready svd v q l) (hb : List.Forall₂ Built l ops) (s : List (Tensor ℂ))
    (hl : q → ∀ A ∈ (ps.cal_params_grad svd (circ N ops, s)).2.2, Lossless A) :
    ∃ s', ps.cal_params_grad svd (circ N ops, s) =
      (.ok ((List.range (allParams l).length).map (shiftValue O v l)), (circ N ops, s')) := by
  obtain ⟨orec, s', h1, h2⟩ := cal_params_grad_run (circ_nqubits N ops) hi hM (sibling_refl l) hr
    (by rw [circ_gate]; exact hb) (circ_recorded hr.1 hb) s hl
  rw [if_pos (circ_count hr.1 hb), mixedGrad_self, show List.range' (allParams ([] : List (Item N))).length
    (allParams l).length = List.range (allParams l).length from List.range_eq_range'.symm] at h2
  obtain rfl := built_unique hb h1
  refine ⟨s', ?_⟩
  rw [h2]
  congr 2
  have : ∀ c : Circuit, c.gate = ops → { c with gate := ops } = c := by rintro c rfl; rfl
  exact this _ (circ_gate N ops)

/-! ## C40 -/

/-- C40 (partial: every parameter that does not belong to a controlled U3; circuits evaluated by the matrix
path, i.e. with an operation flagged `supportTN=False`): entry `j` of `cal_params_grad()` is the partial
derivative of the expectation value, there is one entry per parameter, and the circuit is as before.
Missing for the full statement: the controlled U3, for which it is false (`C40_cu3_wrong`). -/
theorem C40_gradient_matrix_partial (svd : SVDOracle) (l : List (Item N)) (h : ∀ it ∈ l, it.WF)
    (it : Item N) (hit : it ∈ l) (hu : Unflagged it) (init M : Tensor ℂ) (v : QState N) (hi : IsRow init v)
    (O : QOp N) (hM : Represents M O) (s : List (Tensor ℂ)) :
    ∃ ops, l.mapM buildItem = .ok ops ∧
      ∃ g s', (⟨init, M⟩ : PShift).cal_params_grad svd (circ N ops, s) = (.ok g, (circ N ops, s')) ∧
        g.length = (allParams l).length ∧
        ∀ j, j < g.length → (∀ it, ownerOf l j = some it → ¬ IsCu3 it) → IsPartial O v l j (g.getD j 0) := by
  obtain ⟨ops, hops, -⟩ := C13_items N l h
  refine ⟨ops, hops, ?_⟩
  obtain ⟨s', e⟩ := grad_circ (svd := svd) (q := False) (ps := ⟨init, M⟩) hi hM ⟨h, .inl ⟨it, hit, hu⟩⟩
    (mapM_mem hops) s (fun h => h.elim)
  refine ⟨_, s', e, by simp, fun j hj ho => ?_⟩
  have hj' : j < (allParams l).length := by simpa using hj
  rw [List.getD_eq_getElem?_getD, List.getElem?_map, List.getElem?_range hj', Option.map_some, Option.getD_some]
  exact shift_partial O v l h j hj' fun it hit => shiftOk_of (ho it hit)

/-- C40 (partial: every parameter that does not belong to a controlled U3; circuits all of whose operations
have a working `TN_operation`, input not the zero vector, no non-zero singular value discarded): entry `j`
of `cal_params_grad()` is the partial derivative of the expectation value, for every SVD routine. -/
theorem C40_gradient_tn_partial {svd : SVDOracle} (hv : ValidSVD svd) (hN : 0 < N) (l : List (Item N))
    (h : ∀ it ∈ l, it.WF) (hc : ∀ it ∈ l, HasTN it) (init M : Tensor ℂ) (v : QState N)
    (hi : IsRow init v) (h0 : v ≠ 0) (O : QOp N) (hM : Represents M O) :
    ∃ ops, l.mapM buildItem = .ok ops ∧ ∀ s,
      (∀ A ∈ ((⟨init, M⟩ : PShift).cal_params_grad svd (circ N ops, s)).2.2, Lossless A) →
      ∃ g s', (⟨init, M⟩ : PShift).cal_params_grad svd (circ N ops, s) = (.ok g, (circ N ops, s')) ∧
        g.length = (allParams l).length ∧
        ∀ j, j < g.length → (∀ it, ownerOf l j = some it → ¬ IsCu3 it) → IsPartial O v l j (g.getD j 0) := by
  obtain ⟨ops, hops, -⟩ := C13_items N l h
  refine ⟨ops, hops, fun s hl => ?_⟩
  obtain ⟨s', e⟩ := grad_circ (svd := svd) (q := True) (ps := ⟨init, M⟩) hi hM
    ⟨h, .inr ⟨trivial, hv, hN, h0, hc⟩⟩ (mapM_mem hops) s (fun _ => hl)
  refine ⟨_, s', e, by simp, fun j hj ho => ?_⟩
  have hj' : j < (allParams l).length := by simpa using hj
  rw [List.getD_eq_getElem?_getD, List.getElem?_map, List.getElem?_range hj', Option.map_some, Option.getD_some]
  exact shift_partial O v l h j hj' fun it hit => shiftOk_of (ho it hit)

/-- The circuit of the counterexample: CNOT, then a controlled rotation by `θ`. -/
noncomputable def cu3Circuit (θ : ℝ) : List (Item 2) := [.gate (.mcnot [0] 1), .gate (.cu3 θ 0 0 0 1)]

/-- `|00⟩ + |11⟩` -/
noncomputable def cu3State : QState 2 := fun a => if a 0 = a 1 then 1 else 0

theorem cu3_energy (θ : ℝ) : energy (onQubit 0 X) cu3State (cu3Circuit θ) = 2 * Real.cos (θ / 2) := by
  have h1 : controlled [0] 1 X *ᵥ cu3State = fun a : Bits 2 => if a 1 = 0 then (1 : ℂ) else 0 := by
    funext a
    have ha : a = ![a 0, a 1] := by ext i; fin_cases i <;> rfl
    rw [ha]
    generalize a 0 = x
    generalize a 1 = y
    simp only [Matrix.mulVec, dotProduct, sum_bits2, controlled, onQubit, cu3State]
    fin_cases x <;> fin_cases y <;> simp [X, Fin.forall_fin_two, Matrix.one_apply]
  have h2 : controlled [0] 1 (U3 θ 0 0) *ᵥ (fun a : Bits 2 => if a 1 = 0 then (1 : ℂ) else 0) =
      fun a : Bits 2 => if a 0 = 0 then (if a 1 = 0 then 1 else 0) else
        (if a 1 = 0 then (Real.cos (θ / 2) : ℂ) else (Real.sin (θ / 2) : ℂ)) := by
    funext a
    have ha : a = ![a 0, a 1] := by ext i; fin_cases i <;> rfl
    rw [ha]
    generalize a 0 = x
    generalize a 1 = y
    simp only [Matrix.mulVec, dotProduct, sum_bits2, controlled, onQubit]
    fin_cases x <;> fin_cases y <;> simp [U3, Fin.forall_fin_two, Matrix.one_apply]
  unfold energy cu3Circuit circuitOp
  have e : timeOrdered ([Item.gate (.mcnot [0] 1), Item.gate (.cu3 θ 0 0 0 1)].map Item.op) =
      controlled [0] 1 (U3 θ 0 0) * controlled [(0 : Fin 2)] 1 X := by
    simp [timeOrdered, Item.op, Instr.op]
  rw [e, ← Matrix.mulVec_mulVec, h1, h2]
  unfold braket
  simp only [sum_bits2, onQubit]
  simp [X, Fin.forall_fin_two, -Complex.ofReal_cos, -Complex.ofReal_sin]
  ring

/-- C40, negation: for a controlled U3 the entry is not the derivative.  The expectation value is
`2 cos (θ/2)`; at `θ = π` its derivative is `-1` and the entry is `-√2`, for every SVD routine. -/
theorem C40_cu3_wrong (svd : SVDOracle) (init M : Tensor ℂ) (hi : IsRow init cu3State)
    (hM : Represents M (onQubit (0 : Fin 2) X)) (s : List (Tensor ℂ)) :
    ∃ ops, (cu3Circuit Real.pi).mapM buildItem = .ok ops ∧
      ∃ g s', (⟨init, M⟩ : PShift).cal_params_grad svd (circ 2 ops, s) = (.ok g, (circ 2 ops, s')) ∧
        g.getD 0 0 = -Real.sqrt 2 ∧ IsPartial (onQubit 0 X) cu3State (cu3Circuit Real.pi) 0 (-1) ∧
        ¬ IsPartial (onQubit 0 X) cu3State (cu3Circuit Real.pi) 0 (g.getD 0 0) := by
  have hw : ∀ it ∈ cu3Circuit Real.pi, it.WF := by
    intro it hit
    simp only [cu3Circuit, List.mem_cons, List.not_mem_nil, or_false] at hit
    rcases hit with rfl | rfl
    · exact ⟨by simp, by decide⟩
    · exact show (0 : Fin 2) ≠ 1 by decide
  obtain ⟨ops, hops, -⟩ := C13_items 2 _ hw
  refine ⟨ops, hops, ?_⟩
  obtain ⟨s', e⟩ := grad_circ (svd := svd) (q := False) (ps := ⟨init, M⟩) hi hM
    ⟨hw, .inl ⟨.gate (.mcnot [0] 1), by simp [cu3Circuit], trivial⟩⟩ (mapM_mem hops) s (fun h => h.elim)
  refine ⟨_, s', e, ?_⟩
  have hset : ∀ x, setParam (cu3Circuit Real.pi) 0 x = cu3Circuit x := fun x => rfl
  have hval : ((List.range (allParams (cu3Circuit Real.pi)).length).map
      (shiftValue (onQubit 0 X) cu3State (cu3Circuit Real.pi))).getD 0 0 = -Real.sqrt 2 := by
    have hp : (allParams (cu3Circuit Real.pi)).getD 0 0 = Real.pi := rfl
    show shiftValue (onQubit 0 X) cu3State (cu3Circuit Real.pi) 0 = _
    unfold shiftValue
    rw [hset, hset, cu3_energy, cu3_energy, hp, show (Real.pi + 0.5 * Real.pi) / 2 = Real.pi - Real.pi / 4 by
      norm_num; ring, show (Real.pi - 0.5 * Real.pi) / 2 = Real.pi / 4 by norm_num; ring, Real.cos_pi_sub,
      Real.cos_pi_div_four]
    norm_num
    ring
  have hd : IsPartial (onQubit 0 X) cu3State (cu3Circuit Real.pi) 0 (-1) := by
    unfold IsPartial
    simp only [hset, cu3_energy]
    have : HasDerivAt (fun x : ℝ => 2 * Real.cos (x / 2)) (2 * (-Real.sin (Real.pi / 2) * (1 / 2))) Real.pi :=
      ((hasDerivAt_id Real.pi).div_const 2).cos.const_mul 2
    rw [Real.sin_pi_div_two] at this
    show HasDerivAt _ _ Real.pi
    convert this using 1
    norm_num
  refine ⟨hval, hd, fun hbad => ?_⟩
  rw [hval] at hbad
  have := HasDerivAt.unique hd hbad
  have h2 : Real.sqrt 2 = 1 := by linarith
  have h3 := Real.sq_sqrt (show (0 : ℝ) ≤ 2 by norm_num)
  rw [h2] at h3
  norm_num at h3

example : IsRow (bellVec 1 1) cu3State := by
  refine ⟨rfl, fun a => ?_⟩
  have ha : a = ![a 0, a 1] := by ext i; fin_cases i <;> rfl
  rw [ha]
  generalize a 0 = x
  generalize a 1 = y
  fin_cases x <;> fin_cases y <;> simp [bellVec, Tensor.ofFn, cu3State, enc, Fin.sum_univ_two]

/-- A circuit with all kinds of parameters, evaluated by the matrix path. -/
example : ∀ it ∈ ([.gate (.rx 0.3 0), .gate (.u3 0.1 0.2 0.3 1), .gate (.rxx 0.4 0 1), .gate (.cphase 0.5 1 0),
    .layer .yzy [0, 1] [1, 2, 3, 4, 5, 6], .basic [1, 0] [1, 2, 3, 4, 5, 6] 1] : List (Item 2)), it.WF ∧ ¬ IsCu3 it := by
  intro it hit
  simp only [List.mem_cons, List.not_mem_nil, or_false] at hit
  rcases hit with rfl | rfl | rfl | rfl | rfl | rfl
  · exact ⟨trivial, id⟩
  · exact ⟨trivial, id⟩
  · exact ⟨show (0 : Fin 2) ≠ 1 by decide, id⟩
  · exact ⟨show (1 : Fin 2) ≠ 0 by decide, id⟩
  · exact ⟨⟨by decide, by decide, rfl⟩, id⟩
  · exact ⟨⟨by decide, by decide, by decide, rfl⟩, id⟩

/-- Two x rotations of an entangled state, evaluated by the tensor network path. -/
example : ∃ svd, ValidSVD svd ∧ ∃ (init : Tensor ℂ) (v : QState 2) (ops : List Op), IsRow init v ∧ v ≠ 0 ∧
    [Item.gate (.rx 0.3 (0 : Fin 2)), .gate (.rx 0.4 0)].mapM buildItem = .ok ops ∧
    ∀ A ∈ ((⟨init, Tensor.eye 4⟩ : PShift).cal_params_grad svd (circ 2 ops, [])).2.2, Lossless A := by
  obtain ⟨svd, hv⟩ := exists_validSVD
  have hr : IsRow (bellVec 1 1) (fun a : Bits 2 => (bellVec 1 1).get [0, enc a]) := row_of_shape rfl
  have h0 : (fun a : Bits 2 => (bellVec 1 1).get [0, enc a]) ≠ 0 := by
    intro h
    have := congrFun h ![0, 0]
    have e : enc (![0, 0] : Bits 2) = 0 := by simp [enc]
    simp [e, bellVec, Tensor.ofFn] at this
  refine ⟨svd, hv, _, _, [.gate (mkRx 0.3 2 (.int 0)), .gate (mkRx 0.4 2 (.int 0))], hr, h0, rfl, ?_⟩
  refine ((safe_grad (safe_expec hv (by norm_num) (by norm_num) rfl)) _ ⟨circ_nqubits _ _, ?_⟩ (by simp)).2
  rw [circ_gate]
  intro o ho
  simp only [List.mem_cons, List.not_mem_nil, or_false] at ho
  rcases ho with rfl | rfl
  · exact ⟨_, rfl⟩
  · exact ⟨_, rfl⟩

/-! ## C41 -/

/-- C41, what is restored: if the operations are those of `cur` and the dictionary `cir_params` describes
`rec` (the same gates and layers, possibly with other parameters), then after `cal_params_grad()` the
operations are those of `rec`.  Matrix path; the final state is this also if the counter check at the end
fails. -/
theorem C41_resets_to_recorded (svd : SVDOracle) (c : Circuit) (hn : c.nqubits = N) (cur rec : List (Item N))
    (hs : List.Forall₂ Sibling cur rec) (h : ∀ it ∈ cur, it.WF) (it : Item N) (hit : it ∈ cur)
    (hu : Unflagged it) (hb : cur.mapM buildItem = .ok c.gate)
    (hrec : ∀ k it, rec[k]? = some it → Recorded c k it)
    (init M : Tensor ℂ) (v : QState N) (hi : IsRow init v) (O : QOp N) (hM : Represents M O)
    (s : List (Tensor ℂ)) :
    ∃ ops, rec.mapM buildItem = .ok ops ∧
      ((⟨init, M⟩ : PShift).cal_params_grad svd (c, s)).2.1 = { c with gate := ops } := by
  obtain ⟨ops, s', h1, h2⟩ := cal_params_grad_run (svd := svd) (q := False) (ps := ⟨init, M⟩) hn hi hM hs
    ⟨h, .inl ⟨it, hit, hu⟩⟩ (mapM_mem hb) hrec s (fun h => h.elim)
  exact ⟨ops, mapM_of_forall₂ h1, by rw [h2]⟩

/-- C41 (partial: circuits whose dictionary `cir_params` is up to date, i.e. no `params_update` since the
operations were added; matrix path): the circuit is left unchanged, also if the call raises at the end.
Missing for the full statement: stale dictionaries and exceptions half-way, for which it is false
(`C41_update_lost`, `C41_raise_leaves_shifted`). -/
theorem C41_unchanged_partial (svd : SVDOracle) (c : Circuit) (hn : c.nqubits = N) (l : List (Item N))
    (h : ∀ it ∈ l, it.WF) (it : Item N) (hit : it ∈ l)
    (hu : Unflagged it) (hb : l.mapM buildItem = .ok c.gate)
    (hrec : ∀ k o, c.gate[k]? = some o → o.numParams ≠ 0 → c.cir_params k = some (some o.params))
    (init M : Tensor ℂ) (v : QState N) (hi : IsRow init v) (O : QOp N) (hM : Represents M O)
    (s : List (Tensor ℂ)) :
    ((⟨init, M⟩ : PShift).cal_params_grad svd (c, s)).2.1 = c := by
  have hb' := mapM_mem hb
  obtain ⟨ops, e, h2⟩ := C41_resets_to_recorded svd c hn l l (sibling_refl l) h it hit hu hb (fun k x hk hne => by
    have hk' : k < l.length := (List.getElem?_eq_some_iff.1 hk).1
    have hk2 : k < c.gate.length := by rw [← hb'.length_eq]; exact hk'
    have hbk : Built x c.gate[k] := by
      have := hb'.get hk' hk2
      obtain ⟨_, e⟩ := List.getElem?_eq_some_iff.1 hk
      rw [← e]; exact this
    refine ⟨_, hbk, hrec k _ (List.getElem?_eq_getElem hk2) ?_⟩
    rw [(built_facts (h x (List.mem_of_getElem? hk)) hbk).1]
    exact fun h => hne (List.length_eq_zero_iff.1 h)) init M v hi O hM s
  rw [hb] at e
  cases e
  exact h2

/-- C41 (partial, tensor network path): the same for circuits all of whose operations have a working
`TN_operation`. -/
theorem C41_unchanged_tn_partial {svd : SVDOracle} (hv : ValidSVD svd) (hN : 0 < N) (l : List (Item N))
    (h : ∀ it ∈ l, it.WF) (hc : ∀ it ∈ l, HasTN it) (init M : Tensor ℂ) (v : QState N)
    (hi : IsRow init v) (h0 : v ≠ 0) (O : QOp N) (hM : Represents M O) :
    ∃ ops, l.mapM buildItem = .ok ops ∧ ∀ s,
      (∀ A ∈ ((⟨init, M⟩ : PShift).cal_params_grad svd (circ N ops, s)).2.2, Lossless A) →
      ((⟨init, M⟩ : PShift).cal_params_grad svd (circ N ops, s)).2.1 = circ N ops := by
  obtain ⟨ops, hops, H⟩ := C40_gradient_tn_partial hv hN l h hc init M v hi h0 O hM
  refine ⟨ops, hops, fun s hl => ?_⟩
  obtain ⟨g, s', e, -⟩ := H s hl
  rw [e]

/-- The circuit rx(θ), ring_of_cnot2, whose rotation is then updated to θ'. -/
noncomputable def staleCircuit (θ θ' : ℝ) : Circuit :=
  { circ 2 [.gate (mkRx θ 2 (.int 0)), .ring ⟨.ring2, 2, [0, 1]⟩] with
    gate := [.gate (mkRx θ' 2 (.int 0)), .ring ⟨.ring2, 2, [0, 1]⟩] }

/-- `staleCircuit` is the result of adding the operations and calling `params_update`. -/
theorem stale_history (θ θ' : ℝ) : staleCircuit θ θ' =
    [Step.add (.gate (mkRx θ 2 (.int 0))), .add (.ring ⟨.ring2, 2, [0, 1]⟩), .update 0 [θ']].foldl Step.run
      (Circuit.new 2) := rfl

/-- C41, negation: parameters set by `params_update` after adding the gate are lost: the gate has the
parameter it was added with after `cal_params_grad()`, for every input and observable. -/
theorem C41_update_lost (svd : SVDOracle) (θ θ' : ℝ) (hne : θ ≠ θ')
    (init M : Tensor ℂ) (v : QState 2) (hi : IsRow init v) (O : QOp 2) (hM : Represents M O)
    (s : List (Tensor ℂ)) :
    (staleCircuit θ θ').gate[0]? = some (.gate (mkRx θ' 2 (.int 0))) ∧
    ((⟨init, M⟩ : PShift).cal_params_grad svd (staleCircuit θ θ', s)).2.1.gate[0]? =
      some (.gate (mkRx θ 2 (.int 0))) ∧
    ((⟨init, M⟩ : PShift).cal_params_grad svd (staleCircuit θ θ', s)).2.1 ≠ staleCircuit θ θ' := by
  have hw : ∀ x : ℝ, ∀ it ∈ ([.gate (.rx x 0), .ring2 [0, 1]] : List (Item 2)), it.WF := by
    intro x it hit
    simp only [List.mem_cons, List.not_mem_nil, or_false] at hit
    rcases hit with rfl | rfl
    · trivial
    · exact ⟨by decide, by decide⟩
  obtain ⟨ops, e, h2⟩ := C41_resets_to_recorded svd (staleCircuit θ θ') (N := 2) rfl
    [.gate (.rx θ' 0), .ring2 [0, 1]] [.gate (.rx θ 0), .ring2 [0, 1]]
    (.cons ⟨[θ], rfl, rfl⟩ (.cons (Sibling.refl _) .nil)) (hw θ') (.ring2 [0, 1]) (by simp) trivial rfl
    (fun k it hk hp => by
      match k, hk with
      | 0, hk => cases hk; exact ⟨_, rfl, rfl⟩
      | 1, hk => cases hk; exact absurd rfl hp) init M v hi O hM s
  cases e
  rw [h2]
  refine ⟨rfl, rfl, fun h => hne ?_⟩
  have h3 := congrArg (fun c : Circuit => (c.gate.map Op.params)) h
  have h4 : PV.scalar θ = PV.scalar θ' := (List.cons.inj h3).1
  cases h4
  rfl

/-- C41, negation: a call that raises leaves shifted parameters behind.  A circuit consisting of one rxx
gate (flagged `supportTN=True` without `TN_operation`) raises whatever the input, the observable and the
SVD routine are, and its parameter is then `θ + π/2`. -/
theorem C41_raise_leaves_shifted (svd : SVDOracle) (θ : ℝ) (p q : Fin N)
    (init M : Tensor ℂ) (v : QState N) (hi : IsRow init v) (O : QOp N) (hM : Represents M O)
    (s : List (Tensor ℂ)) :
    ∃ e s', (⟨init, M⟩ : PShift).cal_params_grad svd
        (circ N [.gate (mkRxx θ N (.list [wire p, wire q]))], s) =
      (.error e, ({ circ N [.gate (mkRxx θ N (.list [wire p, wire q]))] with
        gate := [.gate (mkRxx (θ + 0.5 * Real.pi) N (.list [wire p, wire q]))] }, s')) := by
  set c' : Circuit := { circ N [.gate (mkRxx θ N (.list [wire p, wire q]))] with
        gate := [.gate (mkRxx (θ + 0.5 * Real.pi) N (.list [wire p, wire q]))] } with hc'
  have hraise : ∃ e s', (⟨init, M⟩ : PShift).expec svd (c', s) = (.error e, (c', s')) := by
    have : ∃ e s', c'.cir_expectation svd init M true s = (.error e, s') := by
      rw [cir_expectation_checks svd _ (by rw [hi.1]; rfl) hM.1, if_pos ⟨rfl, rfl⟩, row_view_row hi,
        TNM.lift_ok_bind]
      rcases e1 : StateVec2MPS svd init c'.nqubits s with ⟨e | mps, s1⟩
      · exact ⟨e, s1, TNM.bind_error e1 _⟩
      rw [TNM.bind_ok e1]
      have : ∃ e s', c'.TN_evolution svd mps s1 = (.error e, s') := by
        by_cases hl : mps.length = c'.nqubits
        · unfold Circuit.TN_evolution
          rw [raiseIf_false (by simpa using hl), TNM.lift_ok_bind]
          exact ⟨_, _, rfl⟩
        · exact ⟨_, _, C22_wrong_length svd _ mps s1 hl⟩
      obtain ⟨e, s', e2⟩ := this
      exact ⟨e, s', TNM.bind_error e2 _⟩
    obtain ⟨e, s', h⟩ := this
    refine ⟨e, s', ?_⟩
    unfold PShift.expec CM.read
    dsimp only
    rw [h]
  obtain ⟨e, s', he⟩ := hraise
  refine ⟨e, s', ?_⟩
  have h1 : (⟨init, M⟩ : PShift).gradScalar svd 0 θ (circ N [.gate (mkRxx θ N (.list [wire p, wire q]))], s) =
      (.error e, (c', s')) := by
    unfold PShift.gradScalar
    have hu : CM.update 0 [θ + 0.5 * Real.pi] (circ N [.gate (mkRxx θ N (.list [wire p, wire q]))], s) =
      (.ok (), (c', s)) := rfl
    rw [CM.bind_ok hu, CM.bind_error he]
  have h2 : (⟨init, M⟩ : PShift).gradAt svd 0 (circ N [.gate (mkRxx θ N (.list [wire p, wire q]))], s) =
      (.error e, (c', s')) := by
    rw [gradAt_scalar svd _ (o := .gate (mkRxx θ N (.list [wire p, wire q]))) (by rw [circ_gate]; rfl)
      (by simp [Op.numParams, Gate.numParams, mkRxx]) (x := θ) rfl, CM.bind_error h1]
  unfold PShift.cal_params_grad
  have e0 : (CM.read (fun c => TNM.lift (.ok c.gate.length)) : CM ℕ)
      (circ N [.gate (mkRxx θ N (.list [wire p, wire q]))], s) =
      (.ok 1, (circ N [.gate (mkRxx θ N (.list [wire p, wire q]))], s)) := rfl
  rw [CM.bind_ok e0]
  show (((⟨init, M⟩ : PShift).gradLoop svd [0]) >>= _) _ = _
  unfold PShift.gradLoop
  rw [CM.bind_error (CM.bind_error h2)]

/-- C40/C41 after `clear`: the counter `cir_num_params` still counts the operations removed, so the call
raises AssertionError (and leaves the operations as they are). -/
theorem C41_clear_asserts (svd : SVDOracle) (θ θ' : ℝ)
    (init M : Tensor ℂ) (v : QState 2) (hi : IsRow init v) (O : QOp 2) (hM : Represents M O)
    (s : List (Tensor ℂ)) :
    let c := [Step.add (.gate (mkRx θ 2 (.int 0))), .clear, .add (.gate (mkRx θ' 2 (.int 0))),
      .add (.ring ⟨.ring2, 2, [0, 1]⟩)].foldl Step.run (Circuit.new 2)
    ∃ s', (⟨init, M⟩ : PShift).cal_params_grad svd (c, s) = (.error .assertionError, (c, s')) := by
  intro c
  have hw : ∀ it ∈ ([.gate (.rx θ' 0), .ring2 [0, 1]] : List (Item 2)), it.WF := by
    intro it hit
    simp only [List.mem_cons, List.not_mem_nil, or_false] at hit
    rcases hit with rfl | rfl
    · trivial
    · exact ⟨by decide, by decide⟩
  have hb : ([.gate (.rx θ' 0), .ring2 [0, 1]] : List (Item 2)).mapM buildItem = .ok c.gate := rfl
  obtain ⟨ops, s', h1, h2⟩ := cal_params_grad_run (svd := svd) (q := False) (ps := ⟨init, M⟩) (c := c) (N := 2) rfl
    hi hM (sibling_refl _) ⟨hw, .inl ⟨.ring2 [0, 1], by simp, trivial⟩⟩ (mapM_mem hb)
    (fun k it hk hp => by
      match k, hk with
      | 0, hk => cases hk; exact ⟨_, rfl, rfl⟩
      | 1, hk => cases hk; exact absurd rfl hp) s (fun h => h.elim)
  obtain rfl := built_unique (mapM_mem hb) h1
  refine ⟨s', ?_⟩
  rw [h2, if_neg]
  show ¬ (1 = 2)
  decide

/-- The hypotheses of the negations can be met. -/
example : ∃ init : Tensor ℂ, IsRow init (cu3State) ∧ Represents (Tensor.eye (2 ^ 2)) (1 : QOp 2) ∧ (0.3 : ℝ) ≠ 1 := by
  refine ⟨bellVec 1 1, ⟨rfl, fun a => ?_⟩, represents_eye, by norm_num⟩
  have ha : a = ![a 0, a 1] := by ext i; fin_cases i <;> rfl
  rw [ha]
  generalize a 0 = x
  generalize a 1 = y
  fin_cases x <;> fin_cases y <;> simp [bellVec, Tensor.ofFn, cu3State, enc, Fin.sum_univ_two]

end QTN.Props
