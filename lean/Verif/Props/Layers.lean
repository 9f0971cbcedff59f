import Verif.Lemmas.Items

/-! # Properties C06–C12: layers -/

namespace QTN.Props

open QTN QTN.Spec Matrix

/-! ## C09 -/

/-- C09: on distinct wires every rotation layer is the tensor product in which the `i`-th listed wire
gets the documented product of rotations with its own block of parameters (first letter applied
first) and every other qubit the identity. -/
theorem C09_rotation_layers (N : ℕ) (hN : 0 < N) (k : LayerKind) (ws : List (Fin N)) (hw : ws.Nodup)
    (p : List ℝ) (hp : p.length = k.axes.length * ws.length) :
    ∃ l, mkSLayer (layerCls k) N (wires ws) p = .ok l ∧
      Computes l.U_expand (layerOp k.axes ws p) :=
  ⟨_, mkSLayer_ok hw (by rw [layerCls_arity]; exact hp.symm), layer_rep k ws p hN hw hp⟩

/-- C09 for the Hadamard layer. -/
theorem C09_hadamard_layer (N : ℕ) (hN : 0 < N) (ws : List (Fin N)) (hw : ws.Nodup) :
    ∃ l, mkSLayer .h N (wires ws) [] = .ok l ∧ Computes l.U_expand (hOp ws) :=
  ⟨_, mkSLayer_ok hw (by simp [LayerCls.arity]), hlayer_rep ws hN hw⟩

/-- C09: the specification of the rotation layers entry by entry, for the XYZ layer. -/
theorem C09_xyz_wire (N : ℕ) (ws : List (Fin N)) (hw : ws.Nodup) (p : List ℝ)
    (hp : p.length = 3 * ws.length) (i : ℕ) (hi : i < ws.length) (a b : Bits N) :
    layerOp LayerKind.xyz.axes ws p a b =
      (rot Z (p.getD (3 * i + 2) 0) * rot Y (p.getD (3 * i + 1) 0) * rot X (p.getD (3 * i) 0))
          (a ws[i]) (b ws[i]) *
        ∏ j ∈ Finset.univ.erase ws[i], (if j ∈ ws then
          seqRot [X, Y, Z] (p.drop (3 * ws.idxOf j)) else 1) (a j) (b j) := by
  unfold layerOp onEach
  rw [← Finset.mul_prod_erase _ _ (Finset.mem_univ ws[i])]
  congr 1
  simp only [List.getElem_mem hi, if_true, hw.idxOf_getElem i hi]
  show seqRot [X, Y, Z] (p.drop (3 * i)) _ _ = _
  rw [seqRot3 (by omega), getD_lt (by omega), getD_lt (by omega), getD_lt (by omega)]

/-- C09, error branch: a wrong number of parameters, or more wires than qubits, raises ValueError. -/
theorem C09_rejects (N : ℤ) (k : LayerKind) (ws : List ℤ) (p : List ℝ)
    (h : p.length ≠ k.axes.length * ws.length ∨ N < ws.length) :
    mkSLayer (layerCls k) N ws p = .error .valueError := by
  unfold mkSLayer
  by_cases h1 : (layerCls k).arity * ws.length ≠ p.length
  · rw [raiseIf_true h1]; rfl
  · rw [raiseIf_false h1, Py.ok_bind, raiseIf_true]
    · rfl
    · rcases h with h | h
      · rw [layerCls_arity] at h1; exact absurd (not_not.1 h1).symm h
      · exact h

example : (0 < 4) ∧ ([3, 0] : List (Fin 4)).Nodup ∧
    ([0.1, 0.2, 0.3, 0.4, 0.5, 0.6] : List ℝ).length =
      LayerKind.zyx.axes.length * ([3, 0] : List (Fin 4)).length :=
  ⟨by decide, by decide, rfl⟩

/-! ## C10, C11 -/

/-- C10: `ring_of_cnot` is the time-ordered product of its CNOTs (a single CNOT for two wires) for
every list of distinct wires, hence on the generic and on the fused path. -/
theorem C10_ring_of_cnot (N : ℕ) (ws : List (Fin N)) (hw : ws.Nodup) (h2 : 2 ≤ ws.length) :
    ∃ r, mkRing .ring N (wires ws) = .ok r ∧ Computes r.U_expand (ringOp 1 ws) :=
  ⟨_, mkRing_ok hw h2, ring_rep .ring ws hw h2⟩

/-- C10: `ring_of_cnot_dagger` is the product in the reverse order. -/
theorem C10_ring_of_cnot_dagger (N : ℕ) (ws : List (Fin N)) (hw : ws.Nodup) (h2 : 2 ≤ ws.length) :
    ∃ r, mkRing .dagger N (wires ws) = .ok r ∧ Computes r.U_expand (ringDagOp ws) :=
  ⟨_, mkRing_ok hw h2, ring_rep .dagger ws hw h2⟩

/-- C10: the fused path is really taken for the full register. -/
theorem C10_fused_path (N : ℕ) (h3 : 3 ≤ N) :
    (∃ r, mkRing .ring N (pyRange N) = .ok r ∧ r.U_expand = Ring.fusion .ring N ∧
      Computes r.U_expand (timeOrdered (ringGates 1 (List.finRange N)))) ∧
    (∃ r, mkRing .dagger N (pyRange N) = .ok r ∧ r.U_expand = Ring.fusion .dagger N ∧
      Computes r.U_expand (timeOrdered (ringGates 1 (List.finRange N)).reverse)) := by
  have hl : (pyRange (N : ℤ)).length = N := by simp [pyRange]
  have key : ∀ k : RingKind, k ≠ .ring2 → mkRing k N (pyRange N) = .ok ⟨k, N, pyRange N⟩ ∧
      (⟨k, N, pyRange N⟩ : Ring).U_expand = Ring.fusion k N := by
    intro k hk
    constructor
    · unfold mkRing
      rw [raiseIf_false (by rw [hl]; simp), Py.ok_bind, raiseIf_false (by rw [hl]; omega), Py.ok_bind]
    · unfold Ring.U_expand
      rw [if_neg (by rw [hl]; omega), if_pos rfl]
      cases k <;> first | rfl | exact absurd rfl hk
  refine ⟨⟨_, (key .ring (by decide)).1, (key .ring (by decide)).2, ?_⟩,
    ⟨_, (key .dagger (by decide)).1, (key .dagger (by decide)).2, ?_⟩⟩
  · rw [(key .ring (by decide)).2]; exact fusion_rep h3
  · rw [(key .dagger (by decide)).2]; exact fusionDag_rep h3

/-- C10, C11, error branch: too many or fewer than two wires raise ValueError. -/
theorem C10_rejects (k : RingKind) (N : ℤ) (ws : List ℤ) (h : N < ws.length ∨ ws.length < 2) :
    mkRing k N ws = .error .valueError := by
  unfold mkRing
  by_cases h1 : N < ws.length
  · rw [raiseIf_true h1]; rfl
  · rw [raiseIf_false h1, Py.ok_bind, raiseIf_true (h.resolve_left h1)]; rfl

/-- C11: `ring_of_cnot2` is the time-ordered product of the CNOTs from wire `i` to wire `i+2`
(cyclically; a single CNOT for two wires) for every list of distinct wires. -/
theorem C11_ring_of_cnot2 (N : ℕ) (ws : List (Fin N)) (hw : ws.Nodup) (h2 : 2 ≤ ws.length) :
    ∃ r, mkRing .ring2 N (wires ws) = .ok r ∧ Computes r.U_expand (ringOp 2 ws) :=
  ⟨_, mkRing_ok hw h2, ring_rep .ring2 ws hw h2⟩

/-- C11: the fused path is really taken for the full register. -/
theorem C11_fused_path (N : ℕ) (h3 : 3 ≤ N) :
    ∃ r, mkRing .ring2 N (pyRange N) = .ok r ∧ r.U_expand = Ring.fusion2 N ∧
      Computes r.U_expand (timeOrdered (ringGates 2 (List.finRange N))) := by
  have hl : (pyRange (N : ℤ)).length = N := by simp [pyRange]
  have e : (⟨.ring2, N, pyRange N⟩ : Ring).U_expand = Ring.fusion2 N := by
    unfold Ring.U_expand
    rw [if_neg (by rw [hl]; omega), if_pos rfl]
  refine ⟨⟨.ring2, N, pyRange N⟩, ?_, e, by rw [e]; exact fusion2_rep h3⟩
  unfold mkRing
  rw [raiseIf_false (by rw [hl]; simp), Py.ok_bind, raiseIf_false (by rw [hl]; omega), Py.ok_bind]

example : ([4, 1, 3] : List (Fin 5)).Nodup ∧ 2 ≤ ([4, 1, 3] : List (Fin 5)).length := by decide
example : (List.finRange 5).Nodup ∧ 2 ≤ (List.finRange 5).length := by decide

/-- The ring on wires `[4,1,3]` spelled out: first 4→1, then 1→3, then 3→4. -/
example : ringOp 1 ([4, 1, 3] : List (Fin 5)) =
    controlled [3] 4 X * controlled [1] 3 X * controlled [4] 1 X := by
  rw [ringOp_of_ne (by decide)]
  simp [timeOrdered, ringGates, List.ofFn_succ, Matrix.mul_assoc]

/-! ## C12 -/

/-- C12: `BasicEntangleLayer` is its repeated YZY + ring decomposition, initially and after any
history of `params_update` calls with lists of the right length. -/
theorem C12_basic_entangle_layer (N : ℕ) (ws : List (Fin N)) (hw : ws.Nodup) (h2 : 2 ≤ ws.length)
    (reps : ℕ) (hr : 1 ≤ reps) (p0 : List ℝ) (pyl : Bool) (hp0 : p0.length = 3 * ws.length * reps)
    (history : List (List ℝ)) (hh : ∀ p ∈ history, p.length = 3 * ws.length * reps) :
    ∃ b0 b, mkBasic N (wires ws) p0 pyl reps = .ok b0 ∧
      history.foldlM (fun b p => Basic.params_update b p false) b0 = .ok b ∧
      Computes b.U_expand (basicOp ws ((p0 :: history).getLast (by simp)) reps) := by
  have upd : ∀ p p' pl, p'.length = 3 * ws.length * reps →
      (basicObj N ws p pl reps).params_update p' false = .ok (basicObj N ws p' false reps) := by
    intro p p' pl hp'
    unfold Basic.params_update
    have := basicParts_ok hw h2 hp'.ge
    simp only [basicObj]
    rw [this, Py.ok_bind]
  have : ∀ (hist : List (List ℝ)) (p : List ℝ) (pl : Bool), p.length = 3 * ws.length * reps →
      (∀ q ∈ hist, q.length = 3 * ws.length * reps) →
      ∃ b, hist.foldlM (fun b p => Basic.params_update b p false) (basicObj N ws p pl reps) = .ok b ∧
        Computes b.U_expand (basicOp ws ((p :: hist).getLast (by simp)) reps) := by
    intro hist
    induction hist with
    | nil => intro p pl hp _; exact ⟨_, rfl, basic_rep hw h2 hr hp.ge⟩
    | cons q hist ih =>
      intro p pl hp hq
      obtain ⟨b, hb, rb⟩ := ih q false (hq q (by simp)) (fun r hr => hq r (by simp [hr]))
      refine ⟨b, ?_, ?_⟩
      · rw [List.foldlM_cons, upd p q pl (hq q (by simp)), Py.ok_bind, hb]
      · rw [List.getLast_cons (by simp)]; exact rb
  obtain ⟨b, hb, rb⟩ := this history p0 pyl hp0 hh
  exact ⟨_, b, mkBasic_ok hw h2 hr hp0, hb, rb⟩

/-- C12, error branch: a wrong parameter count, too many or fewer than two wires or `repeat < 1`
raise ValueError. -/
theorem C12_rejects (N : ℤ) (ws : List ℤ) (p : List ℝ) (pyl : Bool) (reps : ℤ)
    (h : (p.length : ℤ) ≠ 3 * ws.length * reps ∨ N < ws.length ∨ ws.length < 2 ∨ reps < 1) :
    mkBasic N ws p pyl reps = .error .valueError := by
  unfold mkBasic
  by_cases h1 : 3 * (ws.length : ℤ) * reps ≠ p.length
  · rw [raiseIf_true h1]; rfl
  rw [raiseIf_false h1, Py.ok_bind]
  by_cases h2 : (ws.length : ℤ) > N
  · rw [raiseIf_true h2]; rfl
  rw [raiseIf_false h2, Py.ok_bind]
  by_cases h3 : ws.length < 2
  · rw [raiseIf_true h3]; rfl
  rw [raiseIf_false h3, Py.ok_bind, raiseIf_true]
  · rfl
  · rcases h with h | h | h | h
    · exact absurd (not_not.1 h1).symm h
    · exact absurd h h2
    · exact absurd h h3
    · exact h

example : ([2, 0, 1] : List (Fin 3)).Nodup ∧ 2 ≤ ([2, 0, 1] : List (Fin 3)).length ∧
    (List.replicate 18 (0.3 : ℝ)).length = 3 * ([2, 0, 1] : List (Fin 3)).length * 2 :=
  ⟨by decide, by decide, by simp⟩

/-! ## C06 -/

/-- C06: every gate and layer on valid wires has a unitary matrix for all real parameters. -/
theorem C06_unitary (N : ℕ) (it : Item N) (h : it.WF) :
    ∃ o U, ∃ M : QOp N, buildItem it = .ok o ∧ o.U_expand = .ok U ∧ Represents U M ∧
      IsUnitaryOp M := by
  obtain ⟨o, ho, U, hU, hr⟩ := item_ok it h
  exact ⟨o, U, it.op, ho, hU, hr, item_unitary it h⟩

example : (Item.ring2 ([2, 0, 1] : List (Fin 3))).WF ∧
    (Item.layer .xzx ([2, 0] : List (Fin 3)) [1, 2, 3, 4, 5, 6]).WF :=
  ⟨⟨by decide, by decide⟩, ⟨by decide, by decide, rfl⟩⟩

/-! ## C07 -/

/-- C07: whenever `operation_dagger()` returns an operation, its matrix is the conjugate transpose;
it returns None for exactly two classes, `ring_of_cnot2` and `BasicEntangleLayer`.  (The full claim,
that every class returns its adjoint, is refuted by the second part: see
`C07_ring2_and_basic_return_none`.) -/
theorem C07_dagger_partial (N : ℕ) (it : Item N) (h : it.WF) :
    ∃ o r, buildItem it = .ok o ∧ o.operation_dagger = .ok r ∧
      (∀ o', r = some o' → ∃ U, ∃ M : QOp N, o.U_expand = .ok U ∧ Represents U M ∧
        Computes o'.U_expand (Mᴴ : QOp N)) ∧
      (r = none ↔ ((∃ ws, it = .ring2 ws) ∨ ∃ ws p reps, it = .basic ws p reps)) := by
  by_cases hd : Spec.Item.hasDagger it
  · obtain ⟨o, it', ho, hw', -, hop, o', ho', hdag⟩ := item_dagger it h hd
    obtain ⟨o2, ho2, U, hU, rU⟩ := item_ok it h
    obtain ⟨o3, ho3, hc⟩ := item_ok it' hw'
    rw [ho] at ho2; cases ho2
    rw [ho'] at ho3; cases ho3
    refine ⟨o, some o', ho, hdag, ?_, ?_⟩
    · intro o4 h4
      cases h4
      exact ⟨U, it.op, hU, rU, hop ▸ hc⟩
    · simp only [reduceCtorEq, false_iff, not_or, not_exists]
      constructor
      · rintro ws rfl; exact hd
      · rintro ws p reps rfl; exact hd
  · obtain ⟨o, ho, -⟩ := item_ok it h
    cases it with
    | ring2 ws =>
      refine ⟨.ring ⟨.ring2, N, wires ws⟩, none, ?_, rfl, by simp, by simp⟩
      simp only [buildItem]; rw [mkRing_ok h.1 h.2]; rfl
    | basic ws p reps =>
      refine ⟨.basic (basicObj N ws p false reps), none, ?_, rfl, by simp, by simp⟩
      simp only [buildItem]; rw [mkBasic_ok h.1 h.2.1 h.2.2.1 h.2.2.2]; rfl
    | _ => exact absurd trivial hd

/-- C07, negation: the expectation that every class has an adjoint is false. -/
theorem C07_ring2_and_basic_return_none :
    (do (← buildItem (.ring2 (List.finRange 3))).operation_dagger) = .ok none ∧
    (do (← buildItem (.basic (List.finRange 2) [0, 0, 0, 0, 0, 0] 1)).operation_dagger) =
      .ok none := by
  have h3 : (List.finRange 3).Nodup := by decide
  have h2 : (List.finRange 2).Nodup := by decide
  constructor
  · simp only [buildItem]; rw [mkRing_ok h3 (by decide)]; rfl
  · simp only [buildItem]; rw [mkBasic_ok (reps := 1) h2 (by decide) (by decide) (by simp)]; rfl

/-- C07, applying `operation_dagger` twice gives back the original operator. -/
theorem C07_double_dagger (N : ℕ) (it : Item N) (h : it.WF)
    (h2 : ∀ ws, it ≠ .ring2 ws) (hb : ∀ ws p reps, it ≠ .basic ws p reps) :
    ∃ o o' o'', buildItem it = .ok o ∧ o.operation_dagger = .ok (some o') ∧
      o'.operation_dagger = .ok (some o'') ∧ Computes o''.U_expand it.op := by
  have hd : Spec.Item.hasDagger it := by
    cases it with
    | ring2 ws => exact absurd rfl (h2 ws)
    | basic ws p reps => exact absurd rfl (hb ws p reps)
    | _ => trivial
  obtain ⟨o, it', ho, hw', hd', hop, o', ho', hdag⟩ := item_dagger it h hd
  obtain ⟨p, it'', hp, hw'', -, hop', o'', ho'', hdag'⟩ := item_dagger it' hw' hd'
  rw [ho'] at hp; cases hp
  obtain ⟨q, hq, hc⟩ := item_ok it'' hw''
  rw [ho''] at hq; cases hq
  refine ⟨o, o', o'', ho, hdag, hdag', ?_⟩
  rw [hop', hop, conjTranspose_conjTranspose] at hc
  exact hc

example : (Item.layer .xyz ([2, 0] : List (Fin 3)) [1, 2, 3, 4, 5, 6]).WF ∧
    (Item.ringDag ([2, 0, 1] : List (Fin 3))).WF ∧ (Item.gate (Instr.cu3 1 2 3 (1 : Fin 3) 2)).WF :=
  ⟨⟨by decide, by decide, rfl⟩, ⟨by decide, by decide⟩, by unfold Item.WF Instr.WF; decide⟩

/-! ## C08 for layers -/

/-- C08 for the rotation layers: after any history of updates, if the last parameters are acceptable
to the constructor, the layer is identical (in every attribute, hence for `U_expand`, `TN_operation`
and `TN_contract`) to a freshly constructed one. -/
theorem C08_layer_history (k : LayerKind) (N : ℤ) (ws : List ℤ) (p0 : List ℝ) (l0 : SLayer)
    (h0 : mkSLayer (layerCls k) N ws p0 = .ok l0) (history : List (List ℝ)) (l : SLayer)
    (hl : mkSLayer (layerCls k) N ws ((p0 :: history).getLast (by simp)) = .ok l) :
    history.foldl SLayer.params_update l0 = l := by
  have inv : ∀ {p l}, mkSLayer (layerCls k) N ws p = .ok l → l = ⟨layerCls k, N, ws, p⟩ := by
    intro p l h
    unfold mkSLayer at h
    by_cases h1 : (layerCls k).arity * ws.length ≠ p.length
    · rw [raiseIf_true h1] at h; cases h
    rw [raiseIf_false h1, Py.ok_bind] at h
    by_cases h2 : (ws.length : ℤ) > N
    · rw [raiseIf_true h2] at h; cases h
    rw [raiseIf_false h2, Py.ok_bind] at h
    exact (Except.ok.inj h).symm
  have upd : ∀ p q, (⟨layerCls k, N, ws, p⟩ : SLayer).params_update q = ⟨layerCls k, N, ws, q⟩ := by
    intro p q; cases k <;> rfl
  rw [inv h0, inv hl]
  clear hl h0
  induction history generalizing p0 with
  | nil => rfl
  | cons q hist ih =>
    rw [List.foldl_cons, upd, ih, List.getLast_cons (a := p0) (by simp)]

/-- C08, where the claim fails: `params_update` does not check the length that the constructor
checks, so a layer updated with a longer list silently ignores the surplus while constructing it
raises ValueError. -/
theorem C08_layer_wrong_length_accepted :
    (∃ l U, mkSLayer .xz 1 [0] [0.1, 0.2] = .ok l ∧
      (l.params_update [0.3, 0.4, 0.5]).U_expand = .ok U) ∧
    mkSLayer .xz 1 [0] [0.3, 0.4, 0.5] = .error .valueError := by
  constructor
  · obtain ⟨l, hl, -⟩ := C09_rotation_layers 1 (by decide) .xz [0] (by decide) [0.1, 0.2] rfl
    have e : l = ⟨.xz, 1, [0], [0.1, 0.2]⟩ := by
      have := mkSLayer_ok (c := .xz) (ws := ([0] : List (Fin 1))) (p := [0.1, 0.2]) (by decide) rfl
      exact Except.ok.inj (hl.symm.trans this)
    have hc := sLayer_rep (N := 1) (⟨.xz, 1, [0], [0.3, 0.4, 0.5]⟩) (by decide) rfl [0] (by decide)
      rfl (fun i => seqRot [X, Z] ([0.3, 0.4, 0.5].drop (2 * i))) (by
        intro i hi
        exact prod2_rep (by simp at hi ⊢; omega) pauliXMat_rep pauliZMat_rep)
    obtain ⟨U, hU, -⟩ := hc
    exact ⟨l, U, hl, by rw [e]; exact hU⟩
  · exact C09_rejects 1 .xz [0] _ (Or.inl (by simp [LayerKind.axes]))

/-- C08 for `BasicEntangleLayer`: after any history of updates with lists of the right length the
object is identical to a freshly constructed one. -/
theorem C08_basic_history (N : ℕ) (ws : List (Fin N)) (hw : ws.Nodup) (h2 : 2 ≤ ws.length)
    (reps : ℕ) (hr : 1 ≤ reps) (p0 : List ℝ) (hp0 : p0.length = 3 * ws.length * reps)
    (history : List (List ℝ)) (hh : ∀ p ∈ history, p.length = 3 * ws.length * reps) :
    (do let b0 ← mkBasic N (wires ws) p0 false reps
        history.foldlM (fun b p => Basic.params_update b p false) b0) =
      mkBasic N (wires ws) ((p0 :: history).getLast (by simp)) false reps := by
  rw [mkBasic_ok hw h2 hr hp0, Py.ok_bind]
  induction history generalizing p0 with
  | nil => rw [List.foldlM_nil]; exact (mkBasic_ok hw h2 hr hp0).symm
  | cons q hist ih =>
    have hq := hh q (by simp)
    have upd : (basicObj N ws p0 false reps).params_update q false =
        .ok (basicObj N ws q false reps) := by
      unfold Basic.params_update
      have := basicParts_ok hw h2 hq.ge
      simp only [basicObj]
      rw [this, Py.ok_bind]
    rw [List.foldlM_cons, upd, Py.ok_bind, ih q hq (fun r hr => hh r (by simp [hr])),
      List.getLast_cons (a := p0) (by simp)]

example : ∃ l0 l, mkSLayer .yzy 4 [3, 1] [1, 2, 3, 4, 5, 6] = .ok l0 ∧
    mkSLayer .yzy 4 [3, 1] [6, 5, 4, 3, 2, 1] = .ok l :=
  ⟨_, _, mkSLayer_ok (ws := ([3, 1] : List (Fin 4))) (by decide) rfl,
    mkSLayer_ok (ws := ([3, 1] : List (Fin 4))) (by decide) rfl⟩

end QTN.Props
