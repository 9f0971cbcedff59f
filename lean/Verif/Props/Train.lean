import Verif.Lemmas.Train
import Verif.SpecGrad

/-! # Property C72: the four evaluations of deepquantum/tests/test_TN_train2.py -/

namespace QTN.Props

open QTN QTN.Spec Matrix

variable {N : ℕ}

/-- Six repetitions of a YZY layer and a ring of CNOTs on all qubits, then a YZY layer; the layers use
consecutive blocks of `3 N` weights. -/
noncomputable def trainItems (N : ℕ) (w : List ℝ) : List (Item N) :=
  (List.range 6).flatMap (fun r => [.layer .yzy (List.finRange N) ((w.drop (3 * N * r)).take (3 * N)),
    .ring (List.finRange N)]) ++ [.layer .yzy (List.finRange N) ((w.drop (3 * N * 6)).take (3 * N))]

/-- The state of the sample `x` before the readout: the weights' circuit applied to the X rotations by
the entries of `x`, applied to `|0…0⟩`. -/
noncomputable def trainState (N : ℕ) (w x : List ℝ) : QState N :=
  circuitOp (trainItems N w) *ᵥ encOp Spec.X x (List.finRange N) *ᵥ ket0 N

/-- The result the model is meant to give for the sample `x`: `⟨Z⟩` of the first qubit. -/
noncomputable def trainValue (h : 0 < N) (w x : List ℝ) : ℝ :=
  (braket (onQubit ⟨0, h⟩ Spec.Z) (trainState N w x)).re

theorem trainItems_eq (N : ℕ) (w : List ℝ) : trainItems N w =
    [.layer .yzy (List.finRange N) (slc w 0 (3 * N)), .ring (List.finRange N),
     .layer .yzy (List.finRange N) (slc w (3 * N) (6 * N)), .ring (List.finRange N),
     .layer .yzy (List.finRange N) (slc w (6 * N) (9 * N)), .ring (List.finRange N),
     .layer .yzy (List.finRange N) (slc w (9 * N) (12 * N)), .ring (List.finRange N),
     .layer .yzy (List.finRange N) (slc w (12 * N) (15 * N)), .ring (List.finRange N),
     .layer .yzy (List.finRange N) (slc w (15 * N) (18 * N)), .ring (List.finRange N),
     .layer .yzy (List.finRange N) (slc w (18 * N) (21 * N))] := by
  have e : ∀ a b c, a = c → b = c + 3 * N → slc w a b = (w.drop c).take (3 * N) := by
    intro a b c h1 h2
    subst h1
    unfold slc
    rw [List.drop_take, h2]
    congr 1
    omega
  rw [e 0 (3 * N) (3 * N * 0) (by omega) (by omega), e (3 * N) (6 * N) (3 * N * 1) (by omega) (by omega),
    e (6 * N) (9 * N) (3 * N * 2) (by omega) (by omega), e (9 * N) (12 * N) (3 * N * 3) (by omega) (by omega),
    e (12 * N) (15 * N) (3 * N * 4) (by omega) (by omega),
    e (15 * N) (18 * N) (3 * N * 5) (by omega) (by omega),
    e (18 * N) (21 * N) (3 * N * 6) (by omega) (by omega)]
  rfl

theorem trainItems_wf (hN : 2 ≤ N) {w : List ℝ} (hw : w.length = 21 * N) :
    ∀ it ∈ trainItems N w, it.WF ∧ Contractible it := by
  have hl : ∀ r, r ≤ 6 → (Item.layer (N := N) .yzy (List.finRange N)
      ((w.drop (3 * N * r)).take (3 * N))).WF := by
    intro r hr
    refine ⟨by omega, List.nodup_finRange N, ?_⟩
    have : 3 * N * r ≤ 3 * N * 6 := Nat.mul_le_mul_left _ hr
    simp only [List.length_take, List.length_drop, List.length_finRange, hw,
      show (LayerKind.yzy.axes).length = 3 from rfl]
    omega
  intro it hit
  rw [trainItems, List.mem_append, List.mem_flatMap] at hit
  rcases hit with ⟨r, hr, hit⟩ | hit
  · simp only [List.mem_cons, List.not_mem_nil, or_false] at hit
    rcases hit with rfl | rfl
    · exact ⟨hl r (by have := List.mem_range.1 hr; omega), trivial⟩
    · exact ⟨⟨List.nodup_finRange N, by simpa using hN⟩, rfl⟩
  · simp only [List.mem_cons, List.not_mem_nil, or_false] at hit
    subst hit
    exact ⟨hl 6 le_rfl, trivial⟩

theorem yzy_call (c : Circuit) (ws : List (Fin N)) (p : List ℝ) :
    c.yzyLayer (wires ws) p = c.addBuilt (itemCall (.layer .yzy ws p)) := rfl

theorem ring_call (c : Circuit) (ws : List (Fin N)) :
    c.ringOfCnot (wires ws) = c.addBuilt (itemCall (.ring ws)) := rfl

theorem basic_call (c : Circuit) (ws : List (Fin N)) (p : List ℝ) (n : ℕ) :
    c.basicEntangleLayer (wires ws) p n = c.addBuilt (itemCall (.basic ws p n)) := rfl

theorem layers_calls (N : ℕ) (w : List ℝ) : Train2.layers N w =
    (trainItems N w).foldlM (fun c it => c.addBuilt (itemCall it)) (Circuit.new N) := by
  rw [trainItems_eq]
  unfold Train2.layers
  rw [← wires_finRange]
  simp only [yzy_call, ring_call, List.foldlM_cons, List.foldlM_nil, bind_pure]

theorem layers_ok (hN : 2 ≤ N) {w : List ℝ} (hw : w.length = 21 * N) :
    ∃ c, Train2.layers N w = .ok c ∧ Computes c.U (circuitOp (trainItems N w)) ∧
      ContractsAs c.TN_contract_evolution (circuitOp (trainItems N w)) := by
  obtain ⟨ops, hops, hU, hf⟩ := circuit_contract (trainItems N w) (fun it h => (trainItems_wf hN hw it h).1)
    (fun it h => (trainItems_wf hN hw it h).2)
  exact ⟨circ N ops, by rw [layers_calls, calls_ok _ hops], hU, hf⟩

theorem timeOrdered_pairs (l : List ℕ) (f g : ℕ → QOp N) :
    timeOrdered (l.flatMap (fun r => [f r, g r])) = timeOrdered (l.map (fun r => g r * f r)) := by
  induction l with
  | nil => rfl
  | cons r l ih =>
    simp only [List.flatMap_cons, List.map_cons, List.cons_append, List.nil_append, timeOrdered_cons, ih,
      mul_assoc]

theorem layers1_ok (hN : 2 ≤ N) {w : List ℝ} (hw : w.length = 21 * N) :
    ∃ c, Train2.layers1 N w = .ok c ∧ Computes c.U (circuitOp (trainItems N w)) := by
  let l : List (Item N) := [.basic (List.finRange N) (slc w 0 (18 * N)) 6,
    .layer .yzy (List.finRange N) (slc w (18 * N) (21 * N))]
  have hwf : ∀ it ∈ l, it.WF := by
    intro it hit
    simp only [l, List.mem_cons, List.not_mem_nil, or_false] at hit
    rcases hit with rfl | rfl
    · refine ⟨List.nodup_finRange N, by simpa using hN, by omega, ?_⟩
      simp only [slc, List.length_drop, List.length_take, List.length_finRange, hw]
      omega
    · refine ⟨by omega, List.nodup_finRange N, ?_⟩
      simp only [slc, List.length_drop, List.length_take, List.length_finRange, hw,
        show (LayerKind.yzy.axes).length = 3 from rfl]
      omega
  obtain ⟨ops, hops, hU, -⟩ := C13_items N l hwf
  refine ⟨circ N ops, ?_, ?_⟩
  · rw [← calls_ok _ hops]
    unfold Train2.layers1
    rw [← wires_finRange, show (6 : ℤ) = ((6 : ℕ) : ℤ) from rfl]
    simp only [l, yzy_call, basic_call, List.foldlM_cons, List.foldlM_nil, bind_pure]
  · convert hU using 1
    have hb : ∀ r ∈ List.range 6, layerOp [Y, Z, Y] (List.finRange N)
        ((slc w 0 (18 * N)).drop (r * (3 * (List.finRange N).length))) =
        layerOp [Y, Z, Y] (List.finRange N) ((w.drop (3 * N * r)).take (3 * N)) := by
      intro r hr
      have hr' := List.mem_range.1 hr
      have h1 : 3 * N * r ≤ 15 * N := by
        calc 3 * N * r ≤ 3 * N * 5 := Nat.mul_le_mul_left _ (by omega)
          _ = 15 * N := by ring
      rw [← layerOp_take, List.length_finRange]
      congr 1
      unfold slc
      rw [List.drop_zero, mul_comm r, List.drop_take, List.take_take]
      congr 1
      simp only [List.length_cons, List.length_nil]
      omega
    have e6 : slc w (18 * N) (21 * N) = (w.drop (3 * N * 6)).take (3 * N) := by
      unfold slc
      rw [List.drop_take, show 18 * N = 3 * N * 6 by ring, show 21 * N - 3 * N * 6 = 3 * N by omega]
    simp only [circuitOp, l, List.map_cons, List.map_nil, timeOrdered_cons]
    rw [trainItems, List.map_append, timeOrdered_append, List.map_flatMap]
    simp only [List.map_cons, List.map_nil, timeOrdered_cons, Item.op, basicOp]
    rw [timeOrdered_pairs, e6]
    congr 2
    refine List.map_congr_left fun r hr => ?_
    rw [hb r hr]
    rfl

/-! ## C72 -/

/-- The samples of a batch: at least one number and at most one per qubit. -/
def GoodBatch (N : ℕ) (batch : List (List ℝ)) : Prop :=
  batch ≠ [] ∧ ∀ x ∈ batch, x ≠ [] ∧ x.length ≤ N

/-- C72: `forward3` (matrices) and `forward1` (matrices, with `BasicEntangleLayer`) return the column
of the `⟨Z⟩` values of the samples. -/
theorem C72_matrix (hN : 2 ≤ N) (w : List ℝ) (hw : w.length = 21 * N) (batch : List (List ℝ))
    (hb : GoodBatch N batch) :
    ∃ t, IsColumn t (batch.map (trainValue (by omega : 0 < N) w)) ∧
      Train2.forward3 N w batch = .ok t ∧ Train2.forward1 N w batch = .ok t := by
  have h0 : 0 < N := by omega
  obtain ⟨p, ep, rp⟩ := psi0_row N
  obtain ⟨psis, ee, hF⟩ := mapM_forall₂ (f := Train2.encodeRow N p)
    (R := fun x r => IsRow r (encOp Spec.X x (List.finRange N) *ᵥ ket0 N)) (l := batch)
    (fun x hx => encodeRow_ok h0 rp (hb.2 x hx).1 (hb.2 x hx).2)
  obtain ⟨c, ec, hU, -⟩ := layers_ok hN hw
  obtain ⟨c', ec', hU'⟩ := layers1_ok hN hw
  have key : ∀ c : Circuit, Computes c.U (circuitOp (trainItems N w)) →
      ∃ t, Train2.gather (Train2.expecRow N c) psis = .ok t ∧
        IsColumn t (batch.map (trainValue h0 w)) := by
    intro c hU
    refine gather_ok ?_ ?_
    · rw [List.forall₂_map_right_iff]
      exact hF.flip.imp fun r x h => expecRow_ok h0 hU h
    · rintro rfl
      cases hF
      exact hb.1 rfl
  obtain ⟨t, et, rt⟩ := key c hU
  obtain ⟨t', et', rt'⟩ := key c' hU'
  refine ⟨t, rt, ?_, ?_⟩
  · unfold Train2.forward3
    rw [ep, Py.ok_bind, ee, Py.ok_bind, ec, Py.ok_bind, et]
  · unfold Train2.forward1
    rw [ep, Py.ok_bind, ee, Py.ok_bind, ec', Py.ok_bind, et', column_unique rt' rt]

/-- C72: `forward2` (contraction, sample by sample) returns the same column, for every SVD routine: the
decompositions of `|0…0⟩` discard nothing. -/
theorem C72_contract {svd : SVDOracle} (hv : ValidSVD svd) (hN : 2 ≤ N) (w : List ℝ)
    (hw : w.length = 21 * N) (batch : List (List ℝ)) (hb : GoodBatch N batch) :
    ∃ t s', IsColumn t (batch.map (trainValue (by omega : 0 < N) w)) ∧
      Train2.forward2 svd N w batch [] = (.ok t, s') ∧ Train2.forward3 N w batch = .ok t := by
  have h0 : 0 < N := by omega
  obtain ⟨p, ep, rp⟩ := psi0_row N
  obtain ⟨mps, s', T, e1, e2, rT⟩ := zero_tensor hv h0 rp [] (by simp)
  obtain ⟨Ts, ee, hF⟩ := mapM_forall₂ (f := fun x => do (← Train2.encoding N x).TN_contract T false)
    (R := fun x r => IsTen r (encOp Spec.X x (List.finRange N) *ᵥ ket0 N)) (l := batch)
    (fun x hx => by
      obtain ⟨e, he, -, hc⟩ := encoding_ok h0 (hb.2 x hx).1 (hb.2 x hx).2
      obtain ⟨T', eT', rT'⟩ := hc.1 T _ rT
      exact ⟨T', by rw [he, Py.ok_bind, eT'], rT'⟩)
  obtain ⟨c, ec, -, hU⟩ := layers_ok hN hw
  obtain ⟨t, et, rt⟩ : ∃ t, Train2.gather (Train2.expecTensor N c) Ts = .ok t ∧
      IsColumn t (batch.map (trainValue h0 w)) := by
    refine gather_ok ?_ ?_
    · rw [List.forall₂_map_right_iff]
      exact hF.flip.imp fun r x h => expecTensor_ok h0 hU h
    · rintro rfl
      cases hF
      exact hb.1 rfl
  obtain ⟨t', rt', et', -⟩ := C72_matrix hN w hw batch hb
  refine ⟨t, s', rt, ?_, by rw [et', column_unique rt' rt]⟩
  unfold Train2.forward2
  rw [ep, TNM.lift_ok_bind, TNM.bind_ok e1, e2, TNM.lift_ok_bind, ee, TNM.lift_ok_bind, ec,
    TNM.lift_ok_bind, et]
  rfl

/-- C72: what the batched `forward` returns: the real part of `Σ_a ψ(a) (Z ψ)(a)`, without complex
conjugation of the first factor. -/
theorem C72_batched {svd : SVDOracle} (hv : ValidSVD svd) (hN : 2 ≤ N) (w : List ℝ)
    (hw : w.length = 21 * N) (batch : List (List ℝ)) (hb : GoodBatch N batch) :
    ∃ t s', Train2.forward svd N w batch [] = (.ok t, s') ∧
      IsColumn t (batch.map (fun x => (∑ a, trainState N w x a *
        (onQubit (⟨0, by omega⟩ : Fin N) Spec.Z *ᵥ trainState N w x) a).re)) := by
  have h0 : 0 < N := by omega
  obtain ⟨p, ep, rp⟩ := psi0_row N
  obtain ⟨mps, s', T, e1, e2, rT⟩ := zero_tensor hv h0 rp [] (by simp)
  obtain ⟨B, eB, rB⟩ := encodeBatch_ok h0 rT hb.1 hb.2
  obtain ⟨c, ec, -, hU⟩ := layers_ok hN hw
  obtain ⟨t, et, rt⟩ := readBatch_ok h0 hU (List.length_pos_iff.2 hb.1) rB
  refine ⟨t, s', ?_, ?_⟩
  · unfold Train2.forward
    rw [ep, TNM.lift_ok_bind, TNM.bind_ok e1, e2, TNM.lift_ok_bind, eB, TNM.lift_ok_bind, ec,
      TNM.lift_ok_bind, et]
    rfl
  · convert rt using 1
    apply List.ext_getElem
    · simp
    · intro k h1 h2
      simp [bilinear, trainState]

/-- C72, what is missing: the batched `forward` agrees with the others only for samples whose final
amplitudes are all real. -/
theorem C72_batched_partial {svd : SVDOracle} (hv : ValidSVD svd) (hN : 2 ≤ N) (w : List ℝ)
    (hw : w.length = 21 * N) (batch : List (List ℝ)) (hb : GoodBatch N batch)
    (hr : ∀ x ∈ batch, ∀ a, (trainState N w x a).im = 0) :
    ∃ t s' s'', Train2.forward svd N w batch [] = (.ok t, s') ∧
      Train2.forward2 svd N w batch [] = (.ok t, s'') ∧
      IsColumn t (batch.map (trainValue (by omega : 0 < N) w)) := by
  obtain ⟨t, s', e, rt⟩ := C72_batched hv hN w hw batch hb
  obtain ⟨t', s'', rt', e', -⟩ := C72_contract hv hN w hw batch hb
  have h0 : 0 < N := by omega
  have hm : batch.map (fun x => (∑ a, trainState N w x a *
      (onQubit (⟨0, by omega⟩ : Fin N) Spec.Z *ᵥ trainState N w x) a).re) =
      batch.map (trainValue h0 w) := by
    refine List.map_congr_left fun x hx => ?_
    unfold trainValue
    rw [braket_eq, ← dotProduct_mulVec]
    congr 1
    refine Finset.sum_congr rfl fun a _ => ?_
    have : star (trainState N w x) a = trainState N w x a := Complex.conj_eq_iff_im.2 (hr x hx a)
    rw [this]
  rw [hm] at rt
  exact ⟨t, s', s'', e, by rw [e', column_unique rt' rt], rt⟩

/-! ## Where the batched evaluation is wrong -/

/-- `M` maps basis states to basis states. -/
def MapsBasis (M : QOp N) : Prop := ∀ b : Bits N, ∃ c, M *ᵥ Pi.single b 1 = Pi.single c 1

theorem MapsBasis.one : MapsBasis (1 : QOp N) := fun b => ⟨b, one_mulVec _⟩

theorem MapsBasis.mul {M M' : QOp N} (h : MapsBasis M) (h' : MapsBasis M') : MapsBasis (M * M') := by
  intro b
  obtain ⟨c, hc⟩ := h' b
  obtain ⟨d, hd⟩ := h c
  exact ⟨d, by rw [← mulVec_mulVec, hc, hd]⟩

theorem MapsBasis.timeOrdered {l : List (QOp N)} (h : ∀ M ∈ l, MapsBasis M) :
    MapsBasis (timeOrdered l) := by
  induction l with
  | nil => exact .one
  | cons M l ih =>
    rw [timeOrdered_cons]
    exact (ih fun M' h' => h M' (by simp [h'])).mul (h M (by simp))

theorem mapsBasis_cnot (c t : Fin N) : MapsBasis (controlled [c] t Spec.X) := by
  intro b
  have hcol : ∀ a, (controlled [c] t Spec.X *ᵥ Pi.single b 1) a = controlled [c] t Spec.X a b := by
    intro a
    rw [mulVec_single_one]
    rfl
  by_cases hb : b c = 1
  · refine ⟨Function.update b t (1 - b t), funext fun a => ?_⟩
    rw [hcol]
    unfold controlled onQubit
    rw [if_pos (by simpa using hb)]
    by_cases ha : a = Function.update b t (1 - b t)
    · subst ha
      rw [Pi.single_eq_same, if_pos (fun j hj => Function.update_of_ne hj _ _), Function.update_self]
      rcases (show b t = 0 ∨ b t = 1 by omega) with h | h <;> rw [h] <;> simp [Spec.X]
    · rw [Pi.single_eq_of_ne ha]
      split
      · rename_i hj
        have hne : a t = b t := by
          by_contra hne
          refine ha (funext fun j => ?_)
          by_cases hjt : j = t
          · subst hjt
            rw [Function.update_self]
            omega
          · rw [Function.update_of_ne hjt, hj j hjt]
        rcases (show b t = 0 ∨ b t = 1 by omega) with h | h <;> rw [hne, h] <;> simp [Spec.X]
      · rfl
  · refine ⟨b, funext fun a => ?_⟩
    rw [hcol]
    unfold controlled
    rw [if_neg (by simpa using hb), Matrix.one_apply, Pi.single_apply]

theorem mapsBasis_ring (ws : List (Fin N)) : MapsBasis (ringOp 1 ws) := by
  unfold ringOp
  split
  · exact mapsBasis_cnot _ _
  · refine .timeOrdered fun M hM => ?_
    unfold ringGates at hM
    obtain ⟨i, rfl⟩ := (List.mem_ofFn' _ _).1 hM
    exact mapsBasis_cnot _ _

theorem seqRot_zeros (axes : List Mat2) (n : ℕ) : seqRot axes (List.replicate n 0) = 1 := by
  induction axes generalizing n with
  | nil => cases n <;> rfl
  | cons P Ps ih =>
    cases n with
    | zero => rfl
    | succ n => rw [List.replicate_succ, seqRot, ih, rot_zero, mul_one]

theorem layer_zeros (axes : List Mat2) (ws : List (Fin N)) (n : ℕ) :
    layerOp axes ws (List.replicate n 0) = 1 := by
  unfold layerOp
  rw [← onEach_one]
  congr 1
  funext j
  rw [List.drop_replicate, seqRot_zeros, ite_self]

theorem zeros_mapsBasis (N : ℕ) : MapsBasis (circuitOp (trainItems N (List.replicate (21 * N) 0))) := by
  refine .timeOrdered fun M hM => ?_
  obtain ⟨it, hit, rfl⟩ := List.mem_map.1 hM
  rw [trainItems, List.mem_append, List.mem_flatMap] at hit
  rcases hit with ⟨r, -, hit⟩ | hit
  · simp only [List.mem_cons, List.not_mem_nil, or_false] at hit
    rcases hit with rfl | rfl
    · rw [List.drop_replicate, List.take_replicate, Item.op, layer_zeros]; exact .one
    · exact mapsBasis_ring _
  · simp only [List.mem_cons, List.not_mem_nil, or_false] at hit
    subst hit
    rw [List.drop_replicate, List.take_replicate, Item.op, layer_zeros]; exact .one

/-- The sample `(π, 0, …, 0)`. -/
noncomputable def flipSample (N : ℕ) : List ℝ := Real.pi :: List.replicate (N - 1) 0

theorem flip_encoded (hN : 0 < N) : encOp Spec.X (flipSample N) (List.finRange N) *ᵥ ket0 N =
    (-Complex.I) • Pi.single (Pi.single ⟨0, hN⟩ 1) 1 := by
  have hl : (flipSample N).length = N := by simp [flipSample]; omega
  have hk : ket0 N = Pi.single 0 1 := by
    funext a
    rw [ket0, Pi.single_apply]
  have hrot : Spec.rot Spec.X Real.pi = (-Complex.I) • Spec.X := by
    unfold Spec.rot
    simp
  have hg : ∀ j : Fin N, (if j ∈ List.finRange N then
      Spec.rot Spec.X ((flipSample N).getD ((List.finRange N).idxOf j % (flipSample N).length) 0) else 1) =
      if j = ⟨0, hN⟩ then (-Complex.I) • Spec.X else 1 := by
    intro j
    rw [if_pos (List.mem_finRange j), List.idxOf_finRange, hl, Nat.mod_eq_of_lt j.2]
    by_cases hj : j = ⟨0, hN⟩
    · subst hj
      rw [if_pos rfl]
      exact hrot
    · rw [if_neg hj]
      obtain ⟨m, hm⟩ : ∃ m, (j : ℕ) = m + 1 := ⟨j - 1, by
        have : (j : ℕ) ≠ 0 := fun e => hj (Fin.ext e)
        omega⟩
      have : (flipSample N).getD (j : ℕ) 0 = 0 := by
        rw [hm]
        simp [flipSample, List.getD_eq_getElem?_getD, List.getElem?_replicate]
        split <;> rfl
      rw [this, rot_zero]
  funext a
  rw [hk, mulVec_single_one]
  show encOp Spec.X (flipSample N) (List.finRange N) a 0 = _
  unfold encOp onEach
  simp only [hg]
  rw [Pi.smul_apply, Pi.single_apply]
  by_cases ha : a = Pi.single ⟨0, hN⟩ 1
  · subst ha
    rw [Finset.prod_eq_single ⟨0, hN⟩]
    · simp [Spec.X]
    · intro j _ hj
      rw [if_neg hj, Pi.single_eq_of_ne hj]
      exact Matrix.one_apply_eq _
    · simp
  · rw [if_neg ha, smul_zero]
    by_cases h0 : a ⟨0, hN⟩ = 1
    · obtain ⟨j, hj⟩ : ∃ j, a j ≠ (Pi.single ⟨0, hN⟩ 1 : Bits N) j := by
        by_contra hno
        push Not at hno
        exact ha (funext hno)
      have hj0 : j ≠ ⟨0, hN⟩ := by
        rintro rfl
        exact hj (by rw [h0, Pi.single_eq_same])
      rw [Pi.single_eq_of_ne hj0] at hj
      refine Finset.prod_eq_zero (Finset.mem_univ j) ?_
      rw [if_neg hj0, Matrix.one_apply]
      exact if_neg hj
    · refine Finset.prod_eq_zero (Finset.mem_univ ⟨0, hN⟩) ?_
      have h0' : a ⟨0, hN⟩ = 0 := by omega
      rw [if_pos rfl, h0']
      simp [Spec.X]

/-- C72 is false of the batched `forward`: for every number of qubits, with all weights zero and the
sample `(π, 0, …, 0)` it returns the opposite sign of what the other three return, which is `±1`. -/
theorem C72_batched_wrong {svd : SVDOracle} (hv : ValidSVD svd) (hN : 2 ≤ N) :
    ∃ r t t' s' s'', (r = 1 ∨ r = -1) ∧ IsColumn t [r] ∧ IsColumn t' [-r] ∧
      Train2.forward3 N (List.replicate (21 * N) 0) [flipSample N] = .ok t ∧
      Train2.forward1 N (List.replicate (21 * N) 0) [flipSample N] = .ok t ∧
      Train2.forward2 svd N (List.replicate (21 * N) 0) [flipSample N] [] = (.ok t, s') ∧
      Train2.forward svd N (List.replicate (21 * N) 0) [flipSample N] [] = (.ok t', s'') := by
  have h0 : 0 < N := by omega
  have hw : (List.replicate (21 * N) (0 : ℝ)).length = 21 * N := List.length_replicate
  have hb : GoodBatch N [flipSample N] := by
    refine ⟨by simp, fun x hx => ?_⟩
    obtain rfl : x = flipSample N := by simpa using hx
    exact ⟨by simp [flipSample], by simp [flipSample]; omega⟩
  obtain ⟨c, hc⟩ := zeros_mapsBasis N (Pi.single ⟨0, h0⟩ 1)
  have hst : trainState N (List.replicate (21 * N) 0) (flipSample N) = (-Complex.I) • Pi.single c 1 := by
    rw [trainState, flip_encoded h0, mulVec_smul, hc]
  let r : ℝ := if c ⟨0, h0⟩ = 0 then 1 else -1
  have hZ : onQubit (⟨0, h0⟩ : Fin N) Spec.Z *ᵥ Pi.single c 1 = (r : ℂ) • Pi.single c 1 := by
    funext a
    rw [mulVec_single_one]
    show onQubit (⟨0, h0⟩ : Fin N) Spec.Z a c = _
    rw [Pi.smul_apply, Pi.single_apply]
    unfold onQubit
    by_cases ha : a = c
    · subst ha
      rw [if_pos (fun _ _ => rfl), if_pos rfl]
      rcases (show a ⟨0, h0⟩ = 0 ∨ a ⟨0, h0⟩ = 1 by omega) with h | h <;> simp [r, h, Spec.Z]
    · rw [if_neg ha, smul_zero]
      split
      · rename_i hj
        have hne : a ⟨0, h0⟩ ≠ c ⟨0, h0⟩ := by
          intro e
          refine ha (funext fun j => ?_)
          by_cases hj0 : j = ⟨0, h0⟩
          · rw [hj0, e]
          · exact hj j hj0
        rcases (show c ⟨0, h0⟩ = 0 ∨ c ⟨0, h0⟩ = 1 by omega) with h | h
        · have : a ⟨0, h0⟩ = 1 := by omega
          rw [h, this]; simp [Spec.Z]
        · have : a ⟨0, h0⟩ = 0 := by omega
          rw [h, this]; simp [Spec.Z]
      · rfl
  have hval : trainValue h0 (List.replicate (21 * N) 0) (flipSample N) = r := by
    rw [trainValue, braket_eq, ← dotProduct_mulVec, hst, mulVec_smul, hZ]
    simp [dotProduct, Pi.single_apply]
  have hbil : (∑ a, trainState N (List.replicate (21 * N) 0) (flipSample N) a *
      (onQubit (⟨0, h0⟩ : Fin N) Spec.Z *ᵥ trainState N (List.replicate (21 * N) 0) (flipSample N)) a).re =
      -r := by
    rw [hst, mulVec_smul, hZ]
    simp [Pi.single_apply]
  obtain ⟨t, rt, e3, e1⟩ := C72_matrix hN _ hw _ hb
  obtain ⟨t2, s', rt2, e2, -⟩ := C72_contract hv hN _ hw _ hb
  obtain ⟨t', s'', e, rt'⟩ := C72_batched hv hN _ hw _ hb
  refine ⟨r, t, t', s', s'', ?_, ?_, ?_, e3, e1, by rw [e2, column_unique rt2 rt], e⟩
  · by_cases h : c ⟨0, h0⟩ = 0 <;> simp [r, h]
  · rw [List.map_singleton, hval] at rt; exact rt
  · rw [List.map_singleton, hbil] at rt'; exact rt'

theorem bind_raises {α β : Type} {f : α → Py β} (h : ∀ a, Raises (f a)) (p : Py α) : Raises (p >>= f) := by
  cases p with
  | error e => exact ⟨e, rfl⟩
  | ok a => exact h a

theorem tnm_raises_bind {α β : Type} {f : α → TNM β} (h : ∀ a s, ∃ e s', f a s = (.error e, s'))
    (m : TNM α) (s : List (Tensor ℂ)) : ∃ e s', (m >>= f) s = (.error e, s') := by
  rcases hm : m s with ⟨e | a, s1⟩
  · exact ⟨e, s1, TNM.bind_error hm _⟩
  · rw [TNM.bind_ok hm]; exact h a s1

/-- C72, boundary: an empty batch raises on all four paths. -/
theorem C72_empty (svd : SVDOracle) (N : ℕ) (w : List ℝ) :
    Raises (Train2.forward3 N w []) ∧ Raises (Train2.forward1 N w []) ∧
    (∀ s, ∃ e s', Train2.forward2 svd N w [] s = (.error e, s')) ∧
    ∀ s, ∃ e s', Train2.forward svd N w [] s = (.error e, s') := by
  refine ⟨?_, ?_, fun s => ?_, fun s => ?_⟩
  · unfold Train2.forward3
    refine bind_raises (fun _ => ?_) _
    rw [List.mapM_nil]
    exact bind_raises (fun _ => ⟨_, rfl⟩) _
  · unfold Train2.forward1
    refine bind_raises (fun _ => ?_) _
    rw [List.mapM_nil]
    exact bind_raises (fun _ => ⟨_, rfl⟩) _
  · unfold Train2.forward2
    refine tnm_raises_bind (fun _ s => tnm_raises_bind (fun _ s => tnm_raises_bind (fun _ s => ?_) _ s) _ s) _ s
    rw [List.mapM_nil]
    exact tnm_raises_bind (fun _ s => ⟨_, s, rfl⟩) _ s
  · unfold Train2.forward
    refine tnm_raises_bind (fun _ s => tnm_raises_bind (fun _ s => tnm_raises_bind (fun T s => ?_) _ s) _ s) _ s
    have : Raises (Train2.encodeBatch N T []) := bind_raises (fun _ => ⟨_, rfl⟩) _
    obtain ⟨e, he⟩ := this
    rw [he]
    exact ⟨e, s, rfl⟩

/-- C72, boundary: for proper weights the first three raise UnboundLocalError on an empty batch, `forward`
RuntimeError. -/
theorem C72_empty_kind {svd : SVDOracle} (hv : ValidSVD svd) (hN : 2 ≤ N) (w : List ℝ) (hw : w.length = 21 * N) :
    Train2.forward3 N w [] = .error .unboundLocal ∧ Train2.forward1 N w [] = .error .unboundLocal ∧
    (∃ s', Train2.forward2 svd N w [] [] = (.error .unboundLocal, s')) ∧
    ∃ s', Train2.forward svd N w [] [] = (.error .runtimeError, s') := by
  obtain ⟨p, ep, rp⟩ := psi0_row N
  obtain ⟨mps, s', T, e1, e2, rT⟩ := zero_tensor hv (by omega : 0 < N) rp [] (by simp)
  obtain ⟨c, ec, -, -⟩ := layers_ok hN hw
  obtain ⟨c', ec', -⟩ := layers1_ok hN hw
  refine ⟨?_, ?_, ⟨s', ?_⟩, s', ?_⟩
  · unfold Train2.forward3
    rw [ep, Py.ok_bind, List.mapM_nil, ec]
    rfl
  · unfold Train2.forward1
    rw [ep, Py.ok_bind, List.mapM_nil, ec']
    rfl
  · unfold Train2.forward2
    rw [ep, TNM.lift_ok_bind, TNM.bind_ok e1, e2, TNM.lift_ok_bind, List.mapM_nil, ec]
    rfl
  · obtain ⟨u, eu', -, -⟩ := Tensor.unsqueeze_at [] (List.replicate N 2) (t := T) (by simpa using rT.1)
    have eu : T.unsqueeze 0 = .ok u := eu'
    have eB : Train2.encodeBatch N T [] = .error .runtimeError := by
      unfold Train2.encodeBatch
      rw [eu]
      rfl
    unfold Train2.forward
    rw [ep, TNM.lift_ok_bind, TNM.bind_ok e1, e2, TNM.lift_ok_bind, eB]
    rfl

example : ValidSVD (Classical.choose exists_validSVD) ∧ GoodBatch 3 [[1, 2, 3], [0.5]] ∧
    (List.replicate 63 (0.1 : ℝ)).length = 21 * 3 :=
  ⟨Classical.choose_spec exists_validSVD, ⟨by simp, by simp⟩, by simp⟩

/-- The hypothesis of `C72_batched_partial` that the final states are real: zero weights, a zero sample. -/
example (a : Bits N) : (trainState N (List.replicate (21 * N) 0) [0] a).im = 0 := by
  have e : encOp Spec.X [0] (List.finRange N) = (1 : QOp N) := by
    unfold encOp
    rw [← onEach_one]
    congr 1
    funext j
    rw [if_pos (List.mem_finRange j), List.length_singleton, Nat.mod_one]
    exact rot_zero _
  have hk : ket0 N = Pi.single 0 1 := by
    funext a
    rw [ket0, Pi.single_apply]
  obtain ⟨c, hc⟩ := zeros_mapsBasis N 0
  rw [trainState, e, one_mulVec, hk, hc, Pi.single_apply]
  split <;> simp

end QTN.Props
