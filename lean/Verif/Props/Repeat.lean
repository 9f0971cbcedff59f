import Verif.Lemmas.Repeat
import Verif.Lemmas.Holds
import Verif.Lemmas.SvdExists

/-! # Property C58: layers on repeated wires -/

namespace QTN.Props

open QTN QTN.Spec Matrix

variable {N : ℕ}

/-- C58 (exact behaviour): a rotation layer on any list of at most `N` wires is accepted. `U_expand` rotates every
listed wire once, with the last block of angles given for it; `TN_contract` and `TN_operation` apply the same
rotation as often as the wire is listed. -/
theorem C58_rotation_layers (svd : SVDOracle) (hN : 0 < N) (k : LayerKind) (ws : List (Fin N)) (hw : ws.length ≤ N)
    (p : List ℝ) (hp : p.length = k.axes.length * ws.length) :
    ∃ l, mkSLayer (layerCls k) N (wires ws) p = .ok l ∧ Computes l.U_expand (lastOp k.axes ws p) ∧
      ContractsAs l.TN_contract (lastPowOp k.axes ws p) ∧
      ∀ (mps : List (Tensor ℂ)) (v : QState N), HoldsState mps v → ∃ mps',
        (∀ s, (Op.single l).TN_operation svd mps s = (.ok mps', s)) ∧
        HoldsState mps' (lastPowOp k.axes ws p *ᵥ v) := by
  obtain ⟨h1, h2, h3⟩ := sLayer_last ⟨layerCls k, N, wires ws, p⟩ hN rfl ws rfl
    (fun i => seqRot k.axes (p.drop (k.axes.length * i))) (fun _ hi => wireMat_rep k hi hp)
  refine ⟨_, mkSLayer_any hw (by rw [layerCls_arity]; exact hp.symm), h1, h2, fun mps v hm => ?_⟩
  obtain ⟨mps', e, hm'⟩ := h3 mps v (holds_iff.1 hm)
  exact ⟨mps', fun s => by show TNM.lift _ s = _; rw [e]; rfl, holds_iff.2 hm'⟩

/-- C58 (exact behaviour) for the Hadamard layer: `U_expand` has one Hadamard on every listed wire, the
tensor-network paths one on every wire that is listed an odd number of times. -/
theorem C58_hadamard_layer (svd : SVDOracle) (hN : 0 < N) (ws : List (Fin N)) (hw : ws.length ≤ N) :
    let P : QOp N := onEach (fun j => if ws.count j % 2 = 1 then H else 1)
    ∃ l, mkSLayer .h N (wires ws) [] = .ok l ∧ Computes l.U_expand (hOp ws) ∧ ContractsAs l.TN_contract P ∧
      ∀ (mps : List (Tensor ℂ)) (v : QState N), HoldsState mps v → ∃ mps',
        (∀ s, (Op.single l).TN_operation svd mps s = (.ok mps', s)) ∧ HoldsState mps' (P *ᵥ v) := by
  intro P
  obtain ⟨h1, h2, h3⟩ := sLayer_last ⟨.h, N, wires ws, []⟩ hN rfl ws rfl (fun _ => H)
    (fun _ _ => ⟨_, rfl, hadamardMat_rep⟩)
  have eP : onEach (fun j => (if j ∈ ws then H else 1) ^ ws.count j) = P := by
    congr 1
    funext j
    by_cases hj : j ∈ ws
    · rw [if_pos hj]
      obtain ⟨q, hq | hq⟩ := Nat.even_or_odd' (ws.count j)
      · rw [hq, pow_mul, pow_two, H_sq, one_pow, if_neg (by omega)]
      · rw [hq, pow_succ, pow_mul, pow_two, H_sq, one_pow, one_mul, if_pos (by omega)]
    · rw [if_neg hj, one_pow, List.count_eq_zero_of_not_mem hj]
      rfl
  refine ⟨_, mkSLayer_any hw (by simp [LayerCls.arity]), h1, h2.congr eP, fun mps v hm => ?_⟩
  obtain ⟨mps', e, hm'⟩ := h3 mps v (holds_iff.1 hm)
  rw [eP] at hm'
  exact ⟨mps', fun s => by show TNM.lift _ s = _; rw [e]; rfl, holds_iff.2 hm'⟩

/-- C58 (partial: the wires are distinct): then all of these are the gates of the listed wires, one after the other.
Missing for the full statement: with repeated wires it is false (`C58_paths_differ`, `C58_block_lost`). -/
theorem C58_distinct_partial (axes : List Mat2) (ws : List (Fin N)) (hw : ws.Nodup) (p : List ℝ) :
    lastOp axes ws p = allOp axes ws p ∧ lastPowOp axes ws p = allOp axes ws p ∧
    layerOp axes ws p = allOp axes ws p := by
  have e1 : lastRot axes ws p = fun j => if j ∈ ws then seqRot axes (p.drop (axes.length * ws.idxOf j)) else 1 := by
    funext j
    unfold lastRot
    by_cases hj : j ∈ ws
    · rw [if_pos hj, if_pos hj, lastIdx_nodup hw hj]
    · rw [if_neg hj, if_neg hj]
  have e2 : allOp axes ws p = layerOp axes ws p := by
    have : ws.zipIdx.map (fun wi => onQubit wi.1 (seqRot axes (p.drop (axes.length * wi.2)))) =
        ws.map (fun w => onQubit w (seqRot axes (p.drop (axes.length * ws.idxOf w)))) := by
      apply List.ext_getElem
      · simp
      · intro i h1 h2
        simp only [List.length_map, List.length_zipIdx] at h1
        simp [hw.idxOf_getElem i h1]
    unfold allOp layerOp
    rw [this, timeOrdered_onQubit ws hw (fun w => seqRot axes (p.drop (axes.length * ws.idxOf w)))]
  rw [e2]
  refine ⟨by unfold lastOp layerOp; rw [e1], ?_, rfl⟩
  unfold lastPowOp layerOp
  congr 1
  funext j
  rw [e1]
  by_cases hj : j ∈ ws
  · rw [List.count_eq_one_of_mem hw hj, pow_one]
  · simp only [if_neg hj, one_pow]

theorem onQubit_ne_one (w : Fin N) {m : Mat2} {i j : Fin 2} (hij : i ≠ j) (h : m i j ≠ 0) : onQubit w m ≠ 1 := by
  intro e
  have := congrFun (congrFun e (Function.update (fun _ => 0) w i)) (Function.update (fun _ => 0) w j)
  rw [Matrix.one_apply, if_neg (fun e' => hij (by simpa using congrFun e' w))] at this
  refine h ?_
  have h2 : ∀ q, q ≠ w → Function.update (fun _ => 0 : Bits N) w i q = Function.update (fun _ => 0 : Bits N) w j q :=
    fun q hq => by rw [Function.update_of_ne hq, Function.update_of_ne hq]
  have h3 : onQubit w m (Function.update (fun _ => 0) w i) (Function.update (fun _ => 0) w j) = m i j := by
    simp only [onQubit, Function.update_self]
    rw [if_pos h2]
  rw [← h3, this]

/-- C58 is false: for every register of at least two qubits and every wire `w`, `HLayer(N,[w,w])` is a Hadamard for
`U_expand` but the identity for `TN_contract` and `TN_operation`. -/
theorem C58_paths_differ (svd : SVDOracle) (hN : 2 ≤ N) (w : Fin N) :
    ∃ l, mkSLayer .h N (wires [w, w]) [] = .ok l ∧ Computes l.U_expand (onQubit w H) ∧ onQubit w H ≠ 1 ∧
      ContractsAs l.TN_contract (1 : QOp N) ∧
      ∀ (mps : List (Tensor ℂ)) (v : QState N), HoldsState mps v → ∃ mps',
        (∀ s, (Op.single l).TN_operation svd mps s = (.ok mps', s)) ∧ HoldsState mps' v := by
  obtain ⟨l, e, h1, h2, h3⟩ := C58_hadamard_layer svd (by omega) [w, w] (by simpa using hN)
  have e1 : (onEach (fun j => if [w, w].count j % 2 = 1 then H else 1) : QOp N) = 1 := by
    rw [← onEach_one]
    congr 1
    funext j
    by_cases hj : j = w
    · subst hj; simp
    · rw [List.count_eq_zero_of_not_mem (by simp [hj])]; rfl
  have e2 : (hOp [w, w] : QOp N) = onQubit w H := by
    unfold hOp
    rw [← onEach_update_one]
    congr 1
    funext j
    by_cases hj : j = w
    · subst hj; simp
    · simp [hj]
  refine ⟨l, e, e2 ▸ h1, onQubit_ne_one w (i := 0) (j := 1) (by decide) (by simp [H]), h2.congr e1, fun mps v hm => ?_⟩
  obtain ⟨mps', em, hm'⟩ := h3 mps v hm
  rw [e1, Matrix.one_mulVec] at hm'
  exact ⟨mps', em, hm'⟩

/-- C58 is false: `XZLayer(N,[w,w],[π,0,0,0])` is the identity for every path, the first block of angles is lost. -/
theorem C58_block_lost (hN : 2 ≤ N) (w : Fin N) :
    ∃ l, mkSLayer .xz N (wires [w, w]) [Real.pi, 0, 0, 0] = .ok l ∧ Computes l.U_expand (1 : QOp N) ∧
      ContractsAs l.TN_contract (1 : QOp N) ∧
      allOp LayerKind.xz.axes [w, w] [Real.pi, 0, 0, 0] ≠ (1 : QOp N) := by
  obtain ⟨svd, -⟩ := exists_validSVD
  obtain ⟨l, e, h1, h2, -⟩ := C58_rotation_layers svd (by omega) .xz [w, w] (by simpa using hN)
    [Real.pi, 0, 0, 0] rfl
  have hr : ∀ P, rot P 0 = 1 := fun P => by simp [rot]
  have e1 : lastRot LayerKind.xz.axes [w, w] [Real.pi, 0, 0, 0] = fun _ => 1 := by
    funext j
    unfold lastRot
    by_cases hj : j = w
    · subst hj
      have : lastIdx [j, j] j = 1 := by simp [lastIdx]
      rw [if_pos (by simp), this]
      simp [LayerKind.axes, seqRot, hr]
    · rw [if_neg (by simp [hj])]
  have e0 : (lastOp LayerKind.xz.axes [w, w] [Real.pi, 0, 0, 0] : QOp N) = 1 := by
    unfold lastOp; rw [e1]; exact onEach_one
  refine ⟨l, e, e0 ▸ h1, h2.congr ?_, ?_⟩
  · unfold lastPowOp; rw [e1]; simp only [one_pow]; exact onEach_one
  · have : (allOp LayerKind.xz.axes [w, w] [Real.pi, 0, 0, 0] : QOp N) = onQubit w (rot X Real.pi) := by
      simp only [allOp, List.zipIdx_cons, List.zipIdx_nil, List.map_cons, List.map_nil, timeOrdered_cons,
        timeOrdered_nil, LayerKind.axes]
      simp [seqRot, hr, onQubit_one]
    rw [this]
    refine onQubit_ne_one w (i := 0) (j := 1) (by decide) ?_
    simp [rot, X]

/-- C58 for rings: on any list of two to `N` wires the constructor succeeds; if no CNOT of the ring has equal
control and target `U_expand` is the product of the CNOTs, otherwise it raises ValueError. -/
theorem C58_rings (ws : List (Fin N)) (h2 : 2 ≤ ws.length) (hw : ws.length ≤ N) :
    (∃ r, mkRing .ring N (wires ws) = .ok r ∧
      (RingDistinct 1 ws → Computes r.U_expand (ringOp 1 ws)) ∧
      (¬ RingDistinct 1 ws → r.U_expand = .error .valueError)) ∧
    (∃ r, mkRing .dagger N (wires ws) = .ok r ∧
      (RingDistinct 1 ws → Computes r.U_expand (ringDagOp ws)) ∧
      (¬ RingDistinct 1 ws → r.U_expand = .error .valueError)) ∧
    (∃ r, mkRing .ring2 N (wires ws) = .ok r ∧
      (RingDistinct 2 ws → Computes r.U_expand (ringOp 2 ws)) ∧
      (¬ RingDistinct 2 ws → r.U_expand = .error .valueError)) :=
  ⟨⟨_, mkRing_any hw h2, ring_any .ring ws h2⟩, ⟨_, mkRing_any hw h2, ring_any .dagger ws h2⟩,
    ⟨_, mkRing_any hw h2, ring_any .ring2 ws h2⟩⟩

/-- A wire listed three times, another one between. -/
example : ([2, 0, 2, 2] : List (Fin 4)).length ≤ 4 ∧ lastIdx ([2, 0, 2, 2] : List (Fin 4)) 2 = 3 ∧
    ([2, 0, 2, 2] : List (Fin 4)).count 2 = 3 ∧
    ([1, 2, 3, 4, 5, 6, 7, 8] : List ℝ).length =
      LayerKind.xz.axes.length * ([2, 0, 2, 2] : List (Fin 4)).length := by
  refine ⟨by decide, by decide, by decide, rfl⟩

/-- A ring that visits two wires twice without a CNOT on equal wires, and one with such a CNOT. -/
example : RingDistinct 1 ([0, 1, 0, 1] : List (Fin 4)) ∧ ¬ RingDistinct 1 ([0, 1, 1] : List (Fin 4)) ∧
    ¬ RingDistinct 2 ([0, 1, 0, 1] : List (Fin 4)) := by
  refine ⟨?_, ?_, ?_⟩ <;> (rw [ringDistinct_of_ne (by decide)]; decide)

end QTN.Props
