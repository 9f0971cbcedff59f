import Verif.Lemmas.Ghz
import Verif.Lemmas.Methods
import Verif.Model.TnTest
import Verif.Props.Paths
import Verif.Props.Qnn

/-! # Property C83: the script test_TN.py -/

namespace QTN.Props

open QTN QTN.Spec QTN.TnTest Matrix

variable {N : ℕ}

/-! ## The three ways -/

/-- The amplitudes of a tensor of shape `[1, 2^N]`. -/
noncomputable def rowState (N : ℕ) (t : Tensor ℂ) : QState N := fun a => t.get [0, enc a]

theorem rowState_eq {t : Tensor ℂ} {v : QState N} (h : IsRow t v) : rowState N t = v := funext h.2

theorem asTensor_near {svd : SVDOracle} (hv : ValidSVD svd) (hN : 0 < N) {psi : Tensor ℂ} {v : QState N}
    (hp : IsRow psi v) (hn : norm2 v ≤ 1) (hk : ((N - 1 : ℕ) : ℝ) * cutUnit N < norm2 v) (s : List (Tensor ℂ)) :
    ∃ T s' w, asTensor svd N psi s = (.ok T, s') ∧ IsTen T w ∧ dist2 w v ≤ ((N - 1 : ℕ) : ℝ) * cutUnit N := by
  obtain ⟨mps, s', e, w, hw, -, -, hd⟩ := near_start hv hN hp hn hk s
  obtain ⟨T, eT, rT⟩ := mps2ten_rep hw hN
  refine ⟨T, s', w, ?_, rT, hd⟩
  unfold asTensor
  rw [TNM.bind_ok e, eT]
  rfl

theorem byContraction_near {svd : SVDOracle} (hv : ValidSVD svd) (hN : 0 < N) {psi : Tensor ℂ} {v : QState N}
    (hp : IsRow psi v) (hn : norm2 v ≤ 1) (hk : ((N - 1 : ℕ) : ℝ) * cutUnit N < norm2 v) {c : Circuit} {M : QOp N}
    (hM : IsUnitaryOp M) (hf : ContractsAs c.TN_contract_evolution M) (s : List (Tensor ℂ)) :
    ∃ r s', byContraction svd N c psi s = (.ok r, s') ∧ r.shape = [1, 2 ^ N] ∧
      dist2 (rowState N r) (M *ᵥ v) ≤ ((N - 1 : ℕ) : ℝ) * cutUnit N := by
  obtain ⟨T, s', w, e, rT, hd⟩ := asTensor_near hv hN hp hn hk s
  obtain ⟨T', eT', rT'⟩ := hf.1 T w rT
  obtain ⟨r, er, rr⟩ := flatten_row rT'
  refine ⟨r, s', ?_, rr.1, ?_⟩
  · unfold byContraction
    rw [TNM.bind_ok e, eT', TNM.lift_ok_bind, er]
    rfl
  · rw [rowState_eq rr, dist2_unitary hM]
    exact hd

theorem bySites_near {svd : SVDOracle} (hv : ValidSVD svd) (hN : 0 < N) {l : List (Item N)} (h : ∀ it ∈ l, it.WF)
    (hc : ∀ it ∈ l, HasTN it) {psi : Tensor ℂ} {v : QState N} (hp : IsRow psi v) (hn : norm2 v ≤ 1)
    (ha : accuracy l < norm2 v) {ops : List Op} (ho : l.mapM buildItem = .ok ops) (s : List (Tensor ℂ)) :
    ∃ r s', bySites svd N (circ N ops) psi s = (.ok r, s') ∧ r.shape = [1, 2 ^ N] ∧
      dist2 (rowState N r) (circuitOp l *ᵥ v) ≤ accuracy l := by
  obtain ⟨ops', sv, ho', -, -, r, hr⟩ := C61_close hv hN l h hc psi v hp hn ha
  rw [ho] at ho'; cases ho'
  obtain ⟨sv', s', e, hsh, hd⟩ := hr s
  refine ⟨sv', s', ?_, hsh, ?_⟩
  · unfold mpsPath at e
    rw [circ_nqubits] at e
    exact e
  · have := rowState_eq r
    unfold rowState at this
    rw [this] at hd
    exact hd

theorem le_dist2 (v w : QState N) (a : Bits N) : ‖v a - w a‖ ≤ dist2 v w := by
  unfold dist2
  refine Real.le_sqrt_of_sq_le ?_
  exact Finset.single_le_sum (f := fun a => ‖v a - w a‖ ^ 2) (fun _ _ => by positivity) (Finset.mem_univ a)

/-- Rows closer than `1e-6` in norm are equal to the comparison that the script prints. -/
theorem close_of_dist {a b : Tensor ℂ} (ha : a.shape = [1, 2 ^ N])
    (h : dist2 (rowState N a) (rowState N b) < 1e-6) (x : ℕ) (hx : x < 2 ^ N) : close a b [0, x] := by
  obtain ⟨y, rfl⟩ := exists_enc hx
  unfold close Tensor.subT
  rw [Tensor.get_ofFn (by rw [ha]; simp [enc_lt])]
  exact lt_of_le_of_lt (le_dist2 (rowState N a) (rowState N b) y) h

/-! ## Evolution of 14 qubits -/

/-- The operations of `c1`: YZY layers with rings of CNOTs between them; block `r` of the weights belongs to the
`r`-th layer. -/
def tnItems (N : ℕ) (w : List ℝ) : List (Item N) :=
  let ws := List.finRange N
  [.layer .yzy ws (weightBlock N w 0), .ring ws, .layer .yzy ws (weightBlock N w 1), .ring ws,
   .layer .yzy ws (weightBlock N w 2), .ring ws, .layer .yzy ws (weightBlock N w 3), .ring ws,
   .layer .yzy ws (weightBlock N w 4), .ring ws, .layer .yzy ws (weightBlock N w 5), .ring ws,
   .layer .yzy ws (weightBlock N w 6)]

theorem tn_makes1 (N : ℕ) (w : List ℝ) : List.Forall₂ Makes (TnTest.calls1 N w) (tnItems N w) := by
  unfold TnTest.calls1 tnItems
  simp only [← wires_finRange]
  rw [slc_block (N := N) 0 (by omega) (by omega), slc_block (N := N) 1 (by omega) (by omega),
    slc_block (N := N) 2 (by omega) (by omega), slc_block (N := N) 3 (by omega) (by omega),
    slc_block (N := N) 4 (by omega) (by omega), slc_block (N := N) 5 (by omega) (by omega),
    slc_block (N := N) 6 (by omega) (by omega)]
  exact .cons rfl (.cons rfl (.cons rfl (.cons rfl (.cons rfl (.cons rfl (.cons rfl (.cons rfl (.cons rfl (.cons rfl
    (.cons rfl (.cons rfl (.cons rfl .nil))))))))))))

theorem tn_wf (hN : 2 ≤ N) {w : List ℝ} (hw : w.length = 21 * N) : ∀ it ∈ tnItems N w, it.WF ∧ HasTN it := by
  have hn := List.nodup_finRange N
  have h1 : ∀ r < 7, (Item.layer .yzy (List.finRange N) (weightBlock N w r)).WF ∧
      HasTN (Item.layer .yzy (List.finRange N) (weightBlock N w r)) := fun r hr =>
    ⟨⟨by omega, hn, by rw [weightBlock_length (n := 7) (by omega) hr]; simp [LayerKind.axes]⟩, trivial⟩
  have h2 : (Item.ring (List.finRange N)).WF ∧ HasTN (Item.ring (List.finRange N)) :=
    ⟨⟨hn, by simpa using hN⟩, rfl⟩
  unfold tnItems
  simp only [List.forall_mem_cons, List.not_mem_nil, false_imp_iff, implies_true, and_true]
  exact ⟨h1 0 (by omega), h2, h1 1 (by omega), h2, h1 2 (by omega), h2, h1 3 (by omega), h2, h1 4 (by omega), h2,
    h1 5 (by omega), h2, h1 6 (by omega)⟩

theorem tn_cuts (hN : 2 ≤ N) (w : List ℝ) : N - 1 + cuts (tnItems N w) ≤ 19 * N := by
  unfold cuts tnItems
  simp only [List.map_cons, List.map_nil, Item.decomps, List.sum_cons, List.sum_nil]
  split_ifs <;> omega

/-- The operations of `c2`. -/
def tnItems2 (N : ℕ) (w : List ℝ) : List (Item N) :=
  [.basic (List.finRange N) (slc w 0 (18 * N)) 6, .layer .yzy (List.finRange N) (weightBlock N w 6)]

theorem tn_makes2 (N : ℕ) (w : List ℝ) : List.Forall₂ Makes (TnTest.calls2 N w) (tnItems2 N w) := by
  unfold TnTest.calls2 tnItems2
  simp only [← wires_finRange]
  rw [show slc w (18 * N) (21 * N) = weightBlock N w 6 from slc_block (N := N) 6 (by omega) (by omega)]
  exact .cons rfl (.cons rfl .nil)

theorem tn_wf2 (hN : 2 ≤ N) {w : List ℝ} (hw : w.length = 21 * N) : ∀ it ∈ tnItems2 N w, it.WF := by
  have hn := List.nodup_finRange N
  unfold tnItems2
  simp only [List.forall_mem_cons, List.not_mem_nil, false_imp_iff, implies_true, and_true]
  exact ⟨⟨hn, by simpa using hN, by omega, by simp [slc, hw]; omega⟩,
    by omega, hn, by rw [weightBlock_length (n := 7) (by omega) (by omega)]; simp [LayerKind.axes]⟩

theorem tn_same (N : ℕ) (w : List ℝ) : circuitOp (tnItems2 N w) = circuitOp (tnItems N w) := by
  have hb : ∀ r < 6, layerOp [Spec.Y, Spec.Z, Spec.Y] (List.finRange N)
      ((slc w 0 (18 * N)).drop (r * (3 * (List.finRange N).length))) =
      layerOp [Spec.Y, Spec.Z, Spec.Y] (List.finRange N) (weightBlock N w r) := by
    intro r hr
    have h1 : 3 * N * r ≤ 15 * N := by
      calc 3 * N * r ≤ 3 * N * 5 := Nat.mul_le_mul_left _ (by omega)
        _ = 15 * N := by ring
    rw [← layerOp_take, List.length_finRange]
    congr 1
    unfold slc weightBlock
    rw [List.drop_zero, mul_comm r, List.drop_take, List.take_take]
    congr 1
    simp only [List.length_cons, List.length_nil]
    omega
  unfold circuitOp tnItems tnItems2
  simp only [List.map_cons, List.map_nil, timeOrdered_cons, timeOrdered_nil, Item.op, basicOp, List.range_succ,
    List.range_zero, List.nil_append, List.cons_append, LayerKind.axes, one_mul]
  have hb1 := hb 1 (by omega)
  rw [one_mul] at hb1
  rw [hb 0 (by omega), hb1, hb 2 (by omega), hb 3 (by omega), hb 4 (by omega), hb 5 (by omega)]
  simp only [mul_assoc]

/-- C83, the 14 qubits: for every number of qubits from 2 on, all weights and every state of norm one, the script
builds both circuits, and the two states that it prints differ from the exact final state by no more than the number
of truncations times the cut-off (times the root of the largest bond dimension). -/
theorem C83_evolution {svd : SVDOracle} (hv : ValidSVD svd) (hN : 2 ≤ N) (w : List ℝ) (hw : w.length = 21 * N)
    (psi : Tensor ℂ) (v : QState N) (hp : IsRow psi v) (hn : norm2 v = 1)
    (ha : (19 * N : ℝ) * (1e-8 * Real.sqrt (2 ^ (N / 2))) < 1) (s : List (Tensor ℂ)) :
    ∃ TN1 TN2 s', block1 svd N w psi s = (.ok (TN1, TN2), s') ∧ TN1.shape = [1, 2 ^ N] ∧ TN2.shape = [1, 2 ^ N] ∧
      dist2 (rowState N TN1) (circuitOp (tnItems N w) *ᵥ v) ≤ (19 * N : ℝ) * (1e-8 * Real.sqrt (2 ^ (N / 2))) ∧
      dist2 (rowState N TN2) (circuitOp (tnItems N w) *ᵥ v) ≤
        ((N - 1 : ℕ) : ℝ) * (1e-8 * Real.sqrt (2 ^ (N / 2))) := by
  have hwf := tn_wf hN hw
  obtain ⟨ops, ho, -, hf⟩ := circuit_contract (tnItems N w) (fun it h => (hwf it h).1)
    fun it h => contractible_of_hasTN (hwf it h).2
  obtain ⟨ops2, ho2, -⟩ := C13_items N _ (tn_wf2 hN hw)
  have hcut : accuracy (tnItems N w) ≤ (19 * N : ℝ) * (1e-8 * Real.sqrt (2 ^ (N / 2))) := by
    rw [accuracy_eq]
    refine (cut_mono (tn_cuts hN w)).trans (le_of_eq ?_)
    push_cast
    rfl
  obtain ⟨r1, s1, e1, h1, d1⟩ := bySites_near hv (by omega) (fun it h => (hwf it h).1) (fun it h => (hwf it h).2) hp
    hn.le (by rw [hn]; exact lt_of_le_of_lt hcut ha) ho s
  have hu : IsUnitaryOp (circuitOp (tnItems N w)) := by
    refine timeOrdered_unitary fun u hu => ?_
    obtain ⟨it, hit, rfl⟩ := List.mem_map.1 hu
    exact item_unitary it (hwf it hit).1
  obtain ⟨r2, s2, e2, h2, d2⟩ := byContraction_near hv (by omega) hp hn.le (by
    rw [hn]
    refine lt_of_le_of_lt ?_ ha
    refine (cut_mono (b := 19 * N) (by omega)).trans (le_of_eq ?_)
    push_cast; rfl) hu hf s1
  refine ⟨r1, r2, s2, ?_, h1, h2, d1.trans hcut, d2⟩
  unfold block1
  rw [methods_ok (tn_makes1 N w) ho, TNM.lift_ok_bind, methods_ok (tn_makes2 N w) ho2, TNM.lift_ok_bind,
    TNM.bind_ok e1, TNM.bind_ok e2]
  rfl

/-- C83, the commented-out comparison: the circuit with the `BasicEntangleLayer` computes the same as the circuit
with single layers and rings. -/
theorem C83_same_circuit (hN : 2 ≤ N) (w : List ℝ) (hw : w.length = 21 * N) (psi : Tensor ℂ) (v : QState N)
    (hp : IsRow psi v) :
    ∃ c1 c2 r, methods N (TnTest.calls1 N w) = .ok c1 ∧ methods N (TnTest.calls2 N w) = .ok c2 ∧
      byMatrix c1 psi = .ok r ∧ byMatrix c2 psi = .ok r ∧ IsRow r (circuitOp (tnItems N w) *ᵥ v) := by
  obtain ⟨ops, ho, hU, -⟩ := C13_items N _ fun it h => (tn_wf hN hw it h).1
  obtain ⟨ops2, ho2, hU2, -⟩ := C13_items N _ (tn_wf2 hN hw)
  rw [tn_same] at hU2
  obtain ⟨r, e, hr⟩ := applyRow_rep hU hp
  obtain ⟨r2, e2, hr2⟩ := applyRow_rep hU2 hp
  cases hr.ext hr2
  exact ⟨_, _, r, methods_ok (tn_makes1 N w) ho, methods_ok (tn_makes2 N w) ho2, e, e2, hr⟩

/-- C83 for the 14 qubits of the script: the state printed as TN1 is within `3.1e-5` of the exact one, that printed as
TN2 within `1.5e-6`. -/
theorem C83_fourteen {svd : SVDOracle} (hv : ValidSVD svd) (w : List ℝ) (hw : w.length = 294)
    (psi : Tensor ℂ) (v : QState 14) (hp : IsRow psi v) (hn : norm2 v = 1) (s : List (Tensor ℂ)) :
    ∃ TN1 TN2 s', block1 svd 14 w psi s = (.ok (TN1, TN2), s') ∧
      dist2 (rowState 14 TN1) (circuitOp (tnItems 14 w) *ᵥ v) ≤ 3.1e-5 ∧
      dist2 (rowState 14 TN2) (circuitOp (tnItems 14 w) *ᵥ v) ≤ 1.5e-6 := by
  have hs : Real.sqrt (2 ^ (14 / 2)) ≤ 11.4 := by
    rw [Real.sqrt_le_left (by norm_num)]; norm_num
  have hb : (19 * (14 : ℕ) : ℝ) * (1e-8 * Real.sqrt (2 ^ (14 / 2))) ≤ 3.1e-5 := by push_cast; linarith
  have hb' : ((14 - 1 : ℕ) : ℝ) * (1e-8 * Real.sqrt (2 ^ (14 / 2))) ≤ 1.5e-6 := by push_cast; linarith
  obtain ⟨a, b, s', e, -, -, d1, d2⟩ := C83_evolution hv (by omega) w hw psi v hp hn (lt_of_le_of_lt hb (by norm_num)) s
  exact ⟨a, b, s', e, d1.trans hb, d2.trans hb'⟩

/-- An entangled state and weights to which `C83_fourteen`, `C83_evolution` and `C83_same_circuit` apply. -/
example : ∃ svd, ValidSVD svd ∧ ∃ (psi : Tensor ℂ) (v : QState 14), IsRow psi v ∧ norm2 v = 1 ∧
    psi.get [0, 0] = 3 / 5 ∧ (List.replicate 294 (1 : ℝ)).length = 294 ∧
    (19 * (14 : ℕ) : ℝ) * (1e-8 * Real.sqrt (2 ^ (14 / 2))) < 1 ∧
    ∃ TN1 TN2 s', block1 svd 14 (List.replicate 294 1) psi [] = (.ok (TN1, TN2), s') := by
  obtain ⟨svd, hv⟩ := exists_validSVD
  obtain ⟨psi, v, hp, hn, h0, -⟩ := ghz_row (N := 14) (by omega)
  obtain ⟨a, b, s', e, -⟩ := C83_fourteen hv (List.replicate 294 1) (List.length_replicate ..) psi v hp hn []
  refine ⟨svd, hv, psi, v, hp, hn, h0, List.length_replicate .., ?_, a, b, s', e⟩
  have hs : Real.sqrt (2 ^ (14 / 2)) ≤ 11.4 := by
    rw [Real.sqrt_le_left (by norm_num)]; norm_num
  push_cast
  linarith

/-! ## All gates and layers -/

/-- The operations of the first circuit of the block, on 8 qubits. -/
noncomputable def gateItems8 : List (Item 8) :=
  [.gate (.h 0), .gate (.h 1), .gate (.h 2), .gate (.h 3), .gate (.h 4), .gate (.h 5), .gate (.h 6), .gate (.h 7),
   .gate (.x 3), .gate (.y 5), .gate (.z 7), .gate (.rx 0.5 0), .gate (.cz 2 1), .gate (.ry 0.1 6),
   .gate (.toffoli 4 2 7), .gate (.rz 0.8 4), .gate (.cnot 0 1), .gate (.toffoli 1 5 7), .gate (.swap 3 7),
   .gate (.cnot 7 0), .gate (.cnot 4 6), .gate (.cnot 7 2), .gate (.toffoli 0 1 2)]

/-- The operations of the second circuit, on 4 qubits. -/
noncomputable def gateItems4 : List (Item 4) :=
  [.gate (.h 0), .gate (.h 1), .gate (.h 2), .gate (.h 3), .gate (.x 0), .gate (.y 1), .gate (.cphase 1.2 2 0),
   .gate (.z 2), .gate (.rx 0.5 0), .gate (.cz 2 1), .gate (.ry 0.1 2), .gate (.swap 1 2),
   .gate (.cu3 0.18 0.54 1.5 0 1), .gate (.toffoli 1 2 0), .gate (.rz 0.8 1), .gate (.cnot 0 1), .gate (.u1 0.1 1),
   .gate (.cu3 0.18 0.54 1.5 2 0), .gate (.cz 0 2), .gate (.toffoli 1 0 2), .gate (.cnot 2 0), .gate (.u1 0.381 2),
   .gate (.cnot 1 2), .gate (.cphase 0.49 0 1), .gate (.u3 0.188 0 3.1 0), .gate (.cnot 0 2),
   .gate (.toffoli 0 2 1), .ring (List.finRange 4), .layer .yzy [0] [0.1, 0.2, 0.1], .layer .xzx [1] [0.1, 0.2, 0.1],
   .layer .xyz [2] [0.1, 0.2, 0.1], .layer .zyx [0, 3] [0.21, 0.45, 0.98, 1, 2, 7], .gate (.cz 2 0),
   .gate (.u1 0.5 2), .gate (.swap 0 1), .gate (.cphase 1.2 1 0), .gate (.swap 0 2), .gate (.cz 0 1),
   .gate (.cnot 2 0), .gate (.swap 3 1)]

theorem makes8 : List.Forall₂ Makes (calls3 8) gateItems8 := by
  unfold gateItems8
  repeat' first | exact List.Forall₂.nil | refine List.Forall₂.cons rfl ?_

theorem makes4 : List.Forall₂ Makes (calls4 4) gateItems4 := by
  unfold gateItems4
  repeat' first | exact List.Forall₂.nil | refine List.Forall₂.cons rfl ?_

theorem wf8 : ∀ it ∈ gateItems8, it.WF := by
  unfold gateItems8
  simp only [List.forall_mem_cons, List.not_mem_nil, false_imp_iff, implies_true, and_true]
  refine ⟨?_, ?_, ?_, ?_, ?_, ?_, ?_, ?_, ?_, ?_, ?_, ?_, ?_, ?_, ?_, ?_, ?_, ?_, ?_, ?_, ?_, ?_, ?_⟩ <;>
    simp [Item.WF, Instr.WF]

theorem wf4 : ∀ it ∈ gateItems4, it.WF ∧ HasTN it := by
  unfold gateItems4
  simp only [List.forall_mem_cons, List.not_mem_nil, false_imp_iff, implies_true, and_true]
  simp [Item.WF, Instr.WF, HasTN, LayerKind.axes, List.nodup_finRange]

theorem cuts4 : 4 - 1 + cuts gateItems4 = 53 := by
  unfold gateItems4
  simp only [cuts_cons, Item.decomps, Instr.decomps]
  rfl

theorem row_view_row {t : Tensor ℂ} (h : t.shape = [1, 2 ^ N]) :
    ∃ t', t.view [1, -1] = .ok t' ∧ IsRow t' (rowState N t) := by
  have hn : t.numel = 2 ^ N := by simp [Tensor.numel, h]
  refine ⟨t.reshapeN [1, 2 ^ N], Tensor.view_neg_last _ 1 (2 ^ N) (by simp [hn]) (by simp), rfl, fun a => ?_⟩
  rw [Tensor.reshapeN_get_eq (idx' := [0, enc a]) (by simp [enc_lt]) (by rw [h]; simp [enc_lt])
    (by rw [h])]
  rfl

theorem circuit_u {l : List (Item N)} (h : ∀ it ∈ l, it.WF) : IsUnitaryOp (circuitOp l) := by
  refine timeOrdered_unitary fun u hu => ?_
  obtain ⟨it, hit, rfl⟩ := List.mem_map.1 hu
  exact item_unitary it (h it hit)

/-- C83, the gates: for every state of norm one the script builds both circuits, `psif0` is the exact final state,
`psif1` differs from it by no more than `1.1e-6` in norm, `psif2` by no more than `6e-8`, and every entry of the
printed comparison of `psif2` with `psif0` is True. -/
theorem C83_gates {svd : SVDOracle} (hv : ValidSVD svd) (psi : Tensor ℂ) (v : QState 4) (hp : IsRow psi v)
    (hn : norm2 v = 1) (s : List (Tensor ℂ)) :
    ∃ psif0 psif1 psif2 s', block2 svd 8 4 psi s = (.ok (psif0, psif1, psif2), s') ∧
      IsRow psif0 (circuitOp gateItems4 *ᵥ v) ∧ psif1.shape = [1, 16] ∧ psif2.shape = [1, 16] ∧
      dist2 (rowState 4 psif1) (circuitOp gateItems4 *ᵥ v) ≤ 1.1e-6 ∧
      dist2 (rowState 4 psif2) (circuitOp gateItems4 *ᵥ v) ≤ 6e-8 ∧
      ∀ x < 16, close psif2 psif0 [0, x] := by
  have hs : Real.sqrt (2 ^ (4 / 2)) = 2 := by
    rw [show (2 : ℝ) ^ (4 / 2) = 2 ^ 2 by norm_num, Real.sqrt_sq (by norm_num)]
  have hc : cutUnit 4 = 2e-8 := by
    unfold cutUnit
    rw [hs]; norm_num
  have hacc : accuracy gateItems4 ≤ 1.1e-6 := by
    rw [accuracy_eq, cuts4, hc]; norm_num
  have hk : ((4 - 1 : ℕ) : ℝ) * cutUnit 4 = 6e-8 := by rw [hc]; norm_num
  obtain ⟨ops8, ho8, -⟩ := C13_items 8 _ wf8
  obtain ⟨ops, ho, hU, hf⟩ := circuit_contract gateItems4 (fun it h => (wf4 it h).1)
    fun it h => contractible_of_hasTN (wf4 it h).2
  obtain ⟨r0, e0, h0⟩ := applyRow_rep hU hp
  obtain ⟨r1, s1, e1, h1, d1⟩ := bySites_near hv (by omega) (fun it h => (wf4 it h).1) (fun it h => (wf4 it h).2) hp
    hn.le (by rw [hn]; exact lt_of_le_of_lt hacc (by norm_num)) ho s
  obtain ⟨r1', e1', h1'⟩ := row_view_row h1
  obtain ⟨r2, s2, e2, h2, d2⟩ := byContraction_near hv (by omega) hp hn.le (by rw [hn, hk]; norm_num)
    (circuit_u fun it h => (wf4 it h).1) hf s1
  rw [hk] at d2
  refine ⟨r0, r1', r2, s2, ?_, h0, h1'.1, h2, ?_, d2, ?_⟩
  · unfold block2
    have e0' : byMatrix (circ 4 ops) psi = .ok r0 := e0
    rw [methods_ok makes8 ho8, TNM.lift_ok_bind, methods_ok makes4 ho, TNM.lift_ok_bind, e0', TNM.lift_ok_bind,
      TNM.bind_ok e1, e1', TNM.lift_ok_bind, TNM.bind_ok e2]
    rfl
  · rw [rowState_eq h1']; exact d1.trans hacc
  · intro x hx
    refine close_of_dist (N := 4) h2 ?_ x hx
    rw [rowState_eq h0]
    exact lt_of_le_of_lt d2 (by norm_num)

/-- An entangled state to which `C83_gates` applies. -/
example : ∃ svd, ValidSVD svd ∧ ∃ (psi : Tensor ℂ) (v : QState 4), IsRow psi v ∧ norm2 v = 1 ∧
    psi.get [0, 0] = 3 / 5 ∧ psi.get [0, 15] = 4 / 5 ∧ ∃ r s', block2 svd 8 4 psi [] = (.ok r, s') ∧
      close r.2.2 r.1 [0, 7] := by
  obtain ⟨svd, hv⟩ := exists_validSVD
  obtain ⟨psi, v, hp, hn, h0, h1⟩ := ghz_row (N := 4) (by omega)
  obtain ⟨a, b, c, s', e, -, -, -, -, -, hc⟩ := C83_gates hv psi v hp hn []
  exact ⟨svd, hv, psi, v, hp, hn, h0, h1, _, s', e, hc 7 (by omega)⟩

/-! ## Batches -/

theorem catFirst_batch {T B : Tensor ℂ} {w : QState N} {n : ℕ} (hT : IsBatch T 1 (fun _ => w))
    (hB : IsBatch B n (fun _ => w)) : ∃ C, catFirst B T = .ok C ∧ IsBatch C (n + 1) (fun _ => w) := by
  unfold catFirst
  rw [hB.1, hT.1]
  refine ⟨_, if_pos rfl, rfl, fun k a => ?_⟩
  rw [Tensor.get_ofFn (by have := k.2; simp [inB_bl]; omega)]
  dsimp only
  split_ifs with hk
  · exact hB.2 ⟨k, hk⟩ a
  · have : (k : ℕ) - n = 0 := by omega
    rw [this]
    exact hT.2 0 a

theorem stack_batch {T : Tensor ℂ} {w : QState N} (hT : IsTen T w) (n : ℕ) :
    ∃ B C, T.unsqueeze 0 = .ok B ∧ Tensor.catList catFirst (List.replicate (n + 1) B) = .ok C ∧
      IsBatch C (n + 1) (fun _ => w) := by
  obtain ⟨B, eB, sB, gB⟩ := Tensor.unsqueeze_at (t := T) [] (List.replicate N 2) hT.1
  have hB : IsBatch B 1 (fun _ => w) := by
    refine ⟨sB, fun k a => ?_⟩
    have := gB [] (bl a) rfl (inB_bl a)
    rw [Fin.val_eq_zero k]
    exact this.trans (hT.2 a)
  have key : ∀ (m k : ℕ) (D : Tensor ℂ), IsBatch D k (fun _ => w) →
      ∃ C, (List.replicate m B).foldlM catFirst D = .ok C ∧ IsBatch C (k + m) (fun _ => w) := by
    intro m
    induction m with
    | zero => exact fun k D hD => ⟨D, rfl, hD⟩
    | succ m ih =>
      intro k D hD
      obtain ⟨E, eE, hE⟩ := catFirst_batch hB hD
      obtain ⟨C, eC, hC⟩ := ih (k + 1) E hE
      refine ⟨C, ?_, by rwa [show k + (m + 1) = k + 1 + m by omega]⟩
      rw [List.replicate_succ, List.foldlM_cons, eE]
      exact eC
  obtain ⟨C, eC, hC⟩ := key n 1 B hB
  exact ⟨B, C, eB, eC, by rwa [show n + 1 = 1 + n by omega]⟩

theorem batch_view {B : Tensor ℂ} {n : ℕ} {w : Fin (n + 1) → QState N} (h : IsBatch B (n + 1) w) :
    ∃ r, B.view [((n + 1 : ℕ) : ℤ), 1, -1] = .ok r ∧ r.shape = [n + 1, 1, 2 ^ N] ∧
      ∀ (k : Fin (n + 1)) a, r.get [(k : ℕ), 0, enc a] = w k a := by
  have hn : B.numel = (n + 1) * 2 ^ N := by simp [Tensor.numel, h.1]
  have e3 : (n + 1) * 2 ^ N % (n + 1) = 0 := Nat.mul_mod_right _ _
  have e4 : (n + 1) * 2 ^ N / (n + 1) = 2 ^ N := Nat.mul_div_cancel_left _ (by omega)
  have e0 : ¬ (((n + 1 : ℕ) : ℤ) = -1) := by omega
  have hi : Tensor.inferShape ((n + 1) * 2 ^ N) [((n + 1 : ℕ) : ℤ), 1, -1] = .ok [n + 1, 1, 2 ^ N] := by
    have e1 : ([((n + 1 : ℕ) : ℤ), 1, -1]).filter (· ≠ -1) = [((n + 1 : ℕ) : ℤ), 1] := by
      rw [List.filter_cons_of_pos (by simpa using e0)]; rfl
    have e2 : ([((n + 1 : ℕ) : ℤ), 1, -1]).count (-1) = 1 := by
      rw [List.count_cons_of_ne (by omega)]; rfl
    unfold Tensor.inferShape
    simp only [e1, e2]
    have e5 : List.map Int.toNat [((n + 1 : ℕ) : ℤ), 1] = [n + 1, 1] := by simp
    simp only [e5, List.prod_cons, List.prod_nil, mul_one, e3, e4]
    rw [if_neg (by simp; omega), if_neg (by omega), if_pos trivial]
    simp only [List.map_cons, List.map_nil, if_neg e0, if_pos]
    simp
  refine ⟨B.reshapeN [n + 1, 1, 2 ^ N], ?_, rfl, fun k a => ?_⟩
  · unfold Tensor.view
    rw [hn, hi, Py.ok_bind]
  · rw [Tensor.reshapeN_get_eq (idx' := (k : ℕ) :: bl a) (by have := k.2; simp [enc_lt]; omega)
      (by have := k.2; rw [h.1]; simp [inB_bl]; omega)
      (by rw [h.1]; simp [ravel, ← enc_eq_ravel])]
    exact h.2 k a

/-- The operations of the circuit of the last block. -/
noncomputable def batchItems (p1 p2 : List ℝ) : List (Item 4) :=
  let ws := List.finRange 4
  [.gate (.h 0), .gate (.h 1), .gate (.h 2), .gate (.h 3), .gate (.x 0), .gate (.y 1), .gate (.z 2),
   .gate (.u1 0.09 1), .gate (.u1 0.12 0), .gate (.rx 0.124 2), .gate (.ry 5.048 1), .gate (.rz 1.523 3), .ring ws,
   .gate (.u3 0.128 0.00 3.1 0), .gate (.u3 0.972 0.54 2.1 3), .gate (.rxx 0.65 0 1), .gate (.ryy 0.15 0 2),
   .gate (.rzz 3.02 3 1), .gate (.cnot 0 1), .gate (.cnot 1 2), .gate (.cnot 2 3), .gate (.cnot 3 0),
   .gate (.cnot 3 1), .gate (.cz 0 3), .gate (.cz 3 1), .gate (.cz 0 1), .gate (.cphase 1.2 2 0), .gate (.swap 0 2),
   .gate (.swap 1 3), .gate (.cu3 0.128 0.00 3.1 3 1), .gate (.cu3 2.128 0.10 0.1 2 3), .gate (.toffoli 1 0 2),
   .gate (.toffoli 3 2 0), .layer .zx ws p2, .ring ws, .layer .xz ws p2, .ring ws, .layer .yzy ws p1, .ring ws,
   .layer .xyz ws p1, .ring ws, .layer .xzx ws p1, .layer .zyx ws p1]

theorem makes5 (p1 p2 : List ℝ) : List.Forall₂ Makes (calls5 4 p1 p2) (batchItems p1 p2) := by
  unfold batchItems
  repeat' first | exact List.Forall₂.nil | refine List.Forall₂.cons rfl ?_

theorem wf5 {p1 p2 : List ℝ} (h1 : p1.length = 12) (h2 : p2.length = 8) :
    ∀ it ∈ batchItems p1 p2, it.WF ∧ Contractible it := by
  unfold batchItems
  simp only [List.forall_mem_cons, List.not_mem_nil, false_imp_iff, implies_true, and_true]
  simp [Item.WF, Instr.WF, Contractible, LayerKind.axes, List.nodup_finRange, h1, h2]

/-- C83, the batches: for every state of norm one, all parameters and every batch size, `psif0` is the exact final
state, `psif1` and every row of `psif2` hold one and the same state, which differs from it by no more than `6e-8` in
norm, and every entry of the printed comparisons is True. -/
theorem C83_batch {svd : SVDOracle} (hv : ValidSVD svd) (n : ℕ) (p1 p2 : List ℝ) (hl1 : p1.length = 12)
    (hl2 : p2.length = 8) (psi : Tensor ℂ) (v : QState 4) (hp : IsRow psi v) (hn : norm2 v = 1) (s : List (Tensor ℂ)) :
    ∃ psif0 psif1 psif2 s', block3 svd 4 (n + 1) p1 p2 psi s = (.ok (psif0, psif1, psif2), s') ∧
      IsRow psif0 (circuitOp (batchItems p1 p2) *ᵥ v) ∧ psif1.shape = [1, 16] ∧ psif2.shape = [n + 1, 1, 16] ∧
      dist2 (rowState 4 psif1) (circuitOp (batchItems p1 p2) *ᵥ v) ≤ 6e-8 ∧
      (∀ x < 16, close psif0 psif1 [0, x]) ∧
      ∀ k < n + 1, psif2.select0 (k : ℕ) = .ok psif1 := by
  have hs : Real.sqrt (2 ^ (4 / 2)) = 2 := by
    rw [show (2 : ℝ) ^ (4 / 2) = 2 ^ 2 by norm_num, Real.sqrt_sq (by norm_num)]
  have hc : cutUnit 4 = 2e-8 := by
    unfold cutUnit
    rw [hs]; norm_num
  have hk : ((4 - 1 : ℕ) : ℝ) * cutUnit 4 = 6e-8 := by rw [hc]; norm_num
  obtain ⟨ops, ho, hU, hf⟩ := circuit_contract (batchItems p1 p2) (fun it h => (wf5 hl1 hl2 it h).1)
    fun it h => (wf5 hl1 hl2 it h).2
  obtain ⟨r0, e0, h0⟩ := applyRow_rep hU hp
  obtain ⟨T, s1, w, eT, hT, d⟩ := asTensor_near hv (by omega) hp hn.le (by rw [hn, hk]; norm_num) s
  rw [hk] at d
  obtain ⟨B, C, eB, eC, hC⟩ := stack_batch hT n
  obtain ⟨T', eT', hT'⟩ := hf.1 T w hT
  obtain ⟨C', eC', hC'⟩ := hf.2 C (n + 1) _ hC
  obtain ⟨r1, e1, h1⟩ := flatten_row hT'
  obtain ⟨r2, e2, s2, g2⟩ := batch_view hC'
  have d1 : dist2 (circuitOp (batchItems p1 p2) *ᵥ w) (circuitOp (batchItems p1 p2) *ᵥ v) ≤ 6e-8 := by
    rw [dist2_unitary (circuit_u fun it h => (wf5 hl1 hl2 it h).1)]
    exact d
  refine ⟨r0, r1, r2, s1, ?_, h0, h1.1, s2, ?_, ?_, ?_⟩
  · unfold block3
    have e0' : byMatrix (circ 4 ops) psi = .ok r0 := e0
    rw [TNM.bind_ok eT, eB, TNM.lift_ok_bind, eC, TNM.lift_ok_bind, methods_ok (makes5 p1 p2) ho, TNM.lift_ok_bind,
      eT', TNM.lift_ok_bind, eC', TNM.lift_ok_bind, e1, TNM.lift_ok_bind, e2, TNM.lift_ok_bind, e0', TNM.lift_ok_bind]
    rfl
  · rw [rowState_eq h1]; exact d1
  · intro x hx
    refine close_of_dist (N := 4) h0.1 ?_ x hx
    rw [rowState_eq h0, rowState_eq h1, dist2_comm]
    exact lt_of_le_of_lt d1 (by norm_num)
  · intro k hk
    obtain ⟨t, et, st, gt⟩ := Tensor.select0_ok s2 hk
    rw [et]
    congr 1
    refine IsRow.ext (v := circuitOp (batchItems p1 p2) *ᵥ w) ⟨st, fun a => ?_⟩ h1
    rw [gt _ (by simpa using enc_lt a)]
    exact g2 ⟨k, hk⟩ a

/-- An entangled state, parameters and the batch of two of the script, to which `C83_batch` applies. -/
example : ∃ svd, ValidSVD svd ∧ ∃ (psi : Tensor ℂ) (v : QState 4), IsRow psi v ∧ norm2 v = 1 ∧
    psi.get [0, 0] = 3 / 5 ∧ psi.get [0, 15] = 4 / 5 ∧
    ∃ r s', block3 svd 4 2 [1, 2, 3, 4, 5, 6, 7, 8, 9, 10, 11, 12] [1, 2, 3, 4, 5, 6, 7, 8] psi [] = (.ok r, s') ∧
      close r.1 r.2.1 [0, 7] ∧ r.2.2.select0 1 = .ok r.2.1 := by
  obtain ⟨svd, hv⟩ := exists_validSVD
  obtain ⟨psi, v, hp, hn, h0, h1⟩ := ghz_row (N := 4) (by omega)
  obtain ⟨a, b, c, s', e, -, -, -, -, hc, hk⟩ := C83_batch hv 1 [1, 2, 3, 4, 5, 6, 7, 8, 9, 10, 11, 12]
    [1, 2, 3, 4, 5, 6, 7, 8] rfl rfl psi v hp hn []
  exact ⟨svd, hv, psi, v, hp, hn, h0, h1, _, s', e, hc 7 (by omega), hk 1 (by omega)⟩

end QTN.Props
