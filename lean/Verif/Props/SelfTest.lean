import Verif.Lemmas.Lipschitz
import Verif.Model.SelfTest
import Verif.Props.Accuracy
import Verif.Props.Fit
import Verif.Props.Grad
import Verif.Props.Hybrid
import Verif.Props.LegacyMeasure
import Verif.Props.Measure
import Verif.Props.MpsInner
import Verif.Props.QLayer
import Verif.Props.Schmidt
import Verif.Props.Script
import Verif.Props.TnTest

/-! # Property C102: what the self-tests at the end of the modules print -/

namespace QTN.Props

open QTN QTN.Spec Matrix

variable {N : ℕ}

/-- C102, qgate.py: the self-test prints `[[1.]]`. -/
theorem C102_qgate : ∃ m, SelfTest.qgate = .ok m ∧ m.shape = [1, 1] ∧ m.get [0, 0] = 1 := by
  obtain ⟨m, e, hs, hg⟩ := C55_measure_partial (N := 1) (Tensor.ofRows [[1, 0], [0, 0]]) rfl
  refine ⟨m, e, hs, (hg 0).trans ?_⟩
  have p0 : ∀ b : Fin 2, prob (diagProbs 1 (Tensor.ofRows [[1, 0], [0, 0]])) 0 b = if b = 0 then 1 else 0 := by
    intro b
    unfold prob
    rw [Finset.sum_eq_single (fun _ => b)]
    · fin_cases b <;> simp [diagProbs, enc, Tensor.ofRows, Tensor.ofFn]
    · intro c hc hne
      exact absurd (funext fun i => by rw [Fin.fin_one_eq_zero i]; exact (Finset.mem_filter.1 hc).2) hne
    · simp
  rw [p0, p0]
  simp

/-- C102, qlayer.py: the self-test raises TypeError. -/
theorem C102_qlayer : SelfTest.qlayer = .error .typeError :=
  (C57_rotation_raises 2 [1, 1, 1, 1, 1, 1]).1.trans (by simp)

/-- C102, qstate.py: the self-test prints the state `|1⟩` and its density matrix. -/
theorem C102_qstate : ∃ v rho, SelfTest.qstate = .ok (v, rho) ∧ v.shape = [2] ∧ v.get [0] = 0 ∧ v.get [1] = 1 ∧
    Represents2 rho !![0, 0; 0, 1] := by
  obtain ⟨t, e, hs, hg⟩ := prepareRho_ok [0, 1]
  refine ⟨PrepareState [0, 1], t, ?_, rfl, Tensor.get_ofFn (by decide),
    Tensor.get_ofFn (by decide), hs, fun a b => ?_⟩
  · unfold SelfTest.qstate
    rw [e]
    rfl
  · rw [hg a b a.2 b.2]
    fin_cases a <;> fin_cases b <;> simp

/-- The operations of the circuit of the self-test of qcircuit.py. -/
noncomputable def selfItems (p : List ℝ) : List (Item 3) :=
  [.gate (.cphase 1.234 1 2), .hlayer [0, 1], .gate (.x 0), .gate (.cnot 1 0), .gate (.rx (Real.pi / 5.0) 1),
   .basic [0, 1, 2] p 1, .gate (.swap 0 2)]

theorem self_makes (p : List ℝ) : List.Forall₂ Makes (SelfTest.calls p) (selfItems p) := by
  unfold selfItems SelfTest.calls
  repeat' first | exact List.Forall₂.nil | refine List.Forall₂.cons rfl ?_

theorem self_wf {p : List ℝ} (hp : p.length = 9) : ∀ it ∈ selfItems p, it.WF := by
  unfold selfItems
  simp only [List.forall_mem_cons, List.not_mem_nil, false_imp_iff, implies_true, and_true]
  simp [Item.WF, Instr.WF, hp]

theorem self_observable : ∃ M, SelfTest.observable 3 = .ok M ∧ Represents M (onQubit (0 : Fin 3) Z) := by
  obtain ⟨M, e, hM⟩ := multi_kron_rep' (N := 3) (by omega)
    (Function.update (fun _ => Tensor.eye 2) 0 (mkPauliZ (-1) (.int (-1))).matrix) (Function.update (fun _ => 1) 0 Z)
    (rep2_update (fun _ => represents2_eye) 0 pauliZMat_rep)
  rw [onEach_update_one] at hM
  exact ⟨M, e, hM⟩

/-- The value of `cir_params` at each of the seven positions. -/
noncomputable def selfParams (p : List ℝ) : List (Option PV) :=
  [some (.scalar 1.234), none, none, none, some (.scalar (Real.pi / 5.0)), some (.vec p), none]

theorem circ_params (ops : List Op) (k : ℕ) :
    (circ N ops).cir_params k = ops[k]?.map (fun o => if o.numParams ≠ 0 then some o.params else none) := by
  induction ops using List.reverseRecOn with
  | nil => rfl
  | append_singleton ops o ih =>
    have e : circ N (ops ++ [o]) = (circ N ops).add o := by simp [circ]
    have hg := circ_gate N ops
    rw [e]
    unfold Circuit.add
    by_cases ho : o.numParams ≠ 0
    · rw [if_pos ho, hg]
      dsimp only
      by_cases hk : k = ops.length
      · subst hk
        simp [ho]
      · rw [Function.update_of_ne (by simpa using hk), ih]
        rcases lt_or_gt_of_ne hk with h | h
        · rw [List.getElem?_append_left h]
        · rw [List.getElem?_eq_none h.le, List.getElem?_eq_none (by simp; omega)]
    · rw [if_neg ho, hg]
      dsimp only
      by_cases hk : k = ops.length
      · subst hk
        simp at ho
        simp [ho]
      · rw [Function.update_of_ne (by simpa using hk), ih]
        rcases lt_or_gt_of_ne hk with h | h
        · rw [List.getElem?_append_left h]
        · rw [List.getElem?_eq_none h.le, List.getElem?_eq_none (by simp; omega)]

theorem self_params {p : List ℝ} (hp : p.length = 9) {ops : List Op} (ho : (selfItems p).mapM buildItem = .ok ops) :
    (circ 3 ops).cir_params = fun k => (selfParams p)[k]? := by
  have eb : buildItem (.basic ([0, 1, 2] : List (Fin 3)) p 1) = .ok (.basic (basicObj 3 [0, 1, 2] p false 1)) := by
    simp only [buildItem]
    rw [mkBasic_ok (by decide) (by decide) (by decide) hp]
    rfl
  have eh : buildItem (.hlayer ([0, 1] : List (Fin 3))) = .ok (.single ⟨.h, 3, [0, 1], []⟩) := rfl
  unfold selfItems at ho
  simp only [List.mapM_cons, List.mapM_nil, eb, eh] at ho
  simp only [buildItem, build, Py.ok_bind] at ho
  cases ho
  have h9 : (basicObj 3 ([0, 1, 2] : List (Fin 3)) p false 1).numParams = 9 := hp
  funext k
  rw [circ_params]
  match k with
  | 0 => rfl
  | 1 => rfl
  | 2 => rfl
  | 3 => rfl
  | 4 => rfl
  | 5 =>
    have : ((Op.basic (basicObj 3 ([0, 1, 2] : List (Fin 3)) p false 1)).numParams ≠ 0) := by
      rw [show (Op.basic (basicObj 3 ([0, 1, 2] : List (Fin 3)) p false 1)).numParams = 9 from h9]; decide
    exact congrArg some (if_pos this)
  | 6 => rfl
  | k + 7 => rfl

/-- C102, qcircuit.py: for every draw of nine numbers the self-test runs to the end.  It prints the labels of the seven
operations, the unitary of the circuit, its parameters, and the gradient, whose eleven entries are exactly the partial
derivatives of the expectation of Z on qubit 0 in the final state. -/
theorem C102_qcircuit (svd : SVDOracle) (p : List ℝ) (hp : p.length = 9) (s : List (Tensor ℂ)) :
    ∃ out s', SelfTest.qcircuit svd p s = (.ok out, s') ∧
      out.labels = ["cphase", "HadamardLayer", "PauliX", "cnot", "Rx", "BasicEntangleLayer", "SWAP"] ∧
      Represents out.U (circuitOp (selfItems p)) ∧
      (∀ k, out.params k = (selfParams p)[k]?) ∧ out.grad.length = 11 ∧
      ∀ j < 11, IsPartial (onQubit 0 Z) (ket0 3) (selfItems p) j (out.grad.getD j 0) := by
  have hw := self_wf hp
  obtain ⟨M, eM, rM⟩ := self_observable
  obtain ⟨init, ei, ri⟩ := psi0_row 3
  obtain ⟨ops, ho, g, s', eg, hl, hg⟩ := C40_gradient_matrix_partial svd (selfItems p) hw (.basic [0, 1, 2] p 1)
    (by simp [selfItems]) trivial init M (ket0 3) ri _ rM s
  obtain ⟨ops', ho', ⟨U, eU, rU⟩, -⟩ := C13_items 3 _ hw
  obtain rfl : ops' = ops := by rw [ho] at ho'; cases ho'; rfl
  have hl' : g.length = 11 := by
    rw [hl]
    simp [allParams, selfItems, Item.params, Instr.params, hp]
  obtain ⟨K, eK, -⟩ := multi_kron_rep' (N := 3) (by omega) (fun _ => Tensor.eye 2) (fun _ => 1) (fun _ => represents2_eye)
  have einit : (circ 3 ops').state_init.view [1, -1] = .ok init := by
    have : (circ 3 ops').state_init = (Circuit.new 3).state_init := by
      unfold Circuit.state_init
      rw [circ_nqubits]
      rfl
    rw [this]
    exact ei
  have eK' : multi_kron (pyRep (Tensor.eye 2) 3) = .ok K := eK
  refine ⟨⟨_, U, (circ 3 ops').cir_params, g⟩, s', ?_, rfl, rU, congrFun (self_params hp ho), hl', fun j hj =>
    hg j (by omega) fun it hit => ?_⟩
  · unfold SelfTest.qcircuit
    have h7 := methods_ok (self_makes p) ho
    have h7' : methods 3 (SelfTest.calls p) = .ok (circ 3 ops') := h7
    rw [h7', TNM.lift_ok_bind, labels_ok hw ho, TNM.lift_ok_bind, eU, TNM.lift_ok_bind, eK', TNM.lift_ok_bind, circ_nqubits,
      eM, TNM.lift_ok_bind, einit, TNM.lift_ok_bind]
    exact TNM.bind_ok (s' := s') (a := g) (by dsimp only; rw [eg]) _
  · intro hc
    have := ownerOf_mem _ _ _ hit
    simp only [selfItems, List.mem_cons, List.not_mem_nil, or_false] at this
    rcases this with rfl | rfl | rfl | rfl | rfl | rfl | rfl <;> exact hc

/-- Nine numbers to which `C102_qcircuit` applies. -/
example (svd : SVDOracle) : ∃ out s', SelfTest.qcircuit svd [1, 2, 3, 4, 5, 6, 7, 8, 9] [] = (.ok out, s') ∧
    out.params 5 = some (some (.vec [1, 2, 3, 4, 5, 6, 7, 8, 9])) := by
  obtain ⟨out, s', e, -, -, h, -⟩ := C102_qcircuit svd [1, 2, 3, 4, 5, 6, 7, 8, 9] rfl []
  exact ⟨out, s', e, h 5⟩

/-- C102, qoperator.py: the self-test prints the matrix of the NOT on qubit 3 of six controlled by the qubits 0, 1 and 2,
and what `info()` says about it. -/
theorem C102_qoperator : ∃ U, SelfTest.qoperator = .ok (U, ⟨"3_control_cnot", [.int 0, .int 1, .int 2], [.int 3], none⟩) ∧
    Represents U (controlled [0, 1, 2] (3 : Fin 6) X) := by
  have hw : (Item.gate (.mcnot [0, 1, 2] 3) : Item 6).WF := by simp [Item.WF, Instr.WF]
  obtain ⟨o, i, ho, hi, -, U, eU, rU⟩ := C80_info (N := 6) (.gate (.mcnot [0, 1, 2] 3)) hw
  obtain ⟨g, eg, ho⟩ := py_bind_ok ho
  cases ho
  refine ⟨U, ?_, rU⟩
  have eg' : mkMcnot 6 (.list [0, 1, 2, 3]) = .ok g := eg
  have eU' : g.U_expand = .ok U := eU
  have ei : g.info = .ok ⟨"3_control_cnot", [.int 0, .int 1, .int 2], [.int 3], none⟩ := by
    cases eg
    rfl
  unfold SelfTest.qoperator
  rw [eg', Py.ok_bind, eU', Py.ok_bind, ei]
  rfl

/-- C102, qlayers.py: for every state of norm one the matrix of the CNOT ring is applied exactly, and the state computed
with the sites is within the accuracy of the decompositions. -/
theorem C102_qlayers {svd : SVDOracle} (hv : ValidSVD svd) (hN : 2 ≤ N) (psi : Tensor ℂ) (v : QState N) (hp : IsRow psi v)
    (hn : norm2 v = 1) (ha : accuracy [Item.ring (List.finRange N)] < 1) (s : List (Tensor ℂ)) :
    ∃ psif psi1 s', SelfTest.qlayers svd N psi s = (.ok (psif, psi1), s') ∧
      IsRow psif (ringOp 1 (List.finRange N) *ᵥ v) ∧ psi1.shape = [1, 2 ^ N] ∧
      dist2 (rowState N psi1) (ringOp 1 (List.finRange N) *ᵥ v) ≤ accuracy [Item.ring (List.finRange N)] := by
  have hw : (Item.ring (List.finRange N)).WF := ⟨List.nodup_finRange N, by simpa using hN⟩
  obtain ⟨o, hb⟩ : ∃ o, buildItem (Item.ring (List.finRange N)) = .ok o := by
    simp only [buildItem, mkRing_ok hw.1 hw.2]
    exact ⟨_, rfl⟩
  have ho : o = .ring ⟨.ring, N, wires (List.finRange N)⟩ := by
    simp only [buildItem, mkRing_ok hw.1 hw.2] at hb
    cases hb; rfl
  obtain ⟨U, eU, rU⟩ := ring_rep .ring (List.finRange N) hw.1 hw.2
  have hacc : accuracy [Item.ring (List.finRange N)] =
      ((N - 1 + (Item.ring (List.finRange N)).decomps : ℕ) : ℝ) * cutUnit N := by
    rw [accuracy_eq, cuts_cons]; rfl
  have hk : ((N - 1 : ℕ) : ℝ) * cutUnit N ≤ accuracy [Item.ring (List.finRange N)] := by
    rw [hacc]
    exact mul_le_mul_of_nonneg_right (by push_cast; linarith [Nat.cast_nonneg (α := ℝ) (Item.ring (List.finRange N)).decomps])
      (cutUnit_nonneg N)
  obtain ⟨mps, s1, e1, h1⟩ := near_start hv (by omega) hp hn.le (by rw [hn]; exact hk.trans_lt ha) s
  obtain ⟨mps2, s2, e2, w, h2, -, -, hd⟩ := near_step hv hw rfl hb h1 (by rw [hn, ← hacc]; exact ha) s1
  obtain ⟨sv, es, rs⟩ := mps2sv_rep h2 (by omega)
  obtain ⟨t1, et1, st1, gt1⟩ := permute_swap hp.1
  have c1 : IsCol t1 v := ⟨st1, fun a => by rw [gt1 _ _ (by omega) (enc_lt a), hp.2]⟩
  obtain ⟨t2, et2, c2⟩ := rU.mulCol c1
  obtain ⟨t3, et3, st3, gt3⟩ := permute_swap c2.1
  refine ⟨t3, sv, s2, ?_, ⟨st3, fun a => by rw [gt3 _ _ (enc_lt a) (by omega), c2.2]; rfl⟩, rs.1, ?_⟩
  · subst ho
    unfold SelfTest.qlayers
    have em : mkRing .ring N (pyRange N) = .ok ⟨.ring, N, wires (List.finRange N)⟩ := by
      rw [← mkRing_ok hw.1 hw.2, wires_finRange]
    have eU' : (Op.ring ⟨.ring, N, wires (List.finRange N)⟩).U_expand = .ok U := eU
    rw [em, TNM.lift_ok_bind, eU', TNM.lift_ok_bind, et1, TNM.lift_ok_bind, et2, TNM.lift_ok_bind, et3, TNM.lift_ok_bind,
      TNM.bind_ok e1, TNM.bind_ok e2, es, TNM.lift_ok_bind, QTN.row_view_row rs, TNM.lift_ok_bind]
    rfl
  · rw [rowState_eq rs, hacc]
    exact hd

/-- The state the self-test of qlayers.py starts from. -/
theorem self_start : ∃ psi, SelfTest.startState 4 = .ok psi ∧
    IsRow psi (((2 / Real.sqrt 5 : ℝ) : ℂ) • Pi.single (0 : Bits 4) (1 : ℂ) + ((1 / Real.sqrt 5 : ℝ) : ℂ) • Pi.single 1 1) := by
  have hg : ∀ k < 16, (Tensor.ofFn [1, 2 ^ 4] (fun idx : List ℕ =>
      if idx.getD 1 0 = 2 ^ 4 - 1 then (0.5 : ℂ) else if idx.getD 1 0 = 0 then 1 else 0)).get [0, k] =
      if k = 15 then 0.5 else if k = 0 then 1 else 0 := by
    intro k hk
    rw [Tensor.get_ofFn (by simp [inB]; omega)]
    simp
  have hs : Real.sqrt (∑ j ∈ Finset.range (2 ^ 4), ‖(Tensor.ofFn [1, 2 ^ 4] (fun idx : List ℕ =>
      if idx.getD 1 0 = 2 ^ 4 - 1 then (0.5 : ℂ) else if idx.getD 1 0 = 0 then 1 else 0)).get [0, j]‖ ^ 2) =
      Real.sqrt 5 / 2 := by
    rw [Finset.sum_congr rfl (fun j hj => by rw [hg j (by simpa using hj)]),
      Real.sqrt_eq_iff_mul_self_eq (by positivity) (by positivity)]
    have h5 := Real.mul_self_sqrt (show (0 : ℝ) ≤ 5 by norm_num)
    simp only [Finset.sum_range_succ, Nat.reducePow, Finset.range_zero, Finset.sum_empty]
    norm_num
    linarith
  have h5 : (1 : ℝ) ≤ Real.sqrt 5 / 2 := by
    have : (2 : ℝ) ≤ Real.sqrt 5 := Real.le_sqrt_of_sq_le (by norm_num)
    linarith
  refine ⟨_, rfl, rfl, fun a => ?_⟩
  have h16 : enc a < 16 := enc_lt a
  rw [Tensor.get_ofFn (by simp [inB]; omega)]
  simp only [List.getD_cons_zero, Pi.add_apply, Pi.smul_apply, smul_eq_mul]
  rw [hs, max_eq_left (by linarith), hg _ h16]
  have e0 : enc (0 : Bits 4) = 0 := by decide
  have e1 : enc (1 : Bits 4) = 15 := by decide
  have hne : (Real.sqrt 5 : ℂ) ≠ 0 := by
    rw [Complex.ofReal_ne_zero]; positivity
  by_cases h0 : a = 0
  · subst h0
    rw [e0, Pi.single_eq_same, Pi.single_eq_of_ne (by decide)]
    push_cast
    field_simp
    simp
  · by_cases h1 : a = 1
    · subst h1
      rw [e1, Pi.single_eq_same, Pi.single_eq_of_ne (by decide)]
      push_cast
      field_simp
      norm_num
    · rw [if_neg (fun h => h1 (enc_injective (h.trans e1.symm))), if_neg (fun h => h0 (enc_injective (h.trans e0.symm))),
        Pi.single_eq_of_ne h0, Pi.single_eq_of_ne h1]
      simp

theorem ring4_accuracy : accuracy [Item.ring (List.finRange 4)] = 2.2e-7 := by
  have hs : Real.sqrt (2 ^ (4 / 2)) = 2 := by
    rw [show (2 : ℝ) ^ (4 / 2) = 2 ^ 2 by norm_num, Real.sqrt_sq (by norm_num)]
  rw [accuracy_eq, cuts_cons]
  unfold cutUnit
  rw [hs]
  simp [Item.decomps, cuts]
  norm_num

/-- C102, qlayers.py: started from `2|0000⟩ + |1111⟩` divided by its norm the self-test prints `2|0000⟩ + |1010⟩` divided
by its norm, exactly with the matrix and up to `2.2e-7` with the sites. -/
theorem C102_qlayers_script {svd : SVDOracle} (hv : ValidSVD svd) (s : List (Tensor ℂ)) :
    ∃ psi psif psi1 s', SelfTest.startState 4 = .ok psi ∧ SelfTest.qlayers svd 4 psi s = (.ok (psif, psi1), s') ∧
      IsRow psif (((2 / Real.sqrt 5 : ℝ) : ℂ) • Pi.single (0 : Bits 4) (1 : ℂ) +
        ((1 / Real.sqrt 5 : ℝ) : ℂ) • Pi.single ![1, 0, 1, 0] 1) ∧
      dist2 (rowState 4 psi1) (((2 / Real.sqrt 5 : ℝ) : ℂ) • Pi.single (0 : Bits 4) (1 : ℂ) +
        ((1 / Real.sqrt 5 : ℝ) : ℂ) • Pi.single ![1, 0, 1, 0] 1) ≤ 2.2e-7 := by
  obtain ⟨psi, e, hp⟩ := self_start
  have hn : norm2 (((2 / Real.sqrt 5 : ℝ) : ℂ) • Pi.single (0 : Bits 4) (1 : ℂ) +
      ((1 / Real.sqrt 5 : ℝ) : ℂ) • Pi.single (1 : Bits 4) (1 : ℂ)) = 1 := by
    unfold norm2
    rw [Real.sqrt_eq_one, ← Finset.add_sum_erase _ _ (Finset.mem_univ (0 : Bits 4)),
      ← Finset.add_sum_erase _ _ (show (1 : Bits 4) ∈ Finset.univ.erase 0 by decide), Finset.sum_eq_zero]
    · have h5 := Real.sq_sqrt (show (0 : ℝ) ≤ 5 by norm_num)
      have : (1 : Bits 4) ≠ 0 := by decide
      simp [Pi.single_eq_of_ne this, Pi.single_eq_of_ne this.symm, div_pow, h5]
      norm_num
    · intro a ha
      simp only [Finset.mem_erase, Finset.mem_univ, and_true] at ha
      simp [Pi.single_eq_of_ne ha.1, Pi.single_eq_of_ne ha.2]
  obtain ⟨psif, psi1, s', e2, h1, -, h2⟩ := C102_qlayers hv (by omega) psi _ hp hn (by rw [ring4_accuracy]; norm_num) s
  have hr : ringOp 1 (List.finRange 4) *ᵥ (((2 / Real.sqrt 5 : ℝ) : ℂ) • Pi.single (0 : Bits 4) (1 : ℂ) +
      ((1 / Real.sqrt 5 : ℝ) : ℂ) • Pi.single (1 : Bits 4) (1 : ℂ)) = ((2 / Real.sqrt 5 : ℝ) : ℂ) • Pi.single (0 : Bits 4) (1 : ℂ) +
        ((1 / Real.sqrt 5 : ℝ) : ℂ) • Pi.single ![1, 0, 1, 0] 1 := by
    rw [Matrix.mulVec_add, Matrix.mulVec_smul, Matrix.mulVec_smul, C98_ring (by omega) 0 0 (by decide),
      C98_ring (by omega) 1 ![1, 0, 1, 0] (by decide)]
  rw [hr] at h1 h2
  exact ⟨psi, psif, psi1, s', e, e2, h1, by rwa [ring4_accuracy] at h2⟩

/-! ## The inner product -/

/-- The vector of a row divided by its norm. -/
noncomputable def unitRow (N : ℕ) (r : Tensor ℂ) : QState N := fun a => r.get [0, enc a] / ((norm2 (rowState N r) : ℝ) : ℂ)

theorem unitRow_norm {r : Tensor ℂ} (hn : 1e-12 ≤ norm2 (rowState N r)) : norm2 (unitRow N r) = 1 := by
  have h0 : 0 < norm2 (rowState N r) := lt_of_lt_of_le (by norm_num) hn
  have e : unitRow N r = ((norm2 (rowState N r) : ℝ) : ℂ)⁻¹ • rowState N r := by
    funext a
    simp [unitRow, rowState, div_eq_inv_mul]
  rw [e, norm2_smul, norm_inv, Complex.norm_real, Real.norm_of_nonneg h0.le, inv_mul_cancel₀ h0.ne']

theorem normalize_row {r : Tensor ℂ} (hs : r.shape = [1, 2 ^ N]) (hn : 1e-12 ≤ norm2 (rowState N r)) :
    ∃ t, SelfTest.normalize r = .ok t ∧ IsRow t (unitRow N r) := by
  have hsum : Real.sqrt (∑ j ∈ Finset.range (2 ^ N), ‖r.get [0, j]‖ ^ 2) = norm2 (rowState N r) := by
    rw [sum_enc N (fun j => ‖r.get [0, j]‖ ^ 2)]
    rfl
  unfold SelfTest.normalize
  rw [hs]
  refine ⟨_, rfl, rfl, fun a => ?_⟩
  rw [Tensor.get_ofFn (by simp [inB, enc_lt])]
  simp only [List.getD_cons_zero]
  rw [hsum, max_eq_left hn]
  rfl

theorem bond_rank {mps : List (Tensor ℂ)} {v : QState N} (h : HoldsState mps v) {i : ℕ} (hi : i < N) :
    0 < bond mps i ∧ schmidtRank v i ≤ bond mps i := by
  obtain ⟨hl, D, h0, h1, hp, hs, ha⟩ := h
  have e : bond mps i = D i := by
    simp [bond, List.getD_eq_getElem?_getD, List.getElem?_eq_getElem (show i < mps.length by omega), hs i (by omega)]
  rw [e]
  exact ⟨hp i, C85_lower_bound ⟨hl, D, h0, h1, hp, hs, ha⟩ hs hi⟩

/-- C102, qtensornetwork.py: for two rows whose norms are not tiny the self-test prints the inner product of the
normalised vectors.  What it computes with the sites is within twice the accuracy of the conversion of it, or raises;
it raises only if one of the two vectors is, up to this accuracy, a product across some cut. -/
theorem C102_qtensornetwork {svd : SVDOracle} (hv : ValidSVD svd) (hN : 2 ≤ N) (r1 r2 : Tensor ℂ)
    (h1 : r1.shape = [1, 2 ^ N]) (h2 : r2.shape = [1, 2 ^ N]) (n1 : 1e-12 ≤ norm2 (rowState N r1))
    (n2 : 1e-12 ≤ norm2 (rowState N r2)) (ha : ((N - 1 : ℕ) : ℝ) * (1e-8 * Real.sqrt (2 ^ (N / 2))) < 1)
    (s : List (Tensor ℂ)) :
    ∃ direct sites s', SelfTest.qtensornetwork svd N r1 r2 s = (.ok (direct, sites), s') ∧
      direct.get [] = ∑ a, star (unitRow N r2 a) * unitRow N r1 a ∧
      (∀ t, sites = .ok t → t.shape = [] ∧
        ‖t.get [] - direct.get []‖ ≤ 2 * (((N - 1 : ℕ) : ℝ) * (1e-8 * Real.sqrt (2 ^ (N / 2))))) ∧
      (Raises sites → ∃ k, 0 < k ∧ k < N ∧ ∃ u : QState N, schmidtRank u k ≤ 1 ∧
        (dist2 u (unitRow N r1) ≤ ((N - 1 : ℕ) : ℝ) * (1e-8 * Real.sqrt (2 ^ (N / 2))) ∨
         dist2 u (unitRow N r2) ≤ ((N - 1 : ℕ) : ℝ) * (1e-8 * Real.sqrt (2 ^ (N / 2))))) := by
  obtain ⟨p1, e1, q1⟩ := normalize_row h1 n1
  obtain ⟨p2, e2, q2⟩ := normalize_row h2 n2
  have u1 := unitRow_norm n1
  have u2 := unitRow_norm n2
  obtain ⟨t1, et1, st1, gt1⟩ := permute_swap q1.1
  have c1 : IsCol t1 (unitRow N r1) := ⟨st1, fun a => by rw [gt1 _ _ (by omega) (enc_lt a), q1.2]⟩
  have sc : p2.conj.shape = [1, 2 ^ N] := q2.1
  obtain ⟨d, ed, sd⟩ : ∃ d, p2.conj.matmul t1 = .ok d ∧ d.shape = [1, 1] := ⟨_, Tensor.matmul2 sc c1.1, rfl⟩
  have hdir : d.squeeze.get [] = ip (unitRow N r2) (unitRow N r1) := by
    rw [squeeze11 sd, Tensor.matmul2_get sc c1.1 ed (by omega) (by omega), sum_enc]
    refine Finset.sum_congr rfl fun a _ => ?_
    rw [c1.2, ← q2.2 a]
    congr 1
    exact Tensor.get_ofFn (by rw [q2.1]; simp [inB, enc_lt])
  obtain ⟨m1, s1, em1, w1, a1, -, b1, d1⟩ := near_start hv (by omega) q1 u1.le (by rw [u1]; exact ha) s
  obtain ⟨m2, s2, em2, w2, a2, -, b2, d2⟩ := near_start hv (by omega) q2 u2.le (by rw [u2]; exact ha) s1
  have hk := holds_iff.2 a1
  have hb := holds_iff.2 a2
  refine ⟨d.squeeze, MPS_inner_product m1 m2, s2, ?_, hdir, fun t ht => ?_, ?_⟩
  · unfold SelfTest.qtensornetwork
    rw [e1, TNM.lift_ok_bind, e2, TNM.lift_ok_bind, et1, TNM.lift_ok_bind, ed, TNM.lift_ok_bind, TNM.bind_ok em1,
      TNM.bind_ok em2]
    rfl
  · have hbd := ((C30_returns_iff (by omega) m1 m2 w1 w2 hk hb).1 ⟨t, ht⟩).2
    obtain ⟨t', et', st', gt'⟩ := C30_inner_product_partial hN m1 m2 w1 w2 hk hb
      (fun i h0 hi => by have := (hbd i h0 hi).1; have := (bond_rank hk hi).1; omega)
      (fun i h0 hi => by have := (hbd i h0 hi).2; have := (bond_rank hb hi).1; omega)
    rw [ht] at et'
    cases et'
    refine ⟨st', ?_⟩
    rw [gt', hdir]
    have := ip_diff (b := unitRow N r2) (b' := w2) (f := unitRow N r1) (f' := w1) (contr_norm a2 b2) u1.le
    refine this.trans ?_
    unfold cutUnit at d1 d2
    linarith
  · rintro ⟨e, he⟩
    have hno : ¬ ∃ t, MPS_inner_product m1 m2 = .ok t := by
      rintro ⟨t, ht⟩
      rw [ht] at he
      cases he
    rw [C30_returns_iff (by omega) m1 m2 w1 w2 hk hb] at hno
    push Not at hno
    obtain ⟨k, h0, hkN, hk1⟩ := hno hN
    by_cases hb1 : bond m1 k = 1
    · exact ⟨k, h0, hkN, w1, hb1 ▸ (bond_rank hk hkN).2, .inl d1⟩
    · exact ⟨k, h0, hkN, w2, hk1 hb1 ▸ (bond_rank hb hkN).2, .inr d2⟩

/-- C102, qtensornetwork.py with the twelve qubits of the script: the two printed numbers differ by no more than
`1.8e-6`. -/
theorem C102_twelve {svd : SVDOracle} (hv : ValidSVD svd) (r1 r2 : Tensor ℂ)
    (h1 : r1.shape = [1, 2 ^ 12]) (h2 : r2.shape = [1, 2 ^ 12]) (n1 : 1e-12 ≤ norm2 (rowState 12 r1))
    (n2 : 1e-12 ≤ norm2 (rowState 12 r2)) (s : List (Tensor ℂ)) :
    ∃ direct sites s', SelfTest.qtensornetwork svd 12 r1 r2 s = (.ok (direct, sites), s') ∧
      direct.get [] = ∑ a, star (unitRow 12 r2 a) * unitRow 12 r1 a ∧
      ∀ t, sites = .ok t → ‖t.get [] - direct.get []‖ ≤ 1.8e-6 := by
  have hs : Real.sqrt (2 ^ (12 / 2)) = 8 := by
    rw [show (2 : ℝ) ^ (12 / 2) = 8 ^ 2 by norm_num, Real.sqrt_sq (by norm_num)]
  obtain ⟨d, t, s', e, hd, ht, -⟩ := C102_qtensornetwork hv (by omega) r1 r2 h1 h2 n1 n2 (by rw [hs]; norm_num) s
  exact ⟨d, t, s', e, hd, fun t' h => (ht t' h).2.trans (by rw [hs]; norm_num)⟩

/-- Two entangled states to which `C102_qtensornetwork` and `C102_twelve` apply. -/
example : ∃ svd, ValidSVD svd ∧ ∃ psi : Tensor ℂ, psi.shape = [1, 2 ^ 12] ∧ 1e-12 ≤ norm2 (rowState 12 psi) ∧
    psi.get [0, 0] = 3 / 5 ∧ ∃ r s', SelfTest.qtensornetwork svd 12 psi psi [] = (.ok r, s') := by
  obtain ⟨svd, hv⟩ := exists_validSVD
  obtain ⟨psi, v, hp, hn, h0, -⟩ := ghz_row (N := 12) (by omega)
  have h1 : 1e-12 ≤ norm2 (rowState 12 psi) := by
    rw [rowState_eq hp, hn]; norm_num
  obtain ⟨d, t, s', e, -⟩ := C102_twelve hv psi psi hp.1 hp.1 h1 h1 []
  exact ⟨svd, hv, psi, hp.1, h1, h0, _, s', e⟩

/-! ## Measurements -/

/-- C102, qmath.py: for a matrix with non-negative entries whose trace is not zero, and every vector, the self-test prints
for each qubit the difference of the probabilities of 0 and 1 of the matrix divided by its trace, a number between -1
and 1, and then the same difference for the vector as it was drawn, which is not divided by its norm. -/
theorem C102_qmath (hN : 0 < N) (rm state1 : Tensor ℂ) (x : ℕ → ℝ) (hr : rm.shape = [2 ^ N, 2 ^ N])
    (hx : ∀ i < 2 ^ N, rm.get [i, i] = (x i : ℂ)) (h0 : ∀ i, 0 ≤ x i) (hpos : 0 < ∑ a : Bits N, x (enc a))
    (hs : state1.shape = [2 ^ N]) :
    ∃ value value', SelfTest.qmath N rm state1 = .ok (value, value') ∧
      value = List.ofFn (fun i : Fin N => (prob (fun a => x (enc a)) i 0 - prob (fun a => x (enc a)) i 1) / ∑ a : Bits N, x (enc a)) ∧
      (∀ y ∈ value, y ∈ Set.Icc (-1) 1) ∧
      value' = List.ofFn (fun i : Fin N => prob (fun a => ‖state1.get [enc a]‖ ^ 2) i 0 -
        prob (fun a => ‖state1.get [enc a]‖ ^ 2) i 1) := by
  set T : ℝ := ∑ a : Bits N, x (enc a) with hT
  have htr : rm.trace = .ok (T : ℂ) := by
    unfold Tensor.trace
    rw [hr]
    simp only [min_self]
    rw [sum_enc N (fun i => rm.get [i, i])]
    congr 1
    rw [hT]
    push_cast
    exact Finset.sum_congr rfl fun a _ => hx _ (enc_lt a)
  have hg : ∀ a : Bits N, (Tensor.smul (1 / (T : ℂ)) rm).get [enc a, enc a] = ((x (enc a) / T : ℝ) : ℂ) := by
    intro a
    rw [Tensor.smul_get, hx _ (enc_lt a)]
    push_cast
    ring
  have p1 : HasProbs (Tensor.smul (1 / (T : ℂ)) rm) (fun a : Bits N => x (enc a) / T) := by
    refine .inr ⟨fun i j => (Tensor.smul (1 / (T : ℂ)) rm).get [i, j], ⟨hr, fun _ _ _ _ => rfl⟩, ?_, fun a => ?_⟩
    · simp only [hg]
      rw [← Complex.ofReal_sum, ← Finset.sum_div, ← hT, div_self hpos.ne']
      norm_num
    · dsimp only
      rw [hg, Complex.ofReal_re]
  have p2 : HasProbs state1 (fun a : Bits N => ‖state1.get [enc a]‖ ^ 2) :=
    .inl ⟨fun i => state1.get [i], .inl ⟨hs, fun _ _ => rfl⟩, fun a => rfl⟩
  have e1 := (C36_measure_partial hN _ _ p1).1
  have e2 := (C36_measure_partial hN _ _ p2).1
  have hprob : ∀ i b, prob (fun a : Bits N => x (enc a) / T) i b = prob (fun a => x (enc a)) i b / T := by
    intro i b
    unfold prob
    rw [Finset.sum_div]
  refine ⟨List.ofFn fun i => prob (fun a : Bits N => x (enc a) / T) i 0 - prob (fun a => x (enc a) / T) i 1, _,
    ?_, ?_, ?_, rfl⟩
  · unfold SelfTest.qmath
    rw [htr, Py.ok_bind]
    dsimp only
    rw [e1, Py.ok_bind, e2, Py.ok_bind]
  · congr 1
    funext i
    rw [hprob, hprob, sub_div]
  · intro y hy
    obtain ⟨i, rfl⟩ := (List.mem_ofFn' _ _).1 hy
    refine C36_range _ (fun a => div_nonneg (h0 _) hpos.le) ?_ i
    rw [← Finset.sum_div, ← hT, div_self hpos.ne']

/-- A matrix and a vector to which `C102_qmath` applies: the first number printed is `(1 - 3) / 4`, the second `4 - 9`. -/
example : ∃ value value', SelfTest.qmath 1 (Tensor.ofRows [[1, 7], [0, 3]]) (Tensor.ofList [2, 3]) = .ok (value, value') ∧
    value = [-(1 / 2)] ∧ value' = [-5] := by
  have hp : ∀ (f : Bits 1 → ℝ) (b : Fin 2), prob f 0 b = f (fun _ => b) := by
    intro f b
    unfold prob
    rw [Finset.sum_eq_single (fun _ => b)]
    · intro c hc hne
      exact absurd (funext fun i => by rw [Fin.fin_one_eq_zero i]; exact (Finset.mem_filter.1 hc).2) hne
    · simp
  have hsum : ∀ f : Bits 1 → ℝ, ∑ a, f a = f (fun _ => 0) + f (fun _ => 1) := by
    intro f
    rw [Fintype.sum_equiv (Equiv.funUnique (Fin 1) (Fin 2)) f (fun b => f (fun _ => b))
      (fun a => congrArg f (funext fun i => by rw [Fin.fin_one_eq_zero i]; rfl)), Fin.sum_univ_two]
  have g : ∀ i < 2, (Tensor.ofRows [[1, 7], [0, 3]] : Tensor ℂ).get [i, i] = ((if i = 0 then 1 else 3 : ℝ) : ℂ) := by
    intro i hi
    interval_cases i
    · exact (Tensor.get_ofFn (by decide)).trans (by simp)
    · exact (Tensor.get_ofFn (by decide)).trans (by simp)
  have g0 : (Tensor.ofList [2, 3] : Tensor ℂ).get [0] = 2 := Tensor.get_ofFn (by decide)
  have g1 : (Tensor.ofList [2, 3] : Tensor ℂ).get [1] = 3 := Tensor.get_ofFn (by decide)
  have e0 : enc (fun _ => 0 : Bits 1) = 0 := by decide
  have e1 : enc (fun _ => 1 : Bits 1) = 1 := by decide
  obtain ⟨v, v', e, h1, -, h2⟩ := C102_qmath (N := 1) (by omega) (Tensor.ofRows [[1, 7], [0, 3]]) (Tensor.ofList [2, 3])
    (fun i => if i = 0 then 1 else 3) rfl g (fun i => by split_ifs <;> norm_num)
    (by rw [hsum, e0, e1]; norm_num) rfl
  refine ⟨v, v', e, ?_, ?_⟩
  · rw [h1]
    simp only [List.ofFn_succ, List.ofFn_zero, hp, hsum, e0, e1]
    norm_num
  · rw [h2]
    simp only [List.ofFn_succ, List.ofFn_zero, hp, e0, e1, g0, g1]
    norm_num

end QTN.Props
