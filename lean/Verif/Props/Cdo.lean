import Verif.Lemmas.Cdo
import Verif.Props.Qnn

/-! # Properties C78, C79: the circuit of test_CDO.py -/

namespace QTN.Props

open QTN QTN.Spec QTN.Cdo Matrix Complex

variable {N : ℕ}

/-! ## The specification of Qiskit -/

/-- Qiskit's `U(θ, φ, λ)`. -/
noncomputable def qU (θ φ l : ℝ) : Mat2 :=
  !![(Real.cos (θ / 2) : ℂ), -exp (l * I) * (Real.sin (θ / 2) : ℂ);
     exp (φ * I) * (Real.sin (θ / 2) : ℂ), exp ((φ + l : ℝ) * I) * (Real.cos (θ / 2) : ℂ)]

/-- The operator of a Qiskit call, from Qiskit's documentation. -/
noncomputable def qCallOp : QCall N → QOp N
  | .u θ φ l q => onQubit q (qU θ φ l)
  | .ry θ q => onQubit q (rot Spec.Y θ)
  | .p l q => onQubit q (phase l)
  | .x q => onQubit q Spec.X
  | .cx c t => controlled [c] t Spec.X
  | .ccx a b t => controlled [a, b] t Spec.X
  | .cu θ φ l γ c t => controlled [c] t (exp (γ * I) • qU θ φ l)

/-- The operator of a Qiskit circuit. -/
noncomputable def qOp (l : List (QCall N)) : QOp N := timeOrdered (l.map qCallOp)

/-- The state that Qiskit's simulator returns: qubit `q` is bit `q` of the index, the lowest bit being qubit 0. -/
noncomputable def qiskitState (l : List (QCall N)) : ℕ → ℂ := fun k =>
  (qOp l *ᵥ ket0 N) (fun q => if k.testBit q then 1 else 0)

/-- The call of `Circuit` that the script uses for a Qiskit call. -/
def counterpart : QCall N → Call
  | .u θ φ l q => .u3 [θ, φ, l] (wire q)
  | .ry θ q => .ry θ (wire q)
  | .p l q => .u1 l (wire q)
  | .x q => .x (wire q)
  | .cx c t => .cnot [wire c, wire t]
  | .ccx a b t => .toffoli [wire a, wire b, wire t]
  | .cu θ φ l _ c t => .cu3 [θ, φ, l] [wire c, wire t]

/-- Different wires, and the phase `γ` of a controlled rotation is the one that `cu3` has built in. -/
def QValid : QCall N → Prop
  | .cx c t => c ≠ t
  | .ccx a b t => a ≠ b ∧ a ≠ t ∧ b ≠ t
  | .cu _ φ l γ c t => c ≠ t ∧ γ = -((φ + l) / 2)
  | _ => True

/-- The phase by which `u3` differs from Qiskit's `u`. -/
noncomputable def lostPhase : QCall N → ℝ
  | .u _ φ l _ => (φ + l) / 2
  | _ => 0

/-! ## C78 -/

/-- The item of a call. -/
def qItem : QCall N → Item N
  | .u θ φ l q => .gate (.u3 θ φ l q)
  | .ry θ q => .gate (.ry θ q)
  | .p l q => .gate (.u1 l q)
  | .x q => .gate (.x q)
  | .cx c t => .gate (.cnot c t)
  | .ccx a b t => .gate (.toffoli a b t)
  | .cu θ φ l _ c t => .gate (.cu3 θ φ l c t)

theorem U3_eq (θ φ l : ℝ) : U3 θ φ l = exp (-((φ + l) / 2 : ℝ) * I) • qU θ φ l := rfl

theorem qItem_op (c : QCall N) (h : QValid c) : (qItem c).op = exp (-(lostPhase c : ℝ) * I) • qCallOp c := by
  cases c with
  | u θ φ l q =>
    show onQubit q (U3 θ φ l) = _
    rw [U3_eq, onQubit_smul]
    rfl
  | cu θ φ l γ c t =>
    show controlled [c] t (U3 θ φ l) = exp (-((0 : ℝ) : ℂ) * I) • controlled [c] t _
    rw [U3_eq, h.2]
    simp
  | _ =>
    simp only [lostPhase, ofReal_zero, neg_zero, zero_mul, Complex.exp_zero, one_smul]
    rfl

theorem qItem_wf (c : QCall N) (h : QValid c) : (qItem c).WF := by
  cases c with
  | cu => exact h.1
  | cx => exact h
  | ccx => exact h
  | _ => trivial

theorem qItem_contractible (c : QCall N) : Contractible (qItem c) := by cases c <;> trivial

theorem counterpart_run (c : QCall N) (cir : Circuit) (h : cir.nqubits = N) :
    Call.run cir (counterpart c) = cir.addBuilt (itemCall (qItem c)) := by
  subst h
  cases c <;> rfl

theorem prod_phase (l : List (QCall N)) :
    (l.map fun c => exp (-(lostPhase c : ℝ) * I)).prod = exp (-((l.map lostPhase).sum : ℝ) * I) := by
  induction l with
  | nil => simp
  | cons c l ih =>
    rw [List.map_cons, List.prod_cons, ih, List.map_cons, List.sum_cons, ← Complex.exp_add]
    congr 1
    push_cast
    ring

theorem circuitOp_qiskit (l : List (QCall N)) (h : ∀ c ∈ l, QValid c) :
    circuitOp (l.map qItem) = exp (-((l.map lostPhase).sum : ℝ) * I) • qOp l := by
  unfold circuitOp qOp
  rw [← prod_phase, ← timeOrdered_smul, List.map_map]
  congr 1
  exact List.map_congr_left fun c hc => qItem_op c (h c hc)

theorem counterpart_calls (l : List (QCall N)) (cir : Circuit) (h : cir.nqubits = N) :
    (l.map counterpart).foldlM Call.run cir =
      (l.map qItem).foldlM (fun c it => c.addBuilt (itemCall it)) cir := by
  induction l generalizing cir with
  | nil => rfl
  | cons c l ih =>
    rw [List.map_cons, List.map_cons, List.foldlM_cons, List.foldlM_cons, counterpart_run c cir h]
    cases e : cir.addBuilt (itemCall (qItem c)) with
    | error => rfl
    | ok c' =>
      rw [Py.ok_bind, Py.ok_bind]
      refine ih c' ?_
      unfold Circuit.addBuilt at e
      cases e' : itemCall (qItem c) cir.nqubits with
      | error => rw [e', Py.error_bind] at e; cases e
      | ok o =>
        rw [e', Py.ok_bind] at e
        cases e
        rw [← h]
        exact adds_nqubits cir [o]

theorem psi_row (N : ℕ) : IsRow (Cdo.psi N) (ket0 N) := by
  refine ⟨rfl, fun a => ?_⟩
  unfold Cdo.psi
  rw [Tensor.get_ofFn (by simp [enc_lt])]
  have e0 : enc (0 : Bits N) = 0 := by simp [enc]
  unfold ket0
  by_cases h : a = 0
  · subst h; simp [e0]
  · rw [if_neg h, if_neg]
    intro he
    refine h (enc_injective ?_)
    rw [e0]
    simpa using he

/-- What the first half returns for any calls. -/
theorem dqState_ok {svd : SVDOracle} (hv : ValidSVD svd) (hN : 0 < N) (l : List (QCall N))
    (h : ∀ c ∈ l, (qItem c).WF) (s : List (Tensor ℂ)) (hs : ∀ A ∈ s, Lossless A) :
    ∃ out s', dqState svd N (l.map counterpart) (Cdo.psi N) s = (.ok out, s') ∧
      IsRow out (circuitOp (l.map qItem) *ᵥ ket0 N) := by
  have hwf : ∀ it ∈ l.map qItem, it.WF := fun it hit => by
    obtain ⟨c, hc, rfl⟩ := List.mem_map.1 hit
    exact h c hc
  have hct : ∀ it ∈ l.map qItem, Contractible it := fun it hit => by
    obtain ⟨c, hc, rfl⟩ := List.mem_map.1 hit
    exact qItem_contractible c
  obtain ⟨ops, hops, -, hf⟩ := circuit_contract _ hwf hct
  obtain ⟨mps, s', T, e1, e2, hT⟩ := zero_tensor hv hN (psi_row N) s hs
  obtain ⟨T', e3, hT'⟩ := hf.1 T _ hT
  obtain ⟨out, e4, ho⟩ := flatten_row hT'
  refine ⟨out, s', ?_, ho⟩
  unfold dqState
  rw [counterpart_calls l _ rfl, calls_ok _ hops, TNM.lift_ok_bind, TNM.bind_ok e1, e2, TNM.lift_ok_bind, e3,
    TNM.lift_ok_bind, e4]
  rfl

/-- C78: for every list of Qiskit calls, the corresponding calls of `Circuit` give the same state after the indices
have been reversed, up to the global phase that `u3` loses. -/
theorem C78_same_state {svd : SVDOracle} (hv : ValidSVD svd) (hN : 0 < N) (l : List (QCall N))
    (h : ∀ c ∈ l, QValid c) (s : List (Tensor ℂ)) (hs : ∀ A ∈ s, Lossless A) :
    ∃ out s', dqState svd N (l.map counterpart) (Cdo.psi N) s = (.ok out, s') ∧ out.shape = [1, 2 ^ N] ∧
      ∀ i < 2 ^ N, out.get [0, i] = exp (-((l.map lostPhase).sum : ℝ) * I) * qiskitState l (revIndex N i) := by
  obtain ⟨out, s', e, ho⟩ := dqState_ok hv hN l (fun c hc => qItem_wf c (h c hc)) s hs
  refine ⟨out, s', e, ho.1, fun i hi => ?_⟩
  obtain ⟨a, rfl⟩ := exists_enc hi
  rw [ho.2, circuitOp_qiskit l h, Matrix.smul_mulVec]
  unfold qiskitState
  rw [show (fun q : Fin N => if (revIndex N (enc a)).testBit q then (1 : Fin 2) else 0) = a from
    funext (revIndex_bit hN a)]
  rfl

/-- The Qiskit half of the script. -/
noncomputable def qScript : List (QCall 10) := qpart1 ++ qpart2 ++ qpart3 ++ qpart4

/-- C78: both halves of the script contain the same calls. -/
theorem C78_same_calls : part1 ++ part2 ++ part3 ++ part4 = qScript.map counterpart := by
  unfold qScript
  rw [List.map_append, List.map_append, List.map_append]
  rfl

theorem qScript_valid : ∀ c ∈ qScript, QValid c := by
  have h0 : (0 : ℝ) = -((0 + 0) / 2) := by norm_num
  unfold qScript
  simp only [List.forall_mem_append]
  refine ⟨⟨⟨?_, ?_⟩, ?_⟩, ?_⟩
  · unfold qpart1
    simp [QValid]
  · unfold qpart2
    simp [QValid]
  · unfold qpart3
    simp [QValid]
  · unfold qpart4
    simp [QValid]

theorem qScript_phase : (qScript.map lostPhase).sum = 0 := by
  unfold qScript qpart1 qpart2 qpart3 qpart4
  simp [lostPhase]
  ring

/-- C78: the program prints the same state twice: no entry differs by more than half a unit of the fourth decimal, in
the real and in the imaginary part. -/
theorem C78_script {svd : SVDOracle} (hv : ValidSVD svd) (rnd : ℝ → ℝ) (hr : ∀ x, |rnd x - x| ≤ 5e-5)
    (s : List (Tensor ℂ)) (hs : ∀ A ∈ s, Lossless A) :
    ∃ out s', dqState svd 10 (part1 ++ part2 ++ part3 ++ part4) (Cdo.psi 10) s = (.ok out, s') ∧
      out.shape = [1, 1024] ∧ (printed 10 rnd (qiskitState qScript)).length = 1024 ∧
      ∀ i < 1024, out.get [0, i] = qiskitState qScript (revIndex 10 i) ∧
        |((printed 10 rnd (qiskitState qScript)).getD i 0).re - (out.get [0, i]).re| ≤ 5e-5 ∧
        |((printed 10 rnd (qiskitState qScript)).getD i 0).im - (out.get [0, i]).im| ≤ 5e-5 := by
  obtain ⟨out, s', e, so, go⟩ := C78_same_state hv (by norm_num) qScript qScript_valid s hs
  refine ⟨out, s', by rw [C78_same_calls]; exact e, so, by simp [printed], fun i hi => ?_⟩
  have h1 : out.get [0, i] = qiskitState qScript (revIndex 10 i) := by
    rw [go i hi, qScript_phase]
    simp
  have h2 : (printed 10 rnd (qiskitState qScript)).getD i 0 =
      ⟨rnd (qiskitState qScript (revIndex 10 i)).re, rnd (qiskitState qScript (revIndex 10 i)).im⟩ := by
    unfold printed
    rw [List.getD_eq_getElem?_getD, List.getElem?_map, List.getElem?_range (show i < 2 ^ 10 from hi)]
    rfl
  rw [h2, h1]
  exact ⟨rfl, hr _, hr _⟩

/-- The hypotheses hold of a circuit with every kind of call, whose total phase is not zero. -/
example : ∃ l : List (QCall 3), (∀ c ∈ l, QValid c) ∧ l.length = 7 ∧ (l.map lostPhase).sum = 1 :=
  ⟨[.u 1 1 1 0, .ry 1 1, .p 1 2, .x 0, .cx 0 1, .ccx 0 1 2, .cu 1 1 0 (-(1 / 2)) 2 0], by simp [QValid], rfl,
    by simp [lostPhase]⟩

/-- Two calls for which the phase of the controlled rotation is not the one that `cu3` has built in. -/
noncomputable def cuCalls : List (QCall 2) := [.u (Real.pi / 2) 0 0 0, .cu 0 Real.pi Real.pi 0 0 1]

theorem controlled_scalar (cs : List (Fin N)) (t : Fin N) (z : ℂ) (v : QState N) (a : Bits N) :
    (controlled cs t (z • (1 : Mat2)) *ᵥ v) a = (if ∀ c ∈ cs, a c = 1 then z else 1) * v a := by
  rw [show (controlled cs t (z • (1 : Mat2)) *ᵥ v) a = ∑ b, controlled cs t (z • (1 : Mat2)) a b * v b from rfl,
    Finset.sum_eq_single a]
  · congr 1
    by_cases h : ∀ c ∈ cs, a c = 1
    · simp [controlled, onQubit]
    · simp [controlled, h]
  · intro b _ hb
    have h1 : onQubit t (z • (1 : Mat2)) a b = 0 := by
      unfold onQubit
      split_ifs with h
      · have ht : a t ≠ b t := fun ht => hb (funext fun j => by
          by_cases hj : j = t
          · rw [hj, ht]
          · exact (h j hj).symm)
        simp [Matrix.one_apply_ne ht]
      · rfl
    have h2 : controlled cs t (z • (1 : Mat2)) a b = 0 := by
      unfold controlled
      rw [h1, Matrix.one_apply_ne (Ne.symm hb), ite_self]
    rw [h2, zero_mul]
  · simp

theorem onQubit_ket0 (t : Fin N) (g : Mat2) (a : Bits N) (h : ∀ j, j ≠ t → a j = 0) :
    (onQubit t g *ᵥ ket0 N) a = g (a t) 0 := by
  rw [show (onQubit t g *ᵥ ket0 N) a = ∑ b, onQubit t g a b * ket0 N b from rfl, Finset.sum_eq_single 0]
  · rw [show onQubit t g a 0 = g (a t) 0 from if_pos h]
    simp [ket0]
  · intro b _ hb
    simp [ket0, hb]
  · simp

theorem qU_zero_pi : qU 0 Real.pi Real.pi = 1 := by
  have e : exp ((Real.pi + Real.pi : ℝ) * I) = 1 := by
    rw [← Complex.exp_two_pi_mul_I]
    congr 1
    push_cast
    ring
  ext i j
  fin_cases i <;> fin_cases j <;> simp [qU]
  simpa using e

theorem U3_zero_pi : U3 0 Real.pi Real.pi = (-1 : ℂ) • (1 : Mat2) := by
  rw [U3_eq, qU_zero_pi, show ((Real.pi + Real.pi) / 2 : ℝ) = Real.pi by ring, neg_mul, Complex.exp_neg,
    Complex.exp_pi_mul_I]
  norm_num

/-- C78: the condition on the phase is needed: with `cu(0, π, π, 0)` the two states are not the same up to a global
phase, since one amplitude agrees and another one has the opposite sign. -/
theorem C78_cu_differs {svd : SVDOracle} (hv : ValidSVD svd) (s : List (Tensor ℂ)) (hs : ∀ A ∈ s, Lossless A) :
    ∃ out s', dqState svd 2 (cuCalls.map counterpart) (Cdo.psi 2) s = (.ok out, s') ∧
      out.get [0, 0] = qiskitState cuCalls (revIndex 2 0) ∧ out.get [0, 0] ≠ 0 ∧
      out.get [0, 2] = -qiskitState cuCalls (revIndex 2 2) ∧ out.get [0, 2] ≠ 0 := by
  obtain ⟨out, s', e, ho⟩ := dqState_ok hv (by norm_num) cuCalls
    (by unfold cuCalls; simp [qItem, Item.WF, Instr.WF]) s hs
  have hc : circuitOp (cuCalls.map qItem) =
      controlled [0] 1 ((-1 : ℂ) • (1 : Mat2)) * onQubit 0 (qU (Real.pi / 2) 0 0) := by
    have h1 : circuitOp (cuCalls.map qItem) = controlled [0] 1 (U3 0 Real.pi Real.pi) *
      (onQubit 0 (U3 (Real.pi / 2) 0 0) * 1) := rfl
    rw [h1, U3_zero_pi, U3_eq, mul_one]
    simp
  have hq : qOp cuCalls = controlled [0] 1 ((1 : ℂ) • (1 : Mat2)) * onQubit 0 (qU (Real.pi / 2) 0 0) := by
    have h1 : qOp cuCalls = controlled [0] 1 (exp (((0 : ℝ) : ℂ) * I) • qU 0 Real.pi Real.pi) *
      (onQubit 0 (qU (Real.pi / 2) 0 0) * 1) := rfl
    rw [h1, qU_zero_pi, mul_one]
    simp
  have e0 : enc (![0, 0] : Bits 2) = 0 := by decide
  have e2 : enc (![1, 0] : Bits 2) = 2 := by decide
  have hz : ∀ x : Fin 2, ∀ j : Fin 2, j ≠ 0 → (![x, 0] : Bits 2) j = 0 := by decide
  have g0 : out.get [0, 0] = (Real.cos (Real.pi / 2 / 2) : ℂ) := by
    have h := ho.2 ![0, 0]
    rw [e0, hc, ← Matrix.mulVec_mulVec, controlled_scalar, onQubit_ket0 _ _ _ (hz 0)] at h
    rw [h]
    simp [qU]
  have g2 : out.get [0, 2] = -(Real.sin (Real.pi / 2 / 2) : ℂ) := by
    have h := ho.2 ![1, 0]
    rw [e2, hc, ← Matrix.mulVec_mulVec, controlled_scalar, onQubit_ket0 _ _ _ (hz 1)] at h
    rw [h]
    simp [qU]
  have k : ∀ x : Fin 2, qiskitState cuCalls (revIndex 2 (enc (![x, 0] : Bits 2))) = qU (Real.pi / 2) 0 0 x 0 := by
    intro x
    unfold qiskitState
    rw [show (fun q : Fin 2 => if (revIndex 2 (enc (![x, 0] : Bits 2))).testBit q then (1 : Fin 2) else 0) = ![x, 0]
      from funext (revIndex_bit (by norm_num) _), hq, ← Matrix.mulVec_mulVec, controlled_scalar,
      onQubit_ket0 _ _ _ (hz x)]
    simp
  have k0 := k 0
  have k2 := k 1
  rw [e0] at k0
  rw [e2] at k2
  have hp : Real.pi / 2 / 2 = Real.pi / 4 := by ring
  refine ⟨out, s', e, ?_, ?_, ?_, ?_⟩
  · rw [g0, k0]
    simp [qU]
  · rw [g0, hp, Real.cos_pi_div_four]
    simp
  · rw [g2, k2]
    simp [qU]
  · rw [g2, hp, Real.sin_pi_div_four]
    simp

end QTN.Props
