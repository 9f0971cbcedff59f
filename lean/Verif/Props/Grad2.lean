import Verif.Lemmas.Grad2Ex
import Verif.Props.Grad

/-! # Property C42: gradients from saved states -/

namespace QTN.Props

open QTN QTN.Spec Matrix

variable {N : ℕ}

/-- A gate whose parameter is a phase: `u1`, `cphase`, or the controlled U3. -/
def IsPhase : Item N → Prop
  | .gate (.u1 _ _) | .gate (.cphase _ _ _) | .gate (.cu3 _ _ _ _ _) => True
  | _ => False

theorem trigOk_of {it : Item N} (h : ¬ IsPhase it) : Spec.Item.trigOk it := by
  cases it with
  | gate ins =>
    cases ins with
    | cu3 => exact absurd trivial h
    | u1 => exact absurd trivial h
    | cphase => exact absurd trivial h
    | _ => trivial
  | _ => trivial

theorem onQubit_hermitian (i : Fin N) {P : Matrix (Fin 2) (Fin 2) ℂ} (h : Pᴴ = P) : Hermitian (onQubit i P) := by
  intro a b
  unfold onQubit
  by_cases hk : ∀ k, k ≠ i → a k = b k
  · have hk' : ∀ k, k ≠ i → b k = a k := fun k hki => (hk k hki).symm
    rw [if_pos hk, if_pos hk']
    have := congrFun (congrFun h (a i)) (b i)
    rw [Matrix.conjTranspose_apply] at this
    exact this.symm
  · have hk' : ¬ ∀ k, k ≠ i → b k = a k := fun h' => hk fun k hki => (h' k hki).symm
    rw [if_neg hk, if_neg hk']
    simp

/-- Both calls. -/
theorem grad2_circ {svd : SVDOracle} (hv : ValidSVD svd) (hN : 0 < N) {l : List (Item N)} (hne : l ≠ [])
    (h : ∀ it ∈ l, it.WF) (hc : ∀ it ∈ l, HasTN it) {ops : List Op} (hops : l.mapM buildItem = .ok ops)
    {ps : PShift} {v : QState N} (hi : IsRow ps.init_state v) (h0 : v ≠ 0) {m : Item N} (hm : m.WF)
    (hmc : HasTN m) {mo : Op} (hmo : buildItem m = .ok mo) (s s2 : List (Tensor ℂ))
    (hl : ∀ A ∈ (ps.save_mid_MPS svd (circ N ops) mo s).2, Lossless A) :
    ∃ d psi s1, ps.save_mid_MPS svd (circ N ops) mo s = (.ok (d, psi), s1) ∧ IsRow psi (circuitOp l *ᵥ v) ∧
      ((∀ A ∈ (ps.cal_params_grad2 svd d (circ N ops, s2)).2.2, Lossless A) →
      ∃ s', ps.cal_params_grad2 svd d (circ N ops, s2) = (.ok (overlapGrad m.op v [] l), (circ N ops, s'))) := by
  have hb := mapM_mem hops
  obtain ⟨d, psi, s1, e1, h1, hF, hB⟩ := save_run hv hN h0 h hc hb hne hi (circ_nqubits N ops) (circ_gate N ops)
    (built_acts hv hm hmc hmo).2 s hl
  refine ⟨d, psi, s1, e1, h1, fun hl2 => ?_⟩
  exact cal_params_grad2_run hv hN h0 h hc hi (circ_nqubits N ops) hF hB (by rw [circ_gate]; exact hb)
    (circ_recorded h hb) (circ_count h hb) s2 hl2

/-- C42 (partial: parameters of gates and layers other than `u1`, `cphase` and `cu3`; at least one operation;
every operation has a working `TN_operation`; input not the zero vector; no non-zero singular value discarded).
For an observable `m` that is an operation with a Hermitian matrix — in particular any Pauli gate —
`cal_params_grad2(save_mid_MPS(m))` returns one entry per parameter, entry `j` is the partial derivative of the
expectation value of `m`, and the circuit is as before.  `save_mid_MPS` also returns the final state.
Missing for the full statement: the phase gates, for which it is false (`C42_u1_wrong`), and the empty circuit
(`C42_empty_raises`). -/
theorem C42_saved_gradient_partial {svd : SVDOracle} (hv : ValidSVD svd) (hN : 0 < N) (l : List (Item N))
    (hne : l ≠ []) (h : ∀ it ∈ l, it.WF) (hc : ∀ it ∈ l, HasTN it) (ps : PShift) (v : QState N)
    (hi : IsRow ps.init_state v) (h0 : v ≠ 0) (m : Item N) (hm : m.WF) (hmc : HasTN m) (hmh : Hermitian m.op) :
    ∃ ops mo, l.mapM buildItem = .ok ops ∧ buildItem m = .ok mo ∧ ∀ s,
      (∀ A ∈ (ps.save_mid_MPS svd (circ N ops) mo s).2, Lossless A) →
      ∃ d psi s1, ps.save_mid_MPS svd (circ N ops) mo s = (.ok (d, psi), s1) ∧ IsRow psi (circuitOp l *ᵥ v) ∧
        ∀ s2, (∀ A ∈ (ps.cal_params_grad2 svd d (circ N ops, s2)).2.2, Lossless A) →
          ∃ g s', ps.cal_params_grad2 svd d (circ N ops, s2) = (.ok g, (circ N ops, s')) ∧
            g.length = (allParams l).length ∧
            ∀ j, j < g.length → (∀ it, ownerOf l j = some it → ¬ IsPhase it) →
              IsPartial m.op v l j (g.getD j 0) := by
  obtain ⟨ops, hops, -⟩ := C13_items N l h
  obtain ⟨mo, hmo, -⟩ := item_ok (it := m) hm
  refine ⟨ops, mo, hops, hmo, fun s hl => ?_⟩
  obtain ⟨d, psi, s1, e1, h1, -⟩ := grad2_circ hv hN hne h hc hops hi h0 hm hmc hmo s [] hl
  refine ⟨d, psi, s1, e1, h1, fun s2 hl2 => ?_⟩
  obtain ⟨d', psi', s1', e1', -, h2⟩ := grad2_circ hv hN hne h hc hops hi h0 hm hmc hmo s s2 hl
  have : d' = d := by rw [e1] at e1'; cases e1'; rfl
  subst this
  obtain ⟨s', e2⟩ := h2 hl2
  refine ⟨_, s', e2, overlapGrad_length _ _ _ _, fun j hj ho => ?_⟩
  rw [overlapGrad_length] at hj
  obtain ⟨p1, it, p2, i, rfl, hi', rfl, hg⟩ := overlapGrad_get m.op v l [] j hj
  rw [hg, List.nil_append]
  exact overlap_partial hmh v p1 it p2 i (h it (by simp)) (trigOk_of (ho it (ownerOf_append _ _ _ _ hi'))) hi'

/-- C42 (partial, same restrictions): the two gradient routines agree, entry by entry, for the observable given
once as a matrix and once as a gate. -/
theorem C42_agrees_partial {svd : SVDOracle} (hv : ValidSVD svd) (hN : 0 < N) (l : List (Item N))
    (hne : l ≠ []) (h : ∀ it ∈ l, it.WF) (hc : ∀ it ∈ l, HasTN it) (hp : ∀ it ∈ l, ¬ IsPhase it)
    (init M : Tensor ℂ) (v : QState N)
    (hi : IsRow init v) (h0 : v ≠ 0) (m : Item N) (hm : m.WF) (hmc : HasTN m) (hmh : Hermitian m.op)
    (hM : Represents M m.op) :
    ∃ ops mo, l.mapM buildItem = .ok ops ∧ buildItem m = .ok mo ∧ ∀ s,
      (∀ A ∈ ((⟨init, M⟩ : PShift).save_mid_MPS svd (circ N ops) mo s).2, Lossless A) →
      ∃ d psi s1, (⟨init, M⟩ : PShift).save_mid_MPS svd (circ N ops) mo s = (.ok (d, psi), s1) ∧
        ∀ s2 s3, (∀ A ∈ ((⟨init, M⟩ : PShift).cal_params_grad2 svd d (circ N ops, s2)).2.2, Lossless A) →
          (∀ A ∈ ((⟨init, M⟩ : PShift).cal_params_grad svd (circ N ops, s3)).2.2, Lossless A) →
          ∃ g s2' s3', (⟨init, M⟩ : PShift).cal_params_grad2 svd d (circ N ops, s2) = (.ok g, (circ N ops, s2')) ∧
            (⟨init, M⟩ : PShift).cal_params_grad svd (circ N ops, s3) = (.ok g, (circ N ops, s3')) := by
  obtain ⟨ops, mo, hops, hmo, H⟩ := C42_saved_gradient_partial hv hN l hne h hc ⟨init, M⟩ v hi h0 m hm hmc hmh
  obtain ⟨ops', hops', H'⟩ := C40_gradient_tn_partial hv hN l h hc init M v hi h0 m.op hM
  have : ops' = ops := by rw [hops] at hops'; cases hops'; rfl
  subst this
  refine ⟨ops', mo, hops, hmo, fun s hl => ?_⟩
  obtain ⟨d, psi, s1, e1, -, H2⟩ := H s hl
  refine ⟨d, psi, s1, e1, fun s2 s3 hl2 hl3 => ?_⟩
  obtain ⟨g, s2', e2, hlen, hd⟩ := H2 s2 hl2
  obtain ⟨g', s3', e3, hlen', hd'⟩ := H' s3 hl3
  have hown : ∀ (l : List (Item N)) (j : ℕ) it, ownerOf l j = some it → it ∈ l := by
    intro l
    induction l with
    | nil => intro j it h; cases h
    | cons a l ih =>
      intro j it h
      unfold ownerOf at h
      split_ifs at h
      · cases h; simp
      · exact List.mem_cons_of_mem _ (ih _ _ h)
  have hgg : g = g' := by
    apply List.ext_getElem (by rw [hlen, hlen'])
    intro j h1 h2
    have a1 := hd j h1 fun it hit => hp it (hown _ _ _ hit)
    have a2 := hd' j h2 fun it hit hcu => hp it (hown _ _ _ hit) (by
      cases it with
      | gate ins => cases ins <;> first | exact hcu.elim | trivial
      | _ => exact hcu.elim)
    have := HasDerivAt.unique a1 a2
    rwa [List.getD_eq_getElem?_getD, List.getElem?_eq_getElem h1, List.getD_eq_getElem?_getD,
      List.getElem?_eq_getElem h2] at this
  exact ⟨g, s2', s3', e2, by rw [hgg]; exact e3⟩

/-- `|0⟩ + |1⟩` -/
def plusVec : Tensor ℂ := Tensor.ofFn [1, 2] fun _ => 1

theorem plusVec_row : IsRow plusVec (fun _ : Bits 1 => (1 : ℂ)) := by
  refine ⟨rfl, fun a => ?_⟩
  unfold plusVec
  rw [Tensor.get_ofFn]
  have := enc_lt a
  simp at this ⊢
  omega

theorem sum_bits1 (f : Bits 1 → ℂ) : ∑ a, f a = f ![0] + f ![1] := by
  rw [← (Equiv.funUnique (Fin 1) (Fin 2)).symm.sum_comp, Fin.sum_univ_two]
  congr 2 <;> (funext i; fin_cases i; rfl)

theorem u1_mulVec (θ : ℝ) : onQubit (0 : Fin 1) (phase θ) *ᵥ (fun _ : Bits 1 => (1 : ℂ)) =
    fun a => if a 0 = 0 then 1 else Complex.exp (θ * Complex.I) := by
  funext a
  have ha : a = ![a 0] := by ext i; fin_cases i; rfl
  rw [ha]
  generalize a 0 = x
  simp only [Matrix.mulVec, dotProduct, sum_bits1, onQubit]
  fin_cases x <;> simp [phase]

theorem x_mulVec (z : ℂ) : onQubit (0 : Fin 1) X *ᵥ (fun a : Bits 1 => if a 0 = 0 then 1 else z) =
    fun a => if a 0 = 0 then z else 1 := by
  funext a
  have ha : a = ![a 0] := by ext i; fin_cases i; rfl
  rw [ha]
  generalize a 0 = x
  simp only [Matrix.mulVec, dotProduct, sum_bits1, onQubit]
  fin_cases x <;> simp [X]

theorem u1_circuit (θ : ℝ) : circuitOp [Item.gate (.u1 θ (0 : Fin 1))] = onQubit 0 (phase θ) := by
  simp [circuitOp, timeOrdered, Item.op, Instr.op]

theorem u1_energy (θ : ℝ) : energy (onQubit (0 : Fin 1) X) (fun _ => 1) [.gate (.u1 θ 0)] = 2 * Real.cos θ := by
  unfold energy
  rw [u1_circuit, u1_mulVec]
  unfold braket
  simp only [sum_bits1, onQubit]
  simp [X, Complex.exp_ofReal_mul_I_re]
  ring

theorem u1_overlap (θ : ℝ) : overlapGrad (onQubit (0 : Fin 1) X) (fun _ => 1) [] [.gate (.u1 θ 0)] = [0] := by
  show [overlapValue (onQubit (0 : Fin 1) X) (fun _ => 1) [] (.gate (.u1 θ 0)) [] 0] = [0]
  congr 1
  unfold overlapValue
  have e1 : circuitOp ([] : List (Item 1)) = 1 := rfl
  have e2 : ((Item.gate (.u1 θ (0 : Fin 1))).withParams ((Item.gate (.u1 θ (0 : Fin 1))).params.set 0
      ((Item.gate (.u1 θ (0 : Fin 1))).params.getD 0 0 - Real.pi))).op = onQubit (0 : Fin 1) (phase (θ - Real.pi)) := rfl
  rw [e1, e2, List.nil_append, u1_circuit, Matrix.conjTranspose_one, Matrix.one_mulVec, Matrix.one_mulVec,
    u1_mulVec, u1_mulVec, x_mulVec]
  unfold ip
  rw [sum_bits1]
  simp only [Matrix.cons_val_fin_one]
  have e3 : Complex.exp (((θ - Real.pi : ℝ) : ℂ) * Complex.I) = -Complex.exp (θ * Complex.I) := by
    rw [Complex.ofReal_sub, sub_mul, Complex.exp_sub, Complex.exp_pi_mul_I, div_neg, div_one]
  rw [e3]
  simp

/-- C42, negation for phase gates: one `u1(π/2)` on `|0⟩ + |1⟩`, observable X.  The expectation value is
`2 cos θ`, whose derivative is `-2`; the entry returned is 0, for every SVD routine. -/
theorem C42_u1_wrong {svd : SVDOracle} (hv : ValidSVD svd) (M : Tensor ℂ) :
    ∃ ops mo, [Item.gate (.u1 (Real.pi / 2) (0 : Fin 1))].mapM buildItem = .ok ops ∧
      buildItem (.gate (.x (0 : Fin 1))) = .ok mo ∧
      ∃ d psi g, (⟨plusVec, M⟩ : PShift).save_mid_MPS svd (circ 1 ops) mo [] = (.ok (d, psi), []) ∧
        (⟨plusVec, M⟩ : PShift).cal_params_grad2 svd d (circ 1 ops, []) = (.ok g, (circ 1 ops, [])) ∧
        g.getD 0 0 = 0 ∧
        IsPartial (onQubit (0 : Fin 1) X) (fun _ => 1) [.gate (.u1 (Real.pi / 2) 0)] 0 (-2) ∧
        ¬ IsPartial (onQubit (0 : Fin 1) X) (fun _ => 1) [.gate (.u1 (Real.pi / 2) 0)] 0 (g.getD 0 0) := by
  set θ := Real.pi / 2 with hθ
  set ops : List Op := [.gate (mkU1 θ 1 (.int 0))] with hops
  have hq : ∀ o ∈ (circ 1 ops).gate, QuietOp o := by
    rw [circ_gate]
    intro o ho
    rw [List.mem_singleton.1 ho]
    exact ⟨_, rfl, .inr rfl⟩
  have h0 : (fun _ : Bits 1 => (1 : ℂ)) ≠ 0 := fun h => one_ne_zero (congrFun h ![0])
  have hb : [Item.gate (.u1 θ (0 : Fin 1))].mapM buildItem = .ok ops := rfl
  have hmo : buildItem (.gate (.x (0 : Fin 1))) = .ok (.gate (mkPauliX 1 (.int 0))) := rfl
  have l1 : ((⟨plusVec, M⟩ : PShift).save_mid_MPS svd (circ 1 ops) (.gate (mkPauliX 1 (.int 0))) []).2 = [] := by
    rw [save_log svd _ _ hq (.gate (mkPauliX 1 (.int 0))) (fun mps => TNM.Silent.lift' _), circ_nqubits]
    exact sv2mps_one svd rfl []
  have l2 : ∀ d, ((⟨plusVec, M⟩ : PShift).cal_params_grad2 svd d (circ 1 ops, [])).2.2 = [] := by
    intro d
    rw [grad2_log svd _ _ _ hq, circ_nqubits]
    exact sv2mps_one svd rfl []
  obtain ⟨d, psi, s1, e1, -, h2⟩ := grad2_circ hv (by omega) (l := [Item.gate (.u1 θ (0 : Fin 1))]) (by simp)
    (by intro it hit; rw [List.mem_singleton.1 hit]; trivial)
    (by intro it hit; rw [List.mem_singleton.1 hit]; trivial) hb (ps := ⟨plusVec, M⟩) plusVec_row h0
    (m := .gate (.x 0)) trivial trivial hmo [] [] (by rw [l1]; simp)
  obtain ⟨s', e2⟩ := h2 (by rw [l2]; simp)
  obtain rfl : s1 = [] := by rw [e1] at l1; exact l1
  obtain rfl : s' = [] := by have := l2 d; rw [e2] at this; exact this
  have e3 : (Item.gate (.x (0 : Fin 1))).op = onQubit 0 X := rfl
  rw [e3, u1_overlap] at e2
  have hset : ∀ x, setParam [Item.gate (.u1 θ (0 : Fin 1))] 0 x = [.gate (.u1 x 0)] := fun x => rfl
  have hd : IsPartial (onQubit (0 : Fin 1) X) (fun _ => 1) [.gate (.u1 θ 0)] 0 (-2) := by
    unfold IsPartial
    simp only [hset, u1_energy]
    show HasDerivAt _ _ θ
    have := (Real.hasDerivAt_cos θ).const_mul 2
    rw [hθ, Real.sin_pi_div_two, show (2 : ℝ) * -1 = -2 by norm_num] at this
    exact this
  refine ⟨ops, _, hb, hmo, d, psi, [0], e1, e2, rfl, hd, fun hbad => ?_⟩
  have := HasDerivAt.unique hd hbad
  norm_num at this

/-- C42, the empty circuit: `save_mid_MPS` raises IndexError, although the gradient (of no parameters)
exists and `cal_params_grad` returns it. -/
theorem C42_empty_raises {svd : SVDOracle} (hv : ValidSVD svd) (hN : 0 < N) (ps : PShift) (v : QState N)
    (hi : IsRow ps.init_state v) (h0 : v ≠ 0) (m : Item N) (hm : m.WF) (hmc : HasTN m) :
    ∃ mo, buildItem m = .ok mo ∧ ∀ s, (∀ A ∈ (ps.save_mid_MPS svd (circ N []) mo s).2, Lossless A) →
      (ps.save_mid_MPS svd (circ N []) mo s).1 = .error .indexError ∧
      ∀ s, (ps.cal_params_grad svd (circ N [], s)).1 = .ok [] := by
  obtain ⟨mo, hmo, -⟩ := item_ok (it := m) hm
  refine ⟨mo, hmo, fun s hl => ⟨?_, fun s => rfl⟩⟩
  have hO := (built_acts hv hm hmc hmo).2
  unfold PShift.save_mid_MPS at hl ⊢
  rw [circ_nqubits, circ_gate] at hl ⊢
  have m4 : ∀ (svf : Tensor ℂ) (d : PShift.Saved) (mps : List (Tensor ℂ)), TNM.Mono (do
      let last ← (pyGet ([] : List Op) (((([] : List Op).length : ℕ) : ℤ) - 1) : Py _)
      let d := if last.numParams ≠ 0 then Function.update d (([] : List Op).length - 1) (some mps) else d
      let (_, d) ← PShift.saveBackward svd [] ([] : List Op).length mps d
      pure (d, svf) : TNM (PShift.Saved × Tensor ℂ)) := fun svf d mps =>
    (TNM.Mono.lift _).bind fun _ => (mono_saveBackward _ _ _ _ _).bind fun _ => TNM.Mono.pure _
  obtain ⟨m1, s1, e1, h1⟩ := sv2mps_exact hv hN hi h0 (s := s) (TNM.logged_left (fun m =>
    (TNM.Mono.lift _).bind fun _ => (mono_saveForward _ _ _ _ _ _).bind fun x =>
    (TNM.Mono.lift _).bind fun svf => (mono_op _ _ _).bind fun mps => m4 svf x.2 mps) hl)
  rw [TNM.bind_ok e1] at hl ⊢
  rw [show raiseIf (m1.length ≠ N) PyErr.valueError = .ok () by simp [raiseIf, h1.1], TNM.lift_ok_bind] at hl ⊢
  have e2 : PShift.saveForward svd [] 0 [] m1 (fun _ => none) s1 = (.ok (m1, fun _ => none), s1) := rfl
  rw [TNM.bind_ok e2] at hl ⊢
  dsimp only at hl ⊢
  obtain ⟨psi, e3, h3⟩ := mps2sv_rep h1 hN
  rw [e3, TNM.lift_ok_bind] at hl ⊢
  obtain ⟨m4', s4, e4, h4⟩ := hO.run h1 h0 (TNM.logged_left (m4 psi _) hl)
  rw [TNM.bind_ok e4]
  rfl

/-- Pauli gates are observables as the theorems require. -/
example (i : Fin N) : ∀ m ∈ [Item.gate (.x i), .gate (.y i), .gate (.z i)], m.WF ∧ HasTN m ∧ Hermitian m.op := by
  intro m hm
  simp only [List.mem_cons, List.not_mem_nil, or_false] at hm
  rcases hm with rfl | rfl | rfl
  · exact ⟨trivial, trivial, onQubit_hermitian i (by ext a b; fin_cases a <;> fin_cases b <;> simp [X])⟩
  · exact ⟨trivial, trivial, onQubit_hermitian i (by ext a b; fin_cases a <;> fin_cases b <;> simp [Y])⟩
  · exact ⟨trivial, trivial, onQubit_hermitian i (by ext a b; fin_cases a <;> fin_cases b <;> simp [Z])⟩

/-- Two x rotations of an entangled state, observable Y: the hypotheses about the decomposed matrices hold. -/
example : ∃ svd, ValidSVD svd ∧ ∃ (init : Tensor ℂ) (v : QState 2) (ops : List Op) (mo : Op), IsRow init v ∧ v ≠ 0 ∧
    [Item.gate (.rx 0.3 (0 : Fin 2)), .gate (.rx 0.4 0)].mapM buildItem = .ok ops ∧
    buildItem (.gate (.y (0 : Fin 2))) = .ok mo ∧
    (∀ A ∈ ((⟨init, Tensor.eye 4⟩ : PShift).save_mid_MPS svd (circ 2 ops) mo []).2, Lossless A) ∧
    ∀ d, ∀ A ∈ ((⟨init, Tensor.eye 4⟩ : PShift).cal_params_grad2 svd d (circ 2 ops, [])).2.2, Lossless A := by
  obtain ⟨svd, hv⟩ := exists_validSVD
  have hr : IsRow (bellVec 1 1) (fun a : Bits 2 => (bellVec 1 1).get [0, enc a]) := row_of_shape rfl
  have h0 : (fun a : Bits 2 => (bellVec 1 1).get [0, enc a]) ≠ 0 := by
    intro h
    have := congrFun h ![0, 0]
    have e : enc (![0, 0] : Bits 2) = 0 := by simp [enc]
    simp [e, bellVec, Tensor.ofFn] at this
  have hq : ∀ o ∈ (circ 2 [.gate (mkRx 0.3 2 (.int 0)), .gate (mkRx 0.4 2 (.int 0))]).gate, QuietOp o := by
    rw [circ_gate]
    intro o ho
    simp only [List.mem_cons, List.not_mem_nil, or_false] at ho
    rcases ho with rfl | rfl
    · exact ⟨_, rfl, .inl rfl⟩
    · exact ⟨_, rfl, .inl rfl⟩
  obtain ⟨A, e, hA⟩ := bell_log hv (p := 1) (q := 1) (by norm_num) (by norm_num) []
  refine ⟨svd, hv, _, _, [.gate (mkRx 0.3 2 (.int 0)), .gate (mkRx 0.4 2 (.int 0))], .gate (mkPauliY 2 (.int 0)), hr, h0,
    rfl, rfl, ?_, fun d => ?_⟩
  · rw [save_log svd _ _ hq (.gate (mkPauliY 2 (.int 0))) (fun mps => TNM.Silent.lift' _), circ_nqubits, e]
    simpa using hA
  · rw [grad2_log svd _ _ _ hq, circ_nqubits, e]
    simpa using hA

end QTN.Props
