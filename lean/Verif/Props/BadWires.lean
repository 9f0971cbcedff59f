import Verif.Lemmas.NegWires

/-! # Property C54: invalid wires on the tensor-network paths -/

namespace QTN.Props

open QTN QTN.Spec

/-- The wires of a gate object in the form its class expects: an integer for the single-qubit gates,
three for toffoli, a nonempty list for multi_control_cnot, two for the others. -/
def WiresOf (g : Gate) (ws : List ℤ) : Prop :=
  match g.cls with
  | .hadamard | .pauliX | .pauliY | .pauliZ | .rx | .ry | .rz | .u1 | .u3 => ∃ i, ws = [i] ∧ g.wires = .int i
  | .rxx | .ryy | .rzz | .cnot | .cz | .cphase | .cu3 | .swap => ∃ c t, ws = [c, t] ∧ g.wires = .list [c, t]
  | .toffoli => ∃ a b t, ws = [a, b, t] ∧ g.wires = .list [a, b, t]
  | .mcnot => ∃ cs t, ws = cs ++ [t] ∧ g.wires = .list (cs ++ [t])

/-- The invalid wires that `U_expand` rejects: for SWAP those that are no index at all (it accepts
equal and negative wires, see C04), for the multi-controlled gates a target among the controls or a
wire out of range, for the others equal wires or a wire out of range. -/
def Rejected (g : Gate) (ws : List ℤ) : Prop :=
  match g.cls with
  | .swap => ∃ w ∈ ws, g.nqubits ≤ w ∨ w < -g.nqubits
  | .toffoli | .mcnot => (∃ cs t, ws = cs ++ [t] ∧ t ∈ cs) ∨ ∃ w ∈ ws, w < 0 ∨ g.nqubits ≤ w
  | _ => ¬ ws.Nodup ∨ ∃ w ∈ ws, w < 0 ∨ g.nqubits ≤ w

/-- The premise of C54: `U_expand` raises for these wires. -/
theorem C54_U_expand (g : Gate) (ws : List ℤ) (hw : WiresOf g ws) (hn : 0 ≤ g.nqubits) (h : Rejected g ws) :
    Raises g.U_expand := by
  have single : ∀ i, ws = [i] → g.wires = .int i → (¬ ws.Nodup ∨ ∃ w ∈ ws, w < 0 ∨ g.nqubits ≤ w) →
      Raises g.single_U_expand := by
    rintro i rfl hi h
    exact ⟨_, single_raises hi (by simpa using h)⟩
  have pair : ∀ c t, ws = [c, t] → (¬ ws.Nodup ∨ ∃ w ∈ ws, w < 0 ∨ g.nqubits ≤ w) →
      c = t ∨ c < 0 ∨ t < 0 ∨ g.nqubits ≤ c ∨ g.nqubits ≤ t := by
    rintro c t rfl h
    simp at h
    omega
  have mc : ∀ cs t, ws = cs ++ [t] → ((∃ cs t, ws = cs ++ [t] ∧ t ∈ cs) ∨ ∃ w ∈ ws, w < 0 ∨ g.nqubits ≤ w) →
      t ∈ cs ∨ cs = [] ∨ (∃ w ∈ t :: cs, w < 0 ∨ g.nqubits ≤ w) := by
    rintro cs t rfl (⟨cs', t', he, ht⟩ | ⟨w, hw, h⟩)
    · obtain ⟨rfl, h2⟩ := List.append_inj' he rfl
      cases h2
      exact .inl ht
    · refine .inr (.inr ⟨w, ?_, h⟩)
      simp at hw ⊢
      tauto
  rcases g with ⟨cls, N, w, p, m, u⟩
  cases cls <;> simp only [WiresOf, Rejected, Gate.U_expand] at hw h ⊢
  case rxx | ryy | rzz =>
    obtain ⟨c, t, e, hl⟩ := hw
    exact rot2_raises _ hl (pair c t e h)
  case cnot | cz | cu3 =>
    obtain ⟨c, t, e, hl⟩ := hw
    exact ⟨_, ctrl_raises _ hl (pair c t e h)⟩
  case cphase =>
    obtain ⟨c, t, e, hl⟩ := hw
    exact bind_raises fun _ _ => bind_raises fun _ _ => ⟨_, ctrl_raises _ hl (pair c t e h)⟩
  case swap =>
    obtain ⟨c, t, rfl, hl⟩ := hw
    refine swap_U_raises _ c t hl ?_
    have e : ((N.toNat : ℕ) : ℤ) = N := by simpa using hn
    unfold Outside
    rw [e]
    simpa using h
  case toffoli =>
    obtain ⟨a, b, t, e, hl⟩ := hw
    exact ⟨_, mc_raises (cs := [a, b]) (t := t) hl (mc [a, b] t e h)⟩
  case mcnot =>
    obtain ⟨cs, t, e, hl⟩ := hw
    exact ⟨_, mc_raises hl (mc cs t e h)⟩
  all_goals
    obtain ⟨i, e, hl⟩ := hw
    exact single i e hl h

/-- The one case in which unbatched `TN_contract` accepts rejected wires: a single-qubit gate on a
negative index other than -1. -/
def NegSingle (g : Gate) (ws : List ℤ) : Prop := ∃ i, g.wires = .int i ∧ ws = [i] ∧ -g.nqubits ≤ i ∧ i < -1

/-- C54, partial (the full statement has no hypothesis `hs` and includes batches; false without, see
`C54_contract_wrong_qubit` and `C54_batch_dimension`): unbatched `TN_contract` raises for rejected
wires whatever the tensor. -/
theorem C54_contract_partial (g : Gate) (ws : List ℤ) (hw : WiresOf g ws) (hn : 0 ≤ g.nqubits)
    (h : Rejected g ws) (hs : ¬ NegSingle g ws) (T : Tensor ℂ) : Raises (g.TN_contract T false) := by
  have e : ((g.nqubits.toNat : ℕ) : ℤ) = g.nqubits := by simpa using hn
  have single : ∀ i, ws = [i] → g.wires = .int i → (¬ ws.Nodup ∨ ∃ w ∈ ws, w < 0 ∨ g.nqubits ≤ w) →
      Raises (g.single_TN_contract T false) := by
    rintro i rfl hi h
    simp only [List.nodup_singleton, not_true_eq_false, List.mem_singleton, exists_eq_left, false_or] at h
    by_cases h1 : i = -1
    · subst h1
      unfold Gate.single_TN_contract Gate.guard
      rw [raiseIf_true (by simp [hi])]
      exact ⟨_, rfl⟩
    · refine single_contract_raises g i hi T ?_
      unfold Outside
      rw [e]
      by_contra hno
      exact hs ⟨i, hi, rfl, by omega, by omega⟩
  have pair : ∀ c t, ws = [c, t] → (¬ ws.Nodup ∨ ∃ w ∈ ws, w < 0 ∨ g.nqubits ≤ w) →
      c = t ∨ (c < 0 ∧ (false = false ∨ c ≠ -1)) ∨ (t < 0 ∧ (false = false ∨ t ≠ -1)) ∨ g.nqubits ≤ c ∨
        g.nqubits ≤ t := by
    rintro c t rfl h
    simp at h ⊢
    omega
  rcases g with ⟨cls, N, w, p, m, u⟩
  cases cls <;> simp only [WiresOf, Rejected, Gate.TN_contract] at hw h ⊢
  case rxx | ryy | rzz | cnot | cz | cu3 | cphase =>
    obtain ⟨c, t, e, hl⟩ := hw
    exact two_contract_raises _ c t hl T false (pair c t e h)
  case swap =>
    obtain ⟨c, t, rfl, hl⟩ := hw
    refine swap_contract_raises _ c t hl T (.inr ?_)
    unfold Outside
    rw [e]
    simpa using h
  case toffoli =>
    obtain ⟨a, b, t, rfl, hl⟩ := hw
    refine toffoli_contract_raises _ a b t hl T false ?_
    rcases h with ⟨cs, t', he, ht⟩ | ⟨w, hw, h⟩
    · have : [a, b] ++ [t] = cs ++ [t'] := he
      obtain ⟨rfl, h2⟩ := List.append_inj' this rfl
      cases h2
      simp at ht
      rcases ht with rfl | rfl <;> simp
    · exact .inr (.inr (.inr ⟨w, hw, h.imp_left fun h => ⟨h, .inl rfl⟩⟩))
  case mcnot => exact ⟨_, rfl⟩
  all_goals
    obtain ⟨i, e, hl⟩ := hw
    exact single i e hl h

/-- C54, partial (the full statement covers all rejected wires; negative and equal wires are accepted,
see below): `TN_operation` raises for every SVD routine and list of `N` sites if a wire is no index,
except for SWAP with twice the same wire. -/
theorem C54_operation_partial (svd : SVDOracle) (g : Gate) (ws : List ℤ) (hw : WiresOf g ws)
    (mps : List (Tensor ℂ)) (hl : (mps.length : ℤ) = g.nqubits)
    (h : ∃ w ∈ ws, g.nqubits ≤ w ∨ w < -g.nqubits) (hs : ¬ (g.cls = .swap ∧ ∃ t, ws = [t, t]))
    (s : List (Tensor ℂ)) : ∃ e s', g.TN_operation svd mps s = (.error e, s') := by
  have h' : ∃ w ∈ ws, Outside mps.length w := by
    obtain ⟨w, hw, h⟩ := h
    exact ⟨w, hw, by unfold Outside; rw [hl]; exact h⟩
  have pair : ∀ c t, ws = [c, t] → Outside mps.length c ∨ Outside mps.length t := by
    rintro c t rfl
    simpa using h'
  have single : ∀ i, ws = [i] → g.wires = .int i → TNRaises (TNM.lift (g.single_TN_operation mps)) := by
    rintro i rfl hi
    exact .lift (single_high g i hi mps (by simpa using h'))
  revert s
  show TNRaises (g.TN_operation svd mps)
  rcases g with ⟨cls, N, w, p, m, u⟩
  cases cls <;> simp only [WiresOf, Gate.TN_operation] at hw ⊢
  case rxx | ryy | rzz | mcnot => exact .lift ⟨_, rfl⟩
  case cnot =>
    obtain ⟨c, t, e, hw⟩ := hw
    exact cnot_high svd _ c t hw mps (pair c t e)
  case cz | cu3 | cphase =>
    obtain ⟨c, t, e, hw⟩ := hw
    exact ctrl_high svd _ _ c t hw mps (pair c t e)
  case swap =>
    obtain ⟨c, t, e, hw⟩ := hw
    refine swap_high svd _ c t hw (fun hct => hs ⟨rfl, t, by rw [e, hct]⟩) mps (pair c t e)
  case toffoli =>
    obtain ⟨a, b, t, e, hw⟩ := hw
    exact toffoli_high svd _ a b t hw mps (e ▸ h')
  all_goals
    obtain ⟨i, e, hw⟩ := hw
    exact single i e hw

/-- C54 is false: a single-qubit gate on the wire `-N ≤ i < -1`, rejected by `U_expand`, is silently
applied to qubit `N + i` by `TN_contract` and by `TN_operation`. -/
theorem C54_contract_wrong_qubit (svd : SVDOracle) (g : Gate) (i : ℤ) (hw : WiresOf g [i])
    (hc : g.cls ≠ .mcnot) (h1 : -g.nqubits ≤ i) (h2 : i < -1) :
    Raises g.U_expand ∧
    (∀ T, g.TN_contract T false = ({ g with wires := .int (g.nqubits + i) } : Gate).TN_contract T false) ∧
    ∀ mps : List (Tensor ℂ), (mps.length : ℤ) = g.nqubits →
      g.TN_operation svd mps = ({ g with wires := .int (g.nqubits + i) } : Gate).TN_operation svd mps := by
  have hi : g.wires = .int i := by
    rcases g with ⟨cls, N, w, p, m, u⟩
    cases cls <;> simp [WiresOf] at hw hc <;> exact hw
  refine ⟨C54_U_expand g [i] hw (by omega) ?_, fun T => ?_, fun mps hl => ?_⟩
  · rcases g with ⟨cls, N, w, p, m, u⟩
    cases cls <;> simp [WiresOf] at hw hc <;>
      exact .inr ⟨i, by simp, .inl (by omega)⟩
  · have key : g.single_TN_contract T false =
        ({ g with wires := .int (g.nqubits + i) } : Gate).single_TN_contract T false := by
      unfold Gate.single_TN_contract Gate.guard
      rw [hi]
      have e1 : (Wires.int (g.nqubits + i) = Wires.int (-1)) ↔ False := by
        simp only [Wires.int.injEq, iff_false]; omega
      have e2 : (Wires.int i = Wires.int (-1)) ↔ False := by
        simp only [Wires.int.injEq, iff_false]; omega
      simp only [e1, e2, Wires.asInt, Py.ok_bind, if_true]
      rw [contract1_neg _ _ h1 (by omega)]
    rcases g with ⟨cls, N, w, p, m, u⟩
    cases cls <;> simp [WiresOf] at hw hc <;> exact key
  · have key : g.single_TN_operation mps =
        ({ g with wires := .int (g.nqubits + i) } : Gate).single_TN_operation mps := by
      have := single_neg g mps hi (by omega) h2
      rwa [hl] at this
    rcases g with ⟨cls, N, w, p, m, u⟩
    cases cls <;> simp [WiresOf] at hw hc <;> exact congrArg TNM.lift key

/-- C54: with `batch_mod=True` the same gate is applied to qubit `N + 1 + i`, another qubit than without
batches. -/
theorem C54_batch_wrong_qubit (g : Gate) (i : ℤ) (hw : WiresOf g [i]) (hc : g.cls ≠ .mcnot)
    (h1 : -g.nqubits ≤ i) (h2 : i < -1) (T : Tensor ℂ) :
    g.TN_contract T true = ({ g with wires := .int (g.nqubits + 1 + i) } : Gate).TN_contract T true := by
  have hi : g.wires = .int i := by
    rcases g with ⟨cls, N, w, p, m, u⟩
    cases cls <;> simp [WiresOf] at hw hc <;> exact hw
  have key : g.single_TN_contract T true =
      ({ g with wires := .int (g.nqubits + 1 + i) } : Gate).single_TN_contract T true := by
    unfold Gate.single_TN_contract Gate.guard
    rw [hi]
    have e1 : (Wires.int (g.nqubits + 1 + i) = Wires.int (-1)) ↔ False := by
      simp only [Wires.int.injEq, iff_false]; omega
    have e2 : (Wires.int i = Wires.int (-1)) ↔ False := by
      simp only [Wires.int.injEq, iff_false]; omega
    simp only [e1, e2, Wires.asInt, Py.ok_bind, Bool.true_eq_false, if_false]
    rw [contract1_neg _ _ (show -(g.nqubits + 1) ≤ i + 1 by omega) (by omega)]
    simp only [add_assoc]
  rcases g with ⟨cls, N, w, p, m, u⟩
  cases cls <;> simp [WiresOf] at hw hc <;> exact key

/-- C54 is false for batches: on a batch of two states the control or target `-1`, rejected by
`U_expand`, is taken to be the batch dimension: the gate couples the two samples like a gate on
`N + 1` qubits. -/
theorem C54_batch_dimension (g : Gate) (N : ℕ) (hN : 2 ≤ N) (hn : g.nqubits = N)
    (hc : g.cls ∈ [GateCls.rxx, .ryy, .rzz, .cnot, .cz, .cphase, .cu3]) (c t : ℤ)
    (hw : g.wires = .list [c, t]) (h : c = -1 ∨ t = -1) (T : Tensor ℂ)
    (hT : T.shape = List.replicate (N + 1) 2) :
    Raises g.U_expand ∧ g.TN_contract T true =
      ({ g with nqubits := N + 1, wires := .list [c + 1, t + 1] } : Gate).TN_contract T false := by
  have key : g.two_TN_contract T true =
      ({ g with nqubits := N + 1, wires := .list [c + 1, t + 1] } : Gate).two_TN_contract T false := by
    unfold Gate.two_TN_contract
    rw [guard_list hn hw, guard_list (N := N + 1) (by simp) rfl, hw, hn]
    simp only [asList_list, Py.ok_bind, (pyGet_pair _ _).1, (pyGet_pair _ _).2, Bool.true_eq_false, if_false, if_true,
      ne_eq, add_left_inj, contract2_batch_two g.matrix T hN hT]
  constructor
  · refine C54_U_expand g [c, t] ?_ (by omega) ?_
    · rcases g with ⟨cls, N, w, p, m, u⟩
      cases cls <;> simp at hc <;> exact ⟨c, t, rfl, hw⟩
    · rcases g with ⟨cls, N, w, p, m, u⟩
      cases cls <;> simp at hc <;>
        exact .inr (h.elim (fun h => ⟨c, by simp, .inl (by omega)⟩) (fun h => ⟨t, by simp, .inl (by omega)⟩))
  · rcases g with ⟨cls, N, w, p, m, u⟩
    cases cls <;> simp at hc <;> exact key

/-- C54 is false for equal wires: `cnot(N,[t,t])` (and cz, cphase, cu3) is rejected by `U_expand`, but
`TN_operation` silently applies the gate on `[t-1, t]`. -/
theorem C54_operation_equal (svd : SVDOracle) (g : Gate) (t : ℤ) (hn : 0 ≤ g.nqubits)
    (hc : g.cls ∈ [GateCls.cnot, .cz, .cphase, .cu3]) (hw : g.wires = .list [t, t]) (mps : List (Tensor ℂ)) :
    Raises g.U_expand ∧
      g.TN_operation svd mps = ({ g with wires := .list [t - 1, t] } : Gate).TN_operation svd mps := by
  constructor
  · refine C54_U_expand g [t, t] ?_ hn ?_
    · rcases g with ⟨cls, N, w, p, m, u⟩
      cases cls <;> simp at hc <;> exact ⟨t, t, rfl, hw⟩
    · rcases g with ⟨cls, N, w, p, m, u⟩
      cases cls <;> simp at hc <;> exact .inl (by simp)
  · rcases g with ⟨cls, N, w, p, m, u⟩
    cases cls <;> simp at hc
    · exact cnot_equal svd _ mps hw
    · exact ctrl_equal svd _ _ mps hw
    · exact ctrl_equal svd _ _ mps hw
    · exact ctrl_equal svd _ _ mps hw

/-- C54 is false for negative wires: `cnot(N,[c,t])` (and cz, cphase, cu3) with two negative wires is
silently applied to the wires counted from the end. -/
theorem C54_operation_negative (svd : SVDOracle) (g : Gate) (c t : ℤ)
    (hc : g.cls ∈ [GateCls.cnot, .cz, .cphase, .cu3]) (hw : g.wires = .list [c, t]) (hct : c ≠ t)
    (c1 : -g.nqubits ≤ c) (c2 : c < 0) (t1 : -g.nqubits ≤ t) (t2 : t < 0) (mps : List (Tensor ℂ))
    (hl : (mps.length : ℤ) = g.nqubits) :
    Raises g.U_expand ∧ g.TN_operation svd mps =
      ({ g with wires := .list [g.nqubits + c, g.nqubits + t] } : Gate).TN_operation svd mps := by
  constructor
  · refine C54_U_expand g [c, t] ?_ (by omega) ?_
    · rcases g with ⟨cls, N, w, p, m, u⟩
      cases cls <;> simp at hc <;> exact ⟨c, t, rfl, hw⟩
    · rcases g with ⟨cls, N, w, p, m, u⟩
      cases cls <;> simp at hc <;> exact .inr ⟨c, by simp, .inl c2⟩
  · have key1 : g.cnot_TN_operation svd mps =
        ({ g with wires := .list [g.nqubits + c, g.nqubits + t] } : Gate).cnot_TN_operation svd mps := by
      have := cnot_neg svd g mps hw hct (by omega) c2 (by omega) t2
      rwa [hl] at this
    have key2 : ∀ G, g.ctrl_TN_operation svd G mps =
        ({ g with wires := .list [g.nqubits + c, g.nqubits + t] } : Gate).ctrl_TN_operation svd G mps := by
      intro G
      have := ctrl_neg svd g G mps hw hct (by omega) c2 (by omega) t2
      rwa [hl] at this
    rcases g with ⟨cls, N, w, p, m, u⟩
    cases cls <;> simp at hc
    exacts [key1, key2 _, key2 _, key2 _]

/-- C54 is false for toffoli: a target equal to the second control is rejected by `U_expand`, but
`TN_operation` silently uses the next qubit as the target. -/
theorem C54_toffoli_target (svd : SVDOracle) (g : Gate) (a t : ℤ) (hn : 0 ≤ g.nqubits) (hc : g.cls = .toffoli)
    (hw : g.wires = .list [a, t, t]) (h : a < t) (mps : List (Tensor ℂ)) :
    Raises g.U_expand ∧
      g.TN_operation svd mps = ({ g with wires := .list [a, t, t + 1] } : Gate).TN_operation svd mps := by
  rcases g with ⟨cls, N, w, p, m, u⟩
  cases hc
  exact ⟨C54_U_expand _ [a, t, t] ⟨a, t, t, rfl, hw⟩ hn (.inl ⟨[a, t], t, rfl, by simp⟩),
    toffoli_target_equal svd _ mps h hw⟩

/-- C54 is false for SWAP: `SWAP(N,[t,t])` with `t ≥ N` is rejected by `U_expand`, but `TN_operation`
returns the state unchanged. -/
theorem C54_swap_equal (svd : SVDOracle) (g : Gate) (t : ℤ) (hn : 0 ≤ g.nqubits) (hc : g.cls = .swap)
    (hw : g.wires = .list [t, t]) (h : g.nqubits ≤ t) (mps s : List (Tensor ℂ)) :
    Raises g.U_expand ∧ g.TN_operation svd mps s = (.ok mps, s) := by
  rcases g with ⟨cls, N, w, p, m, u⟩
  cases hc
  exact ⟨C54_U_expand _ [t, t] ⟨t, t, rfl, hw⟩ hn ⟨t, by simp, .inl h⟩,
    swap_equal svd _ mps hw (by show N ≠ -1; have : 0 ≤ N := hn; omega) s⟩

/-- Objects as the constructors make them. -/
example : WiresOf (mkCnot 3 (.list [2, 2])) [2, 2] ∧ Rejected (mkCnot 3 (.list [2, 2])) [2, 2] ∧
    ¬ NegSingle (mkCnot 3 (.list [2, 2])) [2, 2] :=
  ⟨⟨2, 2, rfl, rfl⟩, .inl (by simp), by rintro ⟨i, h, -⟩; cases h⟩

example : WiresOf (mkRx 0.3 3 (.int (-2))) [-2] ∧ NegSingle (mkRx 0.3 3 (.int (-2))) [-2] :=
  ⟨⟨-2, rfl, rfl⟩, -2, rfl, rfl, by simp [mkRx], by norm_num⟩

example : WiresOf (mkSwap 3 (.list [0, 3])) [0, 3] ∧ (∃ w ∈ [(0 : ℤ), 3], (mkSwap 3 (.list [0, 3])).nqubits ≤ w ∨
    w < -(mkSwap 3 (.list [0, 3])).nqubits) ∧ ¬ ((mkSwap 3 (.list [0, 3])).cls = .swap ∧ ∃ t, [(0 : ℤ), 3] = [t, t]) :=
  ⟨⟨0, 3, rfl, rfl⟩, ⟨3, by simp, .inl (by simp [mkSwap])⟩, by rintro ⟨-, t, h⟩; simp at h; omega⟩

/-- `cz(4,[-1,-3])` on a four-site state meets the hypotheses of `C54_operation_negative`. -/
example : (mkCz 4 (.list [-1, -3])).cls ∈ [GateCls.cnot, .cz, .cphase, .cu3] ∧
    (mkCz 4 (.list [-1, -3])).wires = .list [-1, -3] ∧ -(mkCz 4 (.list [-1, -3])).nqubits ≤ -3 :=
  ⟨by simp [mkCz], rfl, by norm_num [mkCz]⟩

/-- `toffoli(4,[0,2,2])` and `SWAP(3,[5,5])` meet the hypotheses of the last two theorems. -/
example : (∃ g, mkToffoli 4 (.list [0, 2, 2]) = .ok g ∧ g.cls = .toffoli ∧ g.wires = .list [0, 2, 2]) ∧
    (mkSwap 3 (.list [5, 5])).wires = .list [5, 5] ∧ (mkSwap 3 (.list [5, 5])).nqubits ≤ 5 :=
  ⟨⟨_, rfl, rfl, rfl⟩, rfl, by norm_num [mkSwap]⟩

end QTN.Props
