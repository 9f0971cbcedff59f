import Verif.Lemmas.ContractItems
import Verif.Props.Circuit

/-! # Properties C23–C25: TN_contract and TN_contract_evolution -/

namespace QTN.Props

open QTN QTN.Spec Matrix

variable {N : ℕ}

/-! ## State tensors and their flattening -/

theorem isTen_of_shape {T : Tensor ℂ} (h : T.shape = List.replicate N 2) :
    IsTen T (fun a : Bits N => T.get (bl a)) := ⟨h, fun _ => rfl⟩

theorem isTen_unique {T T' : Tensor ℂ} {v : QState N} (h : IsTen T v) (h' : IsTen T' v) : T = T' := by
  apply Tensor.ext' (h.1.trans h'.1.symm)
  intro idx hi
  rw [h.1] at hi
  obtain ⟨b, rfl⟩ := exists_bl hi
  rw [h.2, h'.2]

theorem flatten_col {T : Tensor ℂ} {v : QState N} (h : IsTen T v) :
    ∃ c, T.view [-1, 1] = .ok c ∧ IsCol c v := by
  have hn : T.numel = 2 ^ N := by simp [Tensor.numel, h.1]
  refine ⟨T.reshapeN [2 ^ N, 1], Tensor.view_neg_first _ (2 ^ N) [1] (by simp [hn]) (by simp), rfl,
    fun a => ?_⟩
  rw [Tensor.reshapeN_get_eq (idx' := bl a) (by simp [enc_lt]) (by rw [h.1]; exact inB_bl a)
    (by rw [h.1, ← enc_eq_ravel]; simp [ravel]), h.2]

theorem unflatten_col {w : Tensor ℂ} {v : QState N} (h : IsCol w v) :
    ∃ T, w.view (List.replicate N (2 : ℤ)) = .ok T ∧ IsTen T v := by
  have e : (List.replicate N (2 : ℤ)) = (List.replicate N 2).map (fun k : ℕ => (k : ℤ)) := by simp
  have hn : (List.replicate N 2).prod = w.numel := by simp [Tensor.numel, h.1]
  refine ⟨w.reshapeN (List.replicate N 2), by rw [e]; exact Tensor.view_nat _ _ hn, rfl,
    fun a => ?_⟩
  rw [Tensor.reshapeN_get_eq (idx' := [enc a, 0]) (inB_bl a) (by rw [h.1]; simp [enc_lt])
    (by rw [h.1, ← enc_eq_ravel]; simp [ravel]), h.2]

/-- `U @ T.view(-1,1)` reshaped back to rank `N`, the way a user would compute it. -/
noncomputable def applyFlat (N : ℕ) (u : Py (Tensor ℂ)) (T : Tensor ℂ) : Py (Tensor ℂ) := do
  let w ← (← u).matmul (← T.view [-1, 1])
  w.view (List.replicate N 2)

theorem applyFlat_eq {f : Tensor ℂ → Bool → Py (Tensor ℂ)} {M : QOp N} (hf : ContractsAs f M)
    {u : Py (Tensor ℂ)} (hu : Computes u M) {T : Tensor ℂ} (hT : T.shape = List.replicate N 2) :
    ∃ T', f T false = .ok T' ∧ applyFlat N u T = .ok T' := by
  obtain ⟨U, hU, rU⟩ := hu
  obtain ⟨c, hc, rc⟩ := flatten_col (isTen_of_shape hT)
  obtain ⟨w, hw, rw'⟩ := rU.mulCol rc
  obtain ⟨T1, h1, r1⟩ := unflatten_col rw'
  obtain ⟨T2, h2, r2⟩ := hf.1 T _ (isTen_of_shape hT)
  refine ⟨T2, h2, ?_⟩
  unfold applyFlat
  rw [hU, Py.ok_bind, hc, Py.ok_bind, hw, Py.ok_bind, h1, isTen_unique r1 r2]

/-! ## C23 -/

/-- C23 for gates: for every gate on valid wires except multi_control_cnot (which has no
`TN_contract`), `TN_contract(T)` of a state tensor succeeds and is `U_expand() @ flatten(T)`,
reshaped. -/
theorem C23_gate (ins : Instr N) (h : ins.WF) (hm : ∀ cs t, ins ≠ .mcnot cs t) :
    ∃ g, build ins = .ok g ∧ ∀ T : Tensor ℂ, T.shape = List.replicate N 2 →
      ∃ T', g.TN_contract T false = .ok T' ∧ applyFlat N g.U_expand T = .ok T' := by
  obtain ⟨g, hg, hc⟩ := gate_contract ins h (by
    cases ins
    case mcnot cs t => exact (hm cs t rfl).elim
    all_goals trivial)
  obtain ⟨g', hg', hu⟩ := build_ok ins h
  rw [hg] at hg'; cases hg'
  exact ⟨g, hg, fun T hT => applyFlat_eq hc hu hT⟩

/-- C23 for gates, in terms of the textbook operator. -/
theorem C23_gate_operator (ins : Instr N) (h : ins.WF) (hm : ∀ cs t, ins ≠ .mcnot cs t) :
    ∃ g, build ins = .ok g ∧ ContractsAs g.TN_contract ins.op :=
  gate_contract ins h (by
    cases ins
    case mcnot cs t => exact (hm cs t rfl).elim
    all_goals trivial)

/-- The items with a `TN_contract` that works: not multi_control_cnot, ring_of_cnot2 or
BasicEntangleLayer (no such method), and CNOT rings only on the wires `0, …, N-1`. -/
def Contractible : Item N → Prop
  | .gate (.mcnot _ _) => False
  | .ring ws | .ringDag ws => ws = List.finRange N
  | .ring2 _ | .basic _ _ _ => False
  | _ => True

theorem contractible_iff {it : Item N} (h : Contractible it) : Spec.Item.contractible it := by
  cases it with
  | gate ins => cases ins <;> trivial
  | _ => trivial

/-- C23 for gates and layers. -/
theorem C23_item (it : Item N) (h : it.WF) (hc : Contractible it) :
    ∃ o, buildItem it = .ok o ∧ ContractsAs o.TN_contract it.op ∧
      ∀ T : Tensor ℂ, T.shape = List.replicate N 2 →
        ∃ T', o.TN_contract T false = .ok T' ∧ applyFlat N o.U_expand T = .ok T' := by
  obtain ⟨o, ho, -, hf⟩ := item_contract it h (contractible_iff hc)
  obtain ⟨o', ho', hu⟩ := item_ok it h
  rw [ho] at ho'; cases ho'
  exact ⟨o, ho, hf, fun T hT => applyFlat_eq hf hu hT⟩

/-- C23, error branch: CNOT rings on any other wires raise ValueError, whatever the tensor. -/
theorem C23_ring_wires_raise (ws : List (Fin N)) (hws : ws ≠ List.finRange N) (T : Tensor ℂ) (b : Bool) :
    (⟨.ring, N, wires ws⟩ : Ring).TN_contract T b = .error .valueError ∧
    (⟨.dagger, N, wires ws⟩ : Ring).TN_contract T b = .error .valueError := by
  have hne : wires ws ≠ pyRange (N : ℤ) := fun e => hws (wires_eq_pyRange e)
  constructor
  · unfold Ring.TN_contract
    dsimp only
    rw [raiseIf_true hne]; rfl
  · unfold Ring.TN_contract
    dsimp only
    rw [raiseIf_true hne]; rfl

/-- C23, error branch: two- and three-qubit gates reject a tensor of the wrong rank. -/
theorem C23_rank_rejected (ins : Instr N) (h : ins.WF) (g : Gate) (hg : build ins = .ok g)
    (hcls : g.cls ∈ [GateCls.rxx, .ryy, .rzz, .cnot, .cz, .cphase, .cu3, .swap, .toffoli])
    (T : Tensor ℂ) (b : Bool) (hr : T.rank ≠ N + (if b then 1 else 0)) :
    g.TN_contract T b = .error .assertionError := by
  have key2 : ∀ (g : Gate) (c t : Fin N), c ≠ t → g.nqubits = N →
      g.wires = .list [wire c, wire t] → g.two_TN_contract T b = .error .assertionError := by
    intro g c t hct hn hw
    unfold Gate.two_TN_contract
    rw [guard_list hn hw, Py.ok_bind, hw, asList_list, Py.ok_bind, (pyGet_pair _ _).1, Py.ok_bind,
      (pyGet_pair _ _).2, Py.ok_bind, pyAssert_true (wire_ne hct), Py.ok_bind, hn]
    cases b
    · rw [if_pos rfl, pyAssert_false (by simp at hr; exact_mod_cast hr)]; rfl
    · rw [if_neg (by simp), pyAssert_false (by simp at hr; exact_mod_cast hr)]; rfl
  have keys : ∀ (g : Gate) (c t : Fin N), c ≠ t → g.nqubits = N →
      g.wires = .list [wire c, wire t] → g.swap_TN_contract T b = .error .assertionError := by
    intro g c t hct hn hw
    unfold Gate.swap_TN_contract
    rw [guard_list hn hw, Py.ok_bind, hw, asList_list, Py.ok_bind, (pyGet_pair _ _).1, Py.ok_bind,
      (pyGet_pair _ _).2, Py.ok_bind, pyAssert_true (wire_ne hct), Py.ok_bind, hn]
    cases b
    · rw [if_pos rfl, pyAssert_false (by simp at hr; exact_mod_cast hr)]; rfl
    · rw [if_neg (by simp), pyAssert_false (by simp at hr; exact_mod_cast hr)]; rfl
  cases ins with
  | rxx θ p q => cases hg; exact key2 _ p q h rfl rfl
  | ryy θ p q => cases hg; exact key2 _ p q h rfl rfl
  | rzz θ p q => cases hg; exact key2 _ p q h rfl rfl
  | cnot p q => cases hg; exact key2 _ p q h rfl rfl
  | cz p q => cases hg; exact key2 _ p q h rfl rfl
  | cphase θ p q => cases hg; exact key2 _ p q h rfl rfl
  | cu3 θ φ l c t =>
    obtain ⟨u, hu, hr⟩ := u3Mat_rep θ φ l
    obtain ⟨m, hm, -⟩ := cu3_matrix hr
    simp only [build, mkCu3, hu, hm, Py.ok_bind] at hg
    cases hg
    exact key2 _ c t h rfl rfl
  | swap p q => cases hg; exact keys _ p q h rfl rfl
  | toffoli p q r =>
    cases hg
    have g0 : pyGet [wire p, wire q, wire r] 0 = .ok (wire p) := rfl
    have g1 : pyGet [wire p, wire q, wire r] 1 = .ok (wire q) := rfl
    have g2 : pyGet [wire p, wire q, wire r] 2 = .ok (wire r) := rfl
    show Gate.toffoli_TN_contract ⟨.toffoli, N, .list [wire p, wire q, wire r], [], toffoliMat,
      noMat⟩ T b = _
    unfold Gate.toffoli_TN_contract
    rw [guard_list rfl rfl, Py.ok_bind, asList_list, Py.ok_bind, g0, Py.ok_bind, g1, Py.ok_bind,
      g2, Py.ok_bind, pyAssert_true ⟨wire_ne h.2.1, wire_ne h.2.2, wire_ne h.1⟩, Py.ok_bind]
    cases b
    · have hr' : ¬ ((T.rank : ℤ) = (N : ℤ)) := by simp at hr; exact_mod_cast hr
      rw [if_pos rfl, pyAssert_false hr']; rfl
    · have hr' : ¬ ((T.rank : ℤ) = (N : ℤ) + 1) := by simp at hr; exact_mod_cast hr
      rw [if_neg (by simp), pyAssert_false hr']; rfl
  | u3 θ φ l i =>
    obtain ⟨u, hu, -⟩ := u3Mat_rep θ φ l
    simp only [build, mkU3, hu, Py.ok_bind] at hg
    cases hg; simp at hcls
  | mcnot cs t =>
    simp only [build, mkMcnot, asList_list, Py.ok_bind] at hg
    cases hq : pyGet (List.map wire cs ++ [wire t]) (-1) with
    | error e => rw [hq] at hg; cases hg
    | ok x => rw [hq] at hg; cases hg; simp at hcls
  | _ => cases hg; simp [mkHadamard, mkPauliX, mkPauliY, mkPauliZ, mkRx, mkRy, mkRz, mkU1] at hcls

example : (Instr.toffoli (3 : Fin 5) 0 2).WF ∧ ∀ cs t, Instr.toffoli (3 : Fin 5) 0 2 ≠ .mcnot cs t :=
  ⟨by unfold Instr.WF; decide, fun _ _ => by simp⟩

example : ∃ g, build (Instr.cnot (3 : Fin 4) 1) = .ok g ∧
    g.cls ∈ [GateCls.rxx, .ryy, .rzz, .cnot, .cz, .cphase, .cu3, .swap, .toffoli] :=
  ⟨_, rfl, by simp [mkCnot]⟩

/-! ## C24 -/

theorem isBatch_of_shape {T : Tensor ℂ} {n : ℕ} (h : T.shape = n :: List.replicate N 2) :
    IsBatch T n (fun (k : Fin n) (a : Bits N) => T.get ((k : ℕ) :: bl a)) := ⟨h, fun _ _ => rfl⟩

theorem select_isTen {T : Tensor ℂ} {n : ℕ} {v : Fin n → QState N} (h : IsBatch T n v) (k : Fin n) :
    ∃ t, T.select0 ((k : ℕ) : ℤ) = .ok t ∧ IsTen t (v k) := by
  refine ⟨Tensor.ofFn (List.replicate N 2) (fun idx => T.get ((k : ℕ) :: idx)), ?_, rfl, fun a => ?_⟩
  · unfold Tensor.select0
    rw [h.1]
    dsimp only
    rw [wrapIdx_nat k.2, Py.ok_bind]
  · rw [Tensor.get_ofFn (inB_bl a), h.2]

/-- Batched contraction treats every sample like the unbatched call. -/
def Batchwise (N : ℕ) (f : Tensor ℂ → Bool → Py (Tensor ℂ)) : Prop :=
  ∀ (n : ℕ) (T : Tensor ℂ), T.shape = n :: List.replicate N 2 →
    ∃ T', f T true = .ok T' ∧ T'.shape = n :: List.replicate N 2 ∧
      ∀ k : Fin n, ∃ t t', T.select0 ((k : ℕ) : ℤ) = .ok t ∧ f t false = .ok t' ∧
        T'.select0 ((k : ℕ) : ℤ) = .ok t'

theorem batchwise_of {f : Tensor ℂ → Bool → Py (Tensor ℂ)} {M : QOp N} (hf : ContractsAs f M) :
    Batchwise N f := by
  intro n T hT
  obtain ⟨T', h', r'⟩ := hf.2 T n _ (isBatch_of_shape hT)
  refine ⟨T', h', r'.1, fun k => ?_⟩
  obtain ⟨t, ht, rt⟩ := select_isTen (isBatch_of_shape hT) k
  obtain ⟨t', ht', rt'⟩ := hf.1 t _ rt
  obtain ⟨s, hs, rs⟩ := select_isTen r' k
  exact ⟨t, t', ht, ht', by rw [hs, isTen_unique rs rt']⟩

/-- C24: for every gate and layer with a `TN_contract`, every batch size and every batch tensor,
`TN_contract(T, batch_mod=True)` is the unbatched contraction of every slice. -/
theorem C24_batched (it : Item N) (h : it.WF) (hc : Contractible it) :
    ∃ o, buildItem it = .ok o ∧ Batchwise N o.TN_contract := by
  obtain ⟨o, ho, hf, -⟩ := C23_item it h hc
  exact ⟨o, ho, batchwise_of hf⟩

example : (Item.gate (.rzz 1 (2 : Fin 3) 0)).WF ∧ Contractible (Item.gate (.rzz 1 (2 : Fin 3) 0)) :=
  ⟨by show (2 : Fin 3) ≠ 0; decide, trivial⟩

example : (Item.ringDag (List.finRange 4)).WF ∧ Contractible (Item.ringDag (List.finRange 4)) :=
  ⟨⟨by decide, by decide⟩, rfl⟩

/-! ## C25 -/

theorem circuit_contract (l : List (Item N)) (h : ∀ it ∈ l, it.WF)
    (hc : ∀ it ∈ l, Contractible it) :
    ∃ ops, l.mapM buildItem = .ok ops ∧ Computes (circ N ops).U (circuitOp l) ∧
      ContractsAs (circ N ops).TN_contract_evolution (circuitOp l) := by
  have hb : ∃ ops, l.mapM buildItem = .ok ops ∧
      List.Forall₂ (fun (o : Op) (it : Item N) => buildItem it = .ok o ∧ o.supportTN = true ∧
        ContractsAs o.TN_contract it.op) ops l := by
    induction l with
    | nil => exact ⟨[], rfl, .nil⟩
    | cons it l ih =>
      obtain ⟨o, ho, hs, hf⟩ := item_contract it (h it (by simp)) (contractible_iff (hc it (by simp)))
      obtain ⟨ops, hops, hF⟩ := ih (fun j hj => h j (by simp [hj])) (fun j hj => hc j (by simp [hj]))
      exact ⟨o :: ops, by rw [List.mapM_cons, ho, hops]; rfl, .cons ⟨ho, hs, hf⟩ hF⟩
  obtain ⟨ops, hops, hF⟩ := hb
  obtain ⟨ops', hops', hU, -⟩ := C13_items N l h
  rw [hops] at hops'; cases hops'
  refine ⟨ops, hops, hU, ?_⟩
  have hfold : ContractsAs (fun T b => ops.foldlM (fun T o =>
      if o.supportTN = true then o.TN_contract T b else .error .valueError) T) (circuitOp l) := by
    unfold circuitOp
    clear hops hU h hc
    induction hF with
    | nil => exact contracts_foldlM (N := N) [] (fun o T b =>
        if Op.supportTN o = true then o.TN_contract T b else .error .valueError) (fun _ => 1) (by simp)
    | cons h0 _ ih =>
      obtain ⟨-, hs, hf⟩ := h0
      rename_i o it ops l _
      constructor
      · intro T v hT
        obtain ⟨T1, h1, r1⟩ := hf.1 T v hT
        obtain ⟨T2, h2, r2⟩ := ih.1 T1 _ r1
        refine ⟨T2, ?_, ?_⟩
        · beta_reduce; rw [List.foldlM_cons, if_pos hs, h1]; exact h2
        · rw [List.map_cons, timeOrdered_cons, ← Matrix.mulVec_mulVec]; exact r2
      · intro T n v hT
        obtain ⟨T1, h1, r1⟩ := hf.2 T n v hT
        obtain ⟨T2, h2, r2⟩ := ih.2 T1 n _ r1
        refine ⟨T2, ?_, ?_⟩
        · beta_reduce; rw [List.foldlM_cons, if_pos hs, h1]; exact h2
        · simp only [List.map_cons, timeOrdered_cons, ← Matrix.mulVec_mulVec]; exact r2
  constructor
  · intro T v hT
    obtain ⟨T', h', r⟩ := hfold.1 T v hT
    refine ⟨T', ?_, r⟩
    unfold Circuit.TN_contract_evolution
    rw [if_pos rfl, circ_nqubits, pyAssert_true (IsTen_rank hT), Py.ok_bind, circ_gate]
    exact h'
  · intro T n v hT
    obtain ⟨T', h', r⟩ := hfold.2 T n v hT
    refine ⟨T', ?_, r⟩
    unfold Circuit.TN_contract_evolution
    rw [if_neg (by simp), circ_nqubits, pyAssert_true (IsBatch_rank hT), Py.ok_bind, circ_gate]
    exact h'

/-- C25: for every sequence of gates and layers with a working `TN_contract`,
`TN_contract_evolution(T)` succeeds and is `U() @ flatten(T)`, reshaped; with `batch_mod=True` it
treats every sample like the unbatched call. -/
theorem C25_evolution (l : List (Item N)) (h : ∀ it ∈ l, it.WF) (hc : ∀ it ∈ l, Contractible it) :
    ∃ ops, l.mapM buildItem = .ok ops ∧
      ContractsAs (circ N ops).TN_contract_evolution (circuitOp l) ∧
      (∀ T : Tensor ℂ, T.shape = List.replicate N 2 →
        ∃ T', (circ N ops).TN_contract_evolution T false = .ok T' ∧
          applyFlat N (circ N ops).U T = .ok T') ∧
      Batchwise N (circ N ops).TN_contract_evolution := by
  obtain ⟨ops, hops, hU, hf⟩ := circuit_contract l h hc
  exact ⟨ops, hops, hf, fun T hT => applyFlat_eq hf hU hT, batchwise_of hf⟩

/-- C25, error branch: a tensor of the wrong rank raises AssertionError for every circuit. -/
theorem C25_rank (c : Circuit) (T : Tensor ℂ) (b : Bool)
    (hr : T.rank ≠ c.nqubits + (if b then 1 else 0)) :
    c.TN_contract_evolution T b = .error .assertionError := by
  unfold Circuit.TN_contract_evolution
  cases b
  · rw [if_pos rfl, pyAssert_false (by simpa using hr)]; rfl
  · rw [if_neg (by simp), pyAssert_false (by simpa using hr)]; rfl

/-- C25, error branch: a circuit with an operation flagged `supportTN=False` raises. -/
theorem C25_unsupported (N : ℕ) (ops : List Op) (o : Op) (ho : o ∈ ops) (hs : o.supportTN = false)
    (T : Tensor ℂ) (b : Bool) : Raises ((circ N ops).TN_contract_evolution T b) := by
  unfold Circuit.TN_contract_evolution
  have hf := foldlM_raises (fun T o =>
    if Op.supportTN o = true then o.TN_contract T b else .error .valueError) ops o ho
    (fun T => ⟨.valueError, by rw [if_neg (by simp [hs])]⟩) T
  rw [circ_gate]
  obtain ⟨e, he⟩ := hf
  cases b
  · rw [if_pos rfl]
    by_cases h : T.rank = (circ N ops).nqubits
    · rw [pyAssert_true h]; exact ⟨e, he⟩
    · rw [pyAssert_false h]; exact ⟨_, rfl⟩
  · rw [if_neg (by simp)]
    by_cases h : T.rank = (circ N ops).nqubits + 1
    · rw [pyAssert_true h]; exact ⟨e, he⟩
    · rw [pyAssert_false h]; exact ⟨_, rfl⟩

example : ∀ it ∈ [Item.gate (.h (0 : Fin 3)), .ring (List.finRange 3), .layer .yzy [2, 0] [1, 2, 3, 4, 5, 6],
    .gate (.toffoli 2 0 1)], Item.WF it ∧ Contractible it := by
  intro it hit
  simp only [List.mem_cons, List.not_mem_nil, or_false] at hit
  rcases hit with rfl | rfl | rfl | rfl
  · exact ⟨trivial, trivial⟩
  · exact ⟨⟨by decide, by decide⟩, rfl⟩
  · exact ⟨⟨by decide, by decide, rfl⟩, trivial⟩
  · exact ⟨by show (2 : Fin 3) ≠ 0 ∧ (2 : Fin 3) ≠ 1 ∧ (0 : Fin 3) ≠ 1; decide, trivial⟩

end QTN.Props
