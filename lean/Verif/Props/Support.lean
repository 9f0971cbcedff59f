import Verif.Props.Expect
import Verif.Props.Contract

/-! # Property C53: `supportTN` and the tensor-network methods -/

namespace QTN.Props

open QTN QTN.Spec Matrix

variable {N : ℕ}

/-- C53: `TN_check` returns True exactly if no operation is a multi_control_cnot, a ring_of_cnot2 or a
BasicEntangleLayer. -/
theorem C53_check (l : List (Item N)) (ops : List Op) (hops : l.mapM buildItem = .ok ops) :
    (circ N ops).TN_check = true ↔ ∀ it ∈ l, ¬ Unflagged it := by
  unfold Circuit.TN_check
  rw [circ_gate, List.all_eq_true]
  constructor
  · intro h it hit hu
    obtain ⟨o, ho, hb⟩ := forall₂_mem (mapM_mem hops) hit
    have := h o ho
    rw [(build_supportTN it o hb).2 hu] at this
    simp at this
  · intro h o ho
    obtain ⟨j, hj, hb⟩ := forall₂_mem (mapM_mem hops).flip ho
    by_contra hno
    exact h j hj ((build_supportTN j o hb).1 (by simpa using hno))

/-- The operations flagged `supportTN=True` whose `TN_operation` is missing or raises: rxx, ryy, rzz and
the CNOT rings on wires other than `0, …, N-1`. -/
def Broken : Item N → Prop
  | .gate (.rxx _ _ _) | .gate (.ryy _ _ _) | .gate (.rzz _ _ _) => True
  | .ring ws | .ringDag ws => ws ≠ List.finRange N
  | _ => False

/-- The operations flagged `supportTN=True` whose `TN_contract` raises. -/
def BrokenContract : Item N → Prop
  | .ring ws | .ringDag ws => ws ≠ List.finRange N
  | _ => False

theorem hasTN_of {it : Item N} (h : ¬ Unflagged it) (hb : ¬ Broken it) : HasTN it := by
  cases it with
  | gate ins => cases ins <;> first | trivial | exact absurd trivial hb | exact absurd trivial h
  | ring ws => exact not_not.1 hb
  | ringDag ws => exact not_not.1 hb
  | ring2 ws => exact absurd trivial h
  | basic ws p r => exact absurd trivial h
  | _ => trivial

theorem not_hasTN_of {it : Item N} (hb : Broken it) : ¬ HasTN it := by
  cases it with
  | gate ins => cases ins <;> first | exact id | exact hb.elim
  | ring ws => exact hb
  | ringDag ws => exact hb
  | _ => exact hb.elim

theorem contractible_of {it : Item N} (h : ¬ Unflagged it) (hb : ¬ BrokenContract it) : Contractible it := by
  cases it with
  | gate ins => cases ins <;> first | trivial | exact absurd trivial h
  | ring ws => exact not_not.1 hb
  | ringDag ws => exact not_not.1 hb
  | ring2 ws => exact absurd trivial h
  | basic ws p r => exact absurd trivial h
  | _ => trivial

/-- C53, partial (the full statement has no hypothesis `hb`; it is false without it, see
`C53_evolution_raises` and `C53_contract_raises`): a circuit that passes `TN_check` and contains no
broken operation is accepted by both evolutions, which compute what `U()` computes. -/
theorem C53_accepts_partial {svd : SVDOracle} (hv : ValidSVD svd) (hN : 0 < N) (l : List (Item N))
    (h : ∀ it ∈ l, it.WF) (ops : List Op) (hops : l.mapM buildItem = .ok ops)
    (hc : (circ N ops).TN_check = true) (hb : ∀ it ∈ l, ¬ Broken it) :
    Evolves ((circ N ops).TN_evolution svd) (circ N ops).U (circuitOp l) ∧
      ContractsAs (circ N ops).TN_contract_evolution (circuitOp l) := by
  have hu := (C53_check l ops hops).1 hc
  have ht : ∀ it ∈ l, HasTN it := fun it hit => hasTN_of (hu it hit) (hb it hit)
  obtain ⟨ops1, h1, he⟩ := C22_evolution hv hN l h ht
  rw [hops] at h1; cases h1
  obtain ⟨ops2, h2, hd, -⟩ := C25_evolution l h fun it hit => contractible_of (hu it hit) (by
    have := hb it hit
    cases it <;> first | exact this | exact id)
  rw [hops] at h2; cases h2
  exact ⟨he, hd⟩

/-- C53, partial: with `TN_contract_evolution` only the CNOT rings on other wires are to be excluded. -/
theorem C53_contract_partial (l : List (Item N)) (h : ∀ it ∈ l, it.WF) (ops : List Op)
    (hops : l.mapM buildItem = .ok ops) (hc : (circ N ops).TN_check = true)
    (hb : ∀ it ∈ l, ¬ BrokenContract it) :
    ContractsAs (circ N ops).TN_contract_evolution (circuitOp l) := by
  have hu := (C53_check l ops hops).1 hc
  obtain ⟨ops2, h2, hd, -⟩ := C25_evolution l h fun it hit => contractible_of (hu it hit) (hb it hit)
  rw [hops] at h2; cases h2
  exact hd

/-- C53 is false: a circuit with a broken operation passes `TN_check` (if nothing else in it is
unflagged), but `TN_evolution` raises for every state and every SVD routine, while `U()` is
computed. -/
theorem C53_evolution_raises (svd : SVDOracle) (l : List (Item N)) (h : ∀ it ∈ l, it.WF)
    (hf : ∀ it ∈ l, ¬ Unflagged it) (it : Item N) (hit : it ∈ l) (hb : Broken it) :
    ∃ ops, l.mapM buildItem = .ok ops ∧ (circ N ops).TN_check = true ∧
      Computes (circ N ops).U (circuitOp l) ∧
      ∀ mps s, ∃ e s', (circ N ops).TN_evolution svd mps s = (.error e, s') := by
  obtain ⟨ops, hops, hU, -⟩ := C13_items N l h
  refine ⟨ops, hops, (C53_check l ops hops).2 hf, hU, fun mps s => ?_⟩
  obtain ⟨o, ho, hbu⟩ := forall₂_mem (mapM_mem hops) hit
  by_cases hl : mps.length = (circ N ops).nqubits
  · unfold Circuit.TN_evolution
    rw [raiseIf_false (by simpa using hl), TNM.lift_ok_bind, circ_gate]
    refine tnm_foldlM_raises _ ops o ho (fun b s => ?_) mps s
    split
    · exact flagged_raises svd it (h it hit) (hf it hit) (not_hasTN_of hb) o hbu b s
    · exact ⟨_, _, rfl⟩
  · exact ⟨_, _, C22_wrong_length svd _ mps s hl⟩

/-- C53 is false for `TN_contract_evolution`: a CNOT ring on other wires passes `TN_check`, but the
contraction raises for every tensor, batched or not. -/
theorem C53_contract_raises (l : List (Item N)) (h : ∀ it ∈ l, it.WF)
    (hf : ∀ it ∈ l, ¬ Unflagged it) (it : Item N) (hit : it ∈ l) (hb : BrokenContract it) :
    ∃ ops, l.mapM buildItem = .ok ops ∧ (circ N ops).TN_check = true ∧
      Computes (circ N ops).U (circuitOp l) ∧
      ∀ T b, Raises ((circ N ops).TN_contract_evolution T b) := by
  obtain ⟨ops, hops, hU, -⟩ := C13_items N l h
  refine ⟨ops, hops, (C53_check l ops hops).2 hf, hU, fun T b => ?_⟩
  obtain ⟨o, ho, hbu⟩ := forall₂_mem (mapM_mem hops) hit
  have hr : ∀ T, Raises (o.TN_contract T b) := by
    intro T
    cases it with
    | ring ws =>
      obtain ⟨g, hg, hbu⟩ := py_bind_ok hbu
      obtain ⟨_, _, hg⟩ := py_bind_ok hg
      obtain ⟨_, _, hg⟩ := py_bind_ok hg
      cases hbu; cases hg
      exact ⟨_, (C23_ring_wires_raise ws hb T b).1⟩
    | ringDag ws =>
      obtain ⟨g, hg, hbu⟩ := py_bind_ok hbu
      obtain ⟨_, _, hg⟩ := py_bind_ok hg
      obtain ⟨_, _, hg⟩ := py_bind_ok hg
      cases hbu; cases hg
      exact ⟨_, (C23_ring_wires_raise ws hb T b).2⟩
    | _ => exact hb.elim
  obtain ⟨e, he⟩ := foldlM_raises (fun T o =>
    if Op.supportTN o = true then o.TN_contract T b else .error .valueError) ops o ho
    (fun T => by split; exacts [hr T, ⟨_, rfl⟩]) T
  unfold Circuit.TN_contract_evolution
  rw [circ_gate]
  cases b
  · rw [if_pos rfl]
    by_cases h : T.rank = (circ N ops).nqubits
    · rw [pyAssert_true h]; exact ⟨e, he⟩
    · rw [pyAssert_false h]; exact ⟨_, rfl⟩
  · rw [if_neg (by simp)]
    by_cases h : T.rank = (circ N ops).nqubits + 1
    · rw [pyAssert_true h]; exact ⟨e, he⟩
    · rw [pyAssert_false h]; exact ⟨_, rfl⟩

/-- C53: which circuits that pass `TN_check` are accepted by `TN_contract_evolution`. -/
theorem C53_contract_iff (l : List (Item N)) (h : ∀ it ∈ l, it.WF) (ops : List Op)
    (hops : l.mapM buildItem = .ok ops) (hc : (circ N ops).TN_check = true) :
    (∀ T : Tensor ℂ, T.shape = List.replicate N 2 → ∃ T', (circ N ops).TN_contract_evolution T false = .ok T') ↔
      ∀ it ∈ l, ¬ BrokenContract it := by
  constructor
  · intro ha it hit hb
    obtain ⟨ops', h1, -, -, hr⟩ := C53_contract_raises l h ((C53_check l ops hops).1 hc) it hit hb
    rw [hops] at h1; cases h1
    obtain ⟨T', hT'⟩ := ha (Tensor.ofFn (List.replicate N 2) (fun _ => 0)) rfl
    obtain ⟨e, he⟩ := hr (Tensor.ofFn (List.replicate N 2) (fun _ => 0)) false
    rw [hT'] at he; cases he
  · intro hb T hT
    obtain ⟨T', hT', -⟩ := (C53_contract_partial l h ops hops hc hb).1 T _ (isTen_of_shape hT)
    exact ⟨T', hT'⟩

/-- Hadamard and rzz: flagged, broken, contractible. -/
example : (∀ it ∈ [Item.gate (.h (0 : Fin 2)), .gate (.rzz 0.5 0 1)], Item.WF it ∧ ¬ Unflagged it ∧
    ¬ BrokenContract it) ∧ Broken (.gate (.rzz 0.5 0 1) : Item 2) := by
  refine ⟨fun it hit => ?_, trivial⟩
  simp only [List.mem_cons, List.not_mem_nil, or_false] at hit
  rcases hit with rfl | rfl
  · exact ⟨trivial, id, id⟩
  · exact ⟨show (0 : Fin 2) ≠ 1 by decide, id, id⟩

/-- A ring on two of three wires. -/
example : Item.WF (.ring [2, 0] : Item 3) ∧ ¬ Unflagged (.ring [2, 0] : Item 3) ∧
    BrokenContract (.ring [2, 0] : Item 3) :=
  ⟨⟨by decide, by decide⟩, id, show ([2, 0] : List (Fin 3)) ≠ List.finRange 3 by decide⟩

/-- A circuit that is accepted. -/
example : ∀ it ∈ [Item.gate (.h (0 : Fin 3)), .ring (List.finRange 3), .layer .yzy [2, 0] [1, 2, 3, 4, 5, 6]],
    Item.WF it ∧ ¬ Unflagged it ∧ ¬ Broken it := by
  intro it hit
  simp only [List.mem_cons, List.not_mem_nil, or_false] at hit
  rcases hit with rfl | rfl | rfl
  · exact ⟨trivial, id, id⟩
  · exact ⟨⟨by decide, by decide⟩, id, fun h => h rfl⟩
  · exact ⟨⟨by decide, by decide, rfl⟩, id, id⟩

end QTN.Props
