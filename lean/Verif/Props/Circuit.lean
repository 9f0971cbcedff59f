import Verif.Lemmas.Circ
import Verif.Lemmas.View

/-! # Properties C13–C15, C39: circuits -/

namespace QTN.Props

open QTN QTN.Spec Matrix

/-- The circuit obtained by adding operations one after another to `Circuit(N)`. -/
noncomputable def circ (N : ℕ) (ops : List Op) : Circuit := ops.foldl Circuit.add (Circuit.new N)

theorem circ_gate (N : ℕ) (ops : List Op) : (circ N ops).gate = ops := by
  rw [circ, adds_gate]; simp [Circuit.new]

theorem circ_nqubits (N : ℕ) (ops : List Op) : (circ N ops).nqubits = N := by
  rw [circ, adds_nqubits]; rfl

/-! ## C13 -/

/-- C13: for operations whose matrices are `Ms` (in the order of addition), `U()` is the time-ordered
product and `U(left_to_right=False)` the product in the other order. -/
theorem C13_circuit_U (N : ℕ) (ops : List Op) (Ms : List (QOp N))
    (h : List.Forall₂ (fun o M => Computes (Op.U_expand o) M) ops Ms) :
    Computes (circ N ops).U (timeOrdered Ms) ∧
    Computes ((circ N ops).U false) (timeOrdered Ms.reverse) :=
  U_rep_forall₂ _ (circ_nqubits N ops) Ms (by rw [circ_gate]; exact h)

/-- C13 for every sequence of gates and layers on valid wires. -/
theorem C13_items (N : ℕ) (l : List (Item N)) (h : ∀ it ∈ l, it.WF) :
    ∃ ops, l.mapM buildItem = .ok ops ∧ Computes (circ N ops).U (circuitOp l) ∧
      Computes ((circ N ops).U false) (circuitOp l.reverse) := by
  obtain ⟨ops, hops, hf⟩ := items_built l h
  obtain ⟨h1, h2⟩ := C13_circuit_U N ops _ hf
  refine ⟨ops, hops, h1, ?_⟩
  rw [circuitOp, List.map_reverse]; exact h2

/-- C13: the empty circuit is the identity. -/
theorem C13_empty (N : ℕ) : (Circuit.new N).U = .ok (Tensor.eye (2 ^ N)) ∧
    Computes (Circuit.new N).U (1 : QOp N) :=
  ⟨rfl, _, rfl, represents_eye⟩

/-- C13: `U` of a concatenation is the product of the `U`s, the later circuit on the left. -/
theorem C13_concat (N : ℕ) (ops ops' : List Op) (Ms Ms' : List (QOp N))
    (h : List.Forall₂ (fun o M => Computes (Op.U_expand o) M) ops Ms)
    (h' : List.Forall₂ (fun o M => Computes (Op.U_expand o) M) ops' Ms') :
    (circ N (ops ++ ops')).U = (do
      let u ← (circ N ops).U
      let u' ← (circ N ops').U
      u'.matmul u) := by
  obtain ⟨⟨u, hu, ru⟩, -⟩ := C13_circuit_U N ops Ms h
  obtain ⟨⟨u', hu', ru'⟩, -⟩ := C13_circuit_U N ops' Ms' h'
  obtain ⟨⟨w, hw, rw'⟩, -⟩ := C13_circuit_U N (ops ++ ops') (Ms ++ Ms') (List.rel_append h h')
  obtain ⟨v, hv, rv⟩ := ru'.matmul ru
  rw [hu, hu', hw, Py.ok_bind, Py.ok_bind, hv]
  rw [timeOrdered_append] at rw'
  exact congrArg _ (rw'.ext rv)

/-- C13, error branch: if the matrix of one operation cannot be formed, `U()` raises. -/
theorem C13_raises (N : ℕ) (ops : List Op) (o : Op) (ho : o ∈ ops) (h : Raises o.U_expand) (b : Bool) :
    Raises ((circ N ops).U b) := by
  unfold Circuit.U
  rw [circ_gate]
  apply foldlM_raises _ _ o ho
  intro acc
  obtain ⟨e, he⟩ := h
  exact ⟨e, by rw [he]; rfl⟩

example : ∀ it ∈ [Item.gate (.h (0 : Fin 3)), .ring [0, 1, 2], .basic [2, 0] (List.replicate 6 1) 1,
    .gate (.cnot 2 0)], Item.WF it := by
  intro it hit
  simp only [List.mem_cons, List.not_mem_nil, or_false] at hit
  rcases hit with rfl | rfl | rfl | rfl
  · trivial
  · exact ⟨by decide, by decide⟩
  · exact ⟨by decide, by decide, by decide, by simp⟩
  · show (2 : Fin 3) ≠ 0; decide

example : Raises (Op.gate (mkCnot 3 (.list [1, 1]))).U_expand :=
  ⟨.valueError, rfl⟩

/-! ## C14 -/

/-- Squared norm of a `2^N × 1` tensor. -/
noncomputable def colNorm (N : ℕ) (t : Tensor ℂ) : ℝ :=
  ∑ k ∈ Finset.range (2 ^ N), Complex.normSq (t.get [k, 0])

theorem colNorm_isCol {N : ℕ} {t : Tensor ℂ} {v : QState N} (h : IsCol t v) :
    colNorm N t = ∑ a, Complex.normSq (v a) := by
  unfold colNorm
  rw [sum_enc]
  simp only [h.2]

/-- C14: the matrix of a circuit of valid gates and layers is unitary, and multiplying it onto any
column vector keeps the norm. -/
theorem C14_norm (N : ℕ) (l : List (Item N)) (h : ∀ it ∈ l, it.WF) :
    ∃ ops U, ∃ M : QOp N, l.mapM buildItem = .ok ops ∧ (circ N ops).U = .ok U ∧ Represents U M ∧
      IsUnitaryOp M ∧
      ∀ t : Tensor ℂ, t.shape = [2 ^ N, 1] → ∃ w, U.matmul t = .ok w ∧ w.shape = [2 ^ N, 1] ∧
        colNorm N w = colNorm N t := by
  obtain ⟨ops, hops, ⟨U, hU, rU⟩, -⟩ := C13_items N l h
  refine ⟨ops, U, _, hops, hU, rU, circuitOp_unitary l h, ?_⟩
  intro t ht
  have hc : IsCol t (fun a : Bits N => t.get [enc a, 0]) := ⟨ht, fun _ => rfl⟩
  obtain ⟨w, hw, cw⟩ := rU.mulCol hc
  refine ⟨w, hw, cw.1, ?_⟩
  rw [colNorm_isCol cw, colNorm_isCol hc, unitary_norm (circuitOp_unitary l h)]

/-- C14: `state_init()` is the basis state `|0…0⟩`, and the state reached from it has norm one. -/
theorem C14_from_state_init (N : ℕ) (l : List (Item N)) (h : ∀ it ∈ l, it.WF) :
    ∃ ops U t w, l.mapM buildItem = .ok ops ∧ (circ N ops).U = .ok U ∧
      (circ N ops).state_init.view [-1, 1] = .ok t ∧
      IsCol t (fun a : Bits N => if a = 0 then 1 else 0) ∧
      U.matmul t = .ok w ∧ IsCol w (fun a => circuitOp l a 0) ∧ colNorm N w = 1 := by
  obtain ⟨ops, U, M, hops, hU, rU, hM, hn⟩ := C14_norm N l h
  have hMl : M = circuitOp l := by
    obtain ⟨ops', hops', ⟨U', hU', rU'⟩, -⟩ := C13_items N l h
    rw [hops] at hops'; cases hops'
    rw [hU] at hU'; cases hU'
    exact rU.unique rU'
  have hs : (circ N ops).state_init.shape = [2 ^ N] := by
    unfold Circuit.state_init; rw [circ_nqubits]; rfl
  have hcol : IsCol ((circ N ops).state_init.reshapeN [2 ^ N, 1])
      (fun a : Bits N => if a = 0 then 1 else 0) := by
    refine ⟨rfl, fun a => ?_⟩
    rw [Tensor.reshapeN_get_eq (idx' := [enc a]) (by simp [enc_lt]) (by rw [hs]; simp [enc_lt])
      (by rw [hs]; simp [ravel])]
    unfold Circuit.state_init
    rw [circ_nqubits, Tensor.get_ofFn (by simp [enc_lt])]
    have e0 : enc (0 : Bits N) = 0 := by simp [enc]
    simp only [List.getD_cons_zero]
    by_cases ha : a = 0
    · subst ha; simp [e0]
    · rw [if_neg, if_neg ha]
      intro he
      exact ha (enc_injective (he.trans e0.symm))
  obtain ⟨w, hw, cw⟩ := rU.mulCol hcol
  obtain ⟨w', hw', -, hn'⟩ := hn _ hcol.1
  rw [hw] at hw'; cases hw'
  have hv : (circ N ops).state_init.view [-1, 1] =
      .ok ((circ N ops).state_init.reshapeN [2 ^ N, 1]) :=
    Tensor.view_neg_first _ (2 ^ N) [1] (by simp [Tensor.numel, hs]) (by simp)
  refine ⟨ops, U, _, w, hops, hU, hv, hcol, hw, ?_, ?_⟩
  · refine ⟨cw.1, fun a => ?_⟩
    rw [cw.2, hMl]
    simp [Matrix.mulVec, dotProduct]
  · rw [hn', colNorm_isCol hcol]
    simp

/-! ## C15 -/

/-- C15: appending the adjoints in reverse order turns the circuit into the identity, for every
sequence of operations whose class implements `operation_dagger` (all but `ring_of_cnot2` and
`BasicEntangleLayer`). -/
theorem C15_dagger_circuit (N : ℕ) (l : List (Item N)) (h : ∀ it ∈ l, it.WF)
    (h2 : ∀ ws, Item.ring2 ws ∉ l) (hb : ∀ ws p reps, Item.basic ws p reps ∉ l) :
    ∃ (ops dops : List Op), l.mapM buildItem = .ok ops ∧
      ops.mapM Op.operation_dagger = .ok (dops.map some) ∧
      (circ N (ops ++ dops.reverse)).U = .ok (Tensor.eye (2 ^ N)) := by
  have hd : ∀ it ∈ l, Spec.Item.hasDagger it := by
    intro it hit
    cases it with
    | ring2 ws => exact h2 ws hit
    | basic ws p reps => exact hb ws p reps hit
    | _ => trivial
  obtain ⟨ops, dops, hops, h1, h2', h3⟩ := items_dagger l h hd
  refine ⟨ops, dops, hops, ?_, ?_⟩
  · clear hops h2' h3
    induction h1 with
    | nil => rfl
    | cons h0 _ ih => rw [List.mapM_cons, h0, ih]; rfl
  · have h3' := List.forall₂_reverse_iff.2 h3
    obtain ⟨⟨U, hU, rU⟩, -⟩ := C13_circuit_U N (ops ++ dops.reverse) _ (List.rel_append h2' h3')
    rw [hU]
    congr 1
    apply rU.ext
    apply represents_eye.congr
    have e : (l.map (fun it => (it.op)ᴴ)).reverse =
        ((l.map Item.op).map (fun u => uᴴ)).reverse := by rw [List.map_map]; rfl
    rw [timeOrdered_append, e, ← timeOrdered_conjTranspose]
    exact (circuitOp_unitary l h).2.symm

example : ∀ it ∈ [Item.gate (.u3 1 2 3 (0 : Fin 3)), .ring [0, 1, 2],
    .layer .xz [2, 0] [1, 2, 3, 4]], Item.WF it := by
  intro it hit
  simp only [List.mem_cons, List.not_mem_nil, or_false] at hit
  rcases hit with rfl | rfl | rfl
  · trivial
  · exact ⟨by decide, by decide⟩
  · exact ⟨by decide, by decide, rfl⟩

/-! ## C39 -/

/-- The claim of C39 about one circuit: the parameter count is the sum over the operations in it, and
the dictionary has exactly the positions of the operations with their current parameters. -/
def Bookkeeping (c : Circuit) : Prop :=
  c.cir_num_params = (c.gate.map Op.numParams).sum ∧
  ∀ i, c.cir_params i = (c.gate[i]?).map (fun o => if o.numParams ≠ 0 then some o.params else none)

/-- Steps of a circuit's life. -/
inductive Step
  | add (o : Op)
  | clear
  | update (idx : ℕ) (p : List ℝ)

/-- Effect of a step; a failing `params_update` leaves the circuit as it is. -/
noncomputable def Step.run (c : Circuit) : Step → Circuit
  | .add o => c.add o
  | .clear => c.clear
  | .update idx p => ((CM.update idx p) (c, [])).2.1

theorem bookkeeping_add {c : Circuit} (h : Bookkeeping c) (o : Op) : Bookkeeping (c.add o) := by
  obtain ⟨h1, h2⟩ := h
  unfold Circuit.add
  by_cases ho : o.numParams ≠ 0
  · dsimp only
    rw [if_pos ho]
    refine ⟨by simp [h1], fun i => ?_⟩
    simp only [List.length_append, List.length_singleton, Nat.add_sub_cancel]
    by_cases hi : i = c.gate.length
    · subst hi; simp [ho]
    · rw [Function.update_of_ne hi, h2]
      rcases Nat.lt_or_gt_of_ne hi with hlt | hgt
      · rw [List.getElem?_append_left hlt]
      · rw [List.getElem?_eq_none (by omega), List.getElem?_eq_none (by simp; omega)]
  · dsimp only
    rw [if_neg ho]
    have ho' : o.numParams = 0 := not_not.1 ho
    refine ⟨by simp [h1, ho'], fun i => ?_⟩
    simp only [List.length_append, List.length_singleton, Nat.add_sub_cancel]
    by_cases hi : i = c.gate.length
    · subst hi; simp [ho']
    · rw [Function.update_of_ne hi, h2]
      rcases Nat.lt_or_gt_of_ne hi with hlt | hgt
      · rw [List.getElem?_append_left hlt]
      · rw [List.getElem?_eq_none (by omega), List.getElem?_eq_none (by simp; omega)]

/-- C39 for histories of `add` only (the part of the claim that holds): the bookkeeping is exact at
every point.  Missing: histories with `clear` or `params_update`, where the claim is false
(`C39_clear_breaks`, `C39_update_breaks`). -/
theorem C39_adds_partial (N : ℕ) (ops : List Op) : Bookkeeping (circ N ops) := by
  have : ∀ (ops : List Op) (c : Circuit), Bookkeeping c → Bookkeeping (ops.foldl Circuit.add c) := by
    intro ops
    induction ops with
    | nil => intro c h; exact h
    | cons o ops ih => intro c h; exact ih _ (bookkeeping_add h o)
  exact this ops _ ⟨rfl, fun i => by simp [Circuit.new]⟩

theorem add_num (c : Circuit) (o : Op) :
    (c.add o).cir_num_params = c.cir_num_params + o.numParams := by
  unfold Circuit.add
  dsimp only
  split_ifs with h
  · rfl
  · have : o.numParams = 0 := not_not.1 h
    simp [this]

/-- C39, what the counter really is over every history: the number of parameters of all operations
ever added, whatever was cleared or updated since. -/
theorem C39_counter_is_total_ever_added (N : ℕ) (history : List Step) :
    (history.foldl Step.run (Circuit.new N)).cir_num_params =
      (history.map (fun s => match s with | .add o => o.numParams | _ => 0)).sum := by
  have : ∀ (hist : List Step) (c : Circuit), (hist.foldl Step.run c).cir_num_params =
      c.cir_num_params +
        (hist.map (fun s => match s with | .add o => o.numParams | _ => 0)).sum := by
    intro hist
    induction hist with
    | nil => intro c; simp
    | cons s hist ih =>
      intro c
      rw [List.foldl_cons, ih, List.map_cons, List.sum_cons]
      cases s with
      | add o => simp only [Step.run, add_num]; omega
      | clear => simp [Step.run, Circuit.clear]
      | update idx p =>
        have : (Step.run c (.update idx p)).cir_num_params = c.cir_num_params := by
          unfold Step.run CM.update
          dsimp only
          cases c.gate[idx]? with
          | none => rfl
          | some o =>
            dsimp only
            cases o.params_update p <;> rfl
        rw [this]; simp
  simpa [Circuit.new] using this history (Circuit.new N)

/-- C39, negation: `clear()` does not reset the bookkeeping. -/
theorem C39_clear_breaks :
    ¬ Bookkeeping ([Step.add (.gate (mkRx 0.5 1 (.int 0))), .clear].foldl Step.run (Circuit.new 1)) := by
  intro h
  have h1 := h.1
  have e : ([Step.add (.gate (mkRx 0.5 1 (.int 0))), .clear].foldl Step.run
      (Circuit.new 1)).cir_num_params = 1 := by
    rw [C39_counter_is_total_ever_added]; rfl
  rw [e] at h1
  simp [Step.run, Circuit.clear] at h1

/-- C39, negation: `params_update` on an operation of the circuit leaves the dictionary stale. -/
theorem C39_update_breaks :
    ¬ Bookkeeping ([Step.add (.gate (mkRx 0 1 (.int 0))), .update 0 [1]].foldl Step.run
      (Circuit.new 1)) := by
  intro h
  have h2 := h.2 0
  have e1 : ([Step.add (.gate (mkRx 0 1 (.int 0))), .update 0 [1]].foldl Step.run
      (Circuit.new 1)).cir_params 0 = some (some (.scalar 0)) := rfl
  have e2 : ([Step.add (.gate (mkRx 0 1 (.int 0))), .update 0 [1]].foldl Step.run
      (Circuit.new 1)).gate[0]? = some (.gate (mkRx 1 1 (.int 0))) := rfl
  rw [e1, e2] at h2
  have e3 : (Op.gate (mkRx 1 1 (.int 0))).params = .scalar 1 := rfl
  have e4 : (Op.gate (mkRx 1 1 (.int 0))).numParams = 1 := rfl
  simp [e3, e4] at h2

end QTN.Props
