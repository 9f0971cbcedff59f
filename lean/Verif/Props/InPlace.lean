import Verif.Lemmas.InPlaceGrad
import Verif.Props.Mps
import Verif.Props.Embedding
import Verif.Props.RepeatedControls
import Verif.Props.Grad2

/-! # Property C67: the matrix product state is changed in place -/

namespace QTN.Props

open QTN QTN.Spec Matrix

variable {N : ℕ}

/-! ## C67 -/

/-- The call `f` on the list object `r` in the world `w` does what `F` does to values: it returns `r` itself or
raises what `F` raises; the content of `r` is then what `F` returns; no other list and not the circuit
changes; an exception leaves a list of the same length. -/
def ActsOnList (F : List (Tensor ℂ) → TNM (List (Tensor ℂ))) (f : LRef → LM LRef) : Prop :=
  ∀ r w, ∃ res w', f r w = (res, w') ∧ (∀ x, x ≠ r → w'.lists x = w.lists x) ∧ w'.next = w.next ∧ w'.cir = w.cir ∧
    (w'.lists r).length = (w.lists r).length ∧
    ((res = .ok r ∧ F (w.lists r) w.log = (.ok (w'.lists r), w'.log)) ∨
      ∃ e, res = .error e ∧ F (w.lists r) w.log = (.error e, w'.log))

theorem actsOnList_of {F : List (Tensor ℂ) → TNM (List (Tensor ℂ))} {f : LRef → LM LRef} (h : InPlace F f) :
    ActsOnList F f := by
  intro r w
  rcases h r w with ⟨m, s, h1, h2, h3⟩ | ⟨e, m, s, h1, h2, h3⟩
  · refine ⟨_, _, h3, fun x hx => w.put_other hx m s, rfl, rfl, by rw [LWorld.put_lists, h2], .inl ⟨rfl, ?_⟩⟩
    rw [LWorld.put_lists]; exact h1
  · exact ⟨_, _, h3, fun x hx => w.put_other hx m s, rfl, rfl, by rw [LWorld.put_lists, h2], .inr ⟨e, rfl, h1⟩⟩

/-- C67: `TN_operation` of every gate, layer and encoding, and `TN_evolution` of every circuit, work on the
caller's list and return it; on every argument, including those that raise. -/
theorem C67_in_place (svd : SVDOracle) (o : Op) (e : PauliEnc) (c : Circuit) :
    ActsOnList (fun m => o.TN_operation svd m) (fun r => o.TN_operationL svd r) ∧
    ActsOnList (fun m => TNM.lift (e.TN_operation m)) (fun r => e.TN_operationL r) ∧
    ActsOnList (fun m => c.TN_evolution svd m) (fun r => c.TN_evolutionL svd r) :=
  ⟨actsOnList_of (inPlace_op svd o), actsOnList_of (inPlace_enc e), actsOnList_of (inPlace_evolution svd c)⟩

/-- The record of decompositions is the one of the functions on values. -/
theorem evolution_log (svd : SVDOracle) (c : Circuit) (r : LRef) (w : LWorld) :
    (c.TN_evolutionL svd r w).2.log = (c.TN_evolution svd (w.lists r) w.log).2 := by
  rcases inPlace_evolution svd c r w with ⟨m, s, h1, -, h2⟩ | ⟨e, m, s, h1, -, h2⟩
  · rw [show c.TN_evolutionL svd r w = _ from h2, show c.TN_evolution svd _ _ = _ from h1]; rfl
  · rw [show c.TN_evolutionL svd r w = _ from h2, show c.TN_evolution svd _ _ = _ from h1]; rfl

/-- C67: after `TN_evolution(MPS)` the caller's `MPS` is the returned object and holds the final state. -/
theorem C67_argument_evolved {svd : SVDOracle} (hv : ValidSVD svd) (hN : 0 < N) (l : List (Item N))
    (h : ∀ it ∈ l, it.WF) (hc : ∀ it ∈ l, HasTN it) :
    ∃ ops, l.mapM buildItem = .ok ops ∧ ∀ (r : LRef) (w : LWorld) (v : QState N), HoldsState (w.lists r) v →
      v ≠ 0 → (∀ A ∈ ((circ N ops).TN_evolutionL svd r w).2.log, Lossless A) →
      ∃ w', (circ N ops).TN_evolutionL svd r w = (.ok r, w') ∧ HoldsState (w'.lists r) (circuitOp l *ᵥ v) ∧
        ∀ x, x ≠ r → w'.lists x = w.lists x := by
  obtain ⟨ops, hops, hE⟩ := C22_evolution hv hN l h hc
  refine ⟨ops, hops, fun r w v hm h0 hl => ?_⟩
  obtain ⟨res, w', h1, h2, -, -, -, h3⟩ := actsOnList_of (inPlace_evolution svd (circ N ops)) r w
  have h1' : (circ N ops).TN_evolutionL svd r w = (res, w') := h1
  rw [h1'] at hl
  have hlog : ((circ N ops).TN_evolution svd (w.lists r) w.log).2 = w'.log := by
    rcases h3 with ⟨-, h3⟩ | ⟨e, -, h3⟩
    · exact congrArg Prod.snd h3
    · exact congrArg Prod.snd h3
  rcases hE (w.lists r) v w.log hm (by rw [hlog]; exact hl) with ⟨m', s', -, -, e1, e2, -⟩ | ⟨e, -⟩
  · rcases h3 with ⟨rfl, h3⟩ | ⟨e, -, h3⟩
    · rw [show (circ N ops).TN_evolution svd (w.lists r) w.log = _ from h3] at e1
      cases e1
      exact ⟨w', h1, e2, h2⟩
    · rw [show (circ N ops).TN_evolution svd (w.lists r) w.log = _ from h3] at e1
      cases e1
  · exact absurd e h0

/-- C67 is false as "the argument is left unchanged": unless the circuit maps the state to itself, the list the
caller passed no longer holds the initial state. -/
theorem C67_argument_lost {svd : SVDOracle} (hv : ValidSVD svd) (hN : 0 < N) (l : List (Item N))
    (h : ∀ it ∈ l, it.WF) (hc : ∀ it ∈ l, HasTN it) :
    ∃ ops, l.mapM buildItem = .ok ops ∧ ∀ (r : LRef) (w : LWorld) (v : QState N), HoldsState (w.lists r) v →
      circuitOp l *ᵥ v ≠ v → (∀ A ∈ ((circ N ops).TN_evolutionL svd r w).2.log, Lossless A) →
      ¬ HoldsState (((circ N ops).TN_evolutionL svd r w).2.lists r) v := by
  obtain ⟨ops, hops, H⟩ := C67_argument_evolved hv hN l h hc
  refine ⟨ops, hops, fun r w v hm hne hl hh => hne ?_⟩
  obtain ⟨w', e1, e2, -⟩ := H r w v hm (fun h0 => hne (by rw [h0, Matrix.mulVec_zero])) hl
  rw [e1] at hh
  exact e2.unique hh

/-- C67: evaluating a second circuit on the same list continues from the final state of the first; both calls
return the same object, so the first result is overwritten too. -/
theorem C67_second_run {svd : SVDOracle} (hv : ValidSVD svd) (hN : 0 < N) (l l' : List (Item N))
    (h : ∀ it ∈ l, it.WF) (hc : ∀ it ∈ l, HasTN it) (h' : ∀ it ∈ l', it.WF) (hc' : ∀ it ∈ l', HasTN it) :
    ∃ ops ops', l.mapM buildItem = .ok ops ∧ l'.mapM buildItem = .ok ops' ∧
      ∀ (r : LRef) (w : LWorld) (v : QState N), HoldsState (w.lists r) v → v ≠ 0 → circuitOp l *ᵥ v ≠ 0 →
      (∀ A ∈ ((circ N ops).TN_evolutionL svd r w).2.log, Lossless A) →
      (∀ A ∈ ((circ N ops').TN_evolutionL svd r ((circ N ops).TN_evolutionL svd r w).2).2.log, Lossless A) →
      ∃ w' w'', (circ N ops).TN_evolutionL svd r w = (.ok r, w') ∧
        (circ N ops').TN_evolutionL svd r w' = (.ok r, w'') ∧
        HoldsState (w''.lists r) (circuitOp l' *ᵥ (circuitOp l *ᵥ v)) := by
  obtain ⟨ops, hops, H⟩ := C67_argument_evolved hv hN l h hc
  obtain ⟨ops', hops', H'⟩ := C67_argument_evolved hv hN l' h' hc'
  refine ⟨ops, ops', hops, hops', fun r w v hm h0 h1 hl hl' => ?_⟩
  obtain ⟨w', e1, e2, -⟩ := H r w v hm h0 hl
  rw [e1] at hl'
  obtain ⟨w'', e3, e4, -⟩ := H' r w' _ e2 h1 hl'
  exact ⟨w', w'', e1, e3, e4⟩

/-- C67: `TN_evolution` is not atomic.  If an operation without tensor-network support comes after the
operations `l`, the call raises ValueError and leaves the caller's list in the state reached by `l`. -/
theorem C67_failure_not_atomic {svd : SVDOracle} (hv : ValidSVD svd) (hN : 0 < N) (l : List (Item N))
    (h : ∀ it ∈ l, it.WF) (hc : ∀ it ∈ l, HasTN it) (o : Op) (ho : o.supportTN = false) (post : List Op) :
    ∃ ops, l.mapM buildItem = .ok ops ∧ ∀ (r : LRef) (w : LWorld) (v : QState N), HoldsState (w.lists r) v →
      v ≠ 0 → (∀ A ∈ ((circ N (ops ++ o :: post)).TN_evolutionL svd r w).2.log, Lossless A) →
      ∃ w', (circ N (ops ++ o :: post)).TN_evolutionL svd r w = (.error .valueError, w') ∧
        HoldsState (w'.lists r) (circuitOp l *ᵥ v) := by
  obtain ⟨ops, hops, H⟩ := C67_argument_evolved hv hN l h hc
  refine ⟨ops, hops, fun r w v hm h0 hl => ?_⟩
  have hlen : (w.lists r).length = N := hm.1
  have key : ∀ (l1 l2 : List Op) (w : LWorld) (f : LRef → Op → LM LRef), (l1 ++ l2).foldlM f r w =
      (l1.foldlM f r >>= fun r => l2.foldlM f r) w := by
    intro l1 l2 w f
    clear hl hm hlen
    induction l1 generalizing r w with
    | nil => rfl
    | cons a l1 ih =>
      rw [List.cons_append, List.foldlM_cons, List.foldlM_cons]
      rw [LM.bind_eq, LM.bind_eq, LM.bind_eq]
      rcases f r a w with ⟨(e | r1), w1⟩
      · rfl
      · exact ih r1 w1
  have unf : ∀ gs : List Op, (circ N gs).TN_evolutionL svd r w = gs.foldlM (fun r o =>
      if o.supportTN = true then o.TN_operationL svd r else LM.py (.error .valueError)) r w := by
    intro gs
    unfold Circuit.TN_evolutionL
    rw [LM.bind_ok (show LM.content r w = (.ok (w.lists r), w) from rfl),
      raiseIf_false (by simp [circ_nqubits, hlen]), LM.py_ok_bind, circ_gate]
  rw [unf, key] at hl
  have stop : ∀ w', ((o :: post).foldlM (fun r o =>
      if o.supportTN = true then o.TN_operationL svd r else LM.py (.error .valueError)) r w') = (.error .valueError, w') := by
    intro w'
    rw [List.foldlM_cons, if_neg (by simp [ho])]
    rfl
  rcases inPlace_gates svd ops r w with ⟨m, s, h1, -, h2⟩ | ⟨e, m, s, h1, -, h2⟩
  · have h2' : ops.foldlM (fun r o => if o.supportTN = true then o.TN_operationL svd r
        else LM.py (.error .valueError)) r w = (.ok r, w.put r m s) := h2
    rw [LM.bind_ok h2', stop] at hl
    obtain ⟨w', e1, e2, -⟩ := H r w v hm h0 (by rw [unf, h2']; exact hl)
    rw [unf, h2'] at e1
    cases e1
    refine ⟨w.put r m s, ?_, e2⟩
    rw [unf, key, LM.bind_ok h2', stop]
  · have h2' : ops.foldlM (fun r o => if o.supportTN = true then o.TN_operationL svd r
        else LM.py (.error .valueError)) r w = (.error e, w.put r m s) := h2
    rw [LM.bind_error h2'] at hl
    obtain ⟨w', e1, e2, -⟩ := H r w v hm h0 (by rw [unf, h2']; exact hl)
    rw [unf, h2'] at e1
    cases e1

/-- The world with one list, the product state `(|0⟩ + 2i|1⟩)|0⟩`. -/
noncomputable def world2 : LWorld := ⟨fun _ => [site1 1 (2 * Complex.I), site1 1 0], 1, circ 2 [], []⟩

/-- The state of `world2`. -/
noncomputable def state2 : QState 2 :=
  fun a => (if a 0 = 0 then 1 else 2 * Complex.I) * (if a 1 = 0 then 1 else 0)

theorem world2_holds : HoldsState (world2.lists 0) state2 := holds_iff.2 (site1_pair 1 (2 * Complex.I) 1 0)

theorem state2_ne : state2 ≠ 0 := fun h => by
  have := congrFun h ![0, 0]
  simp [state2] at this

theorem cnot2_ops : [Item.gate (.cnot (0 : Fin 2) 1)].mapM buildItem = .ok [.gate (mkCnot 2 (.list [0, 1]))] := rfl

theorem cnot2_moves : circuitOp [Item.gate (.cnot (0 : Fin 2) 1)] *ᵥ state2 ≠ state2 ∧
    circuitOp [Item.gate (.cnot (0 : Fin 2) 1)] *ᵥ state2 ≠ 0 := by
  have e : circuitOp [Item.gate (.cnot (0 : Fin 2) 1)] = controlled [(0 : Fin 2)] 1 X := by
    simp [circuitOp, Item.op, Instr.op, timeOrdered]
  have h : (circuitOp [Item.gate (.cnot (0 : Fin 2) 1)] *ᵥ state2) ![1, 1] = 2 * Complex.I := by
    rw [e]
    simp only [Matrix.mulVec, dotProduct]
    rw [sum_bits2]
    simp [controlled, onQubit, Spec.X, state2]
  refine ⟨fun h' => ?_, fun h' => ?_⟩
  · have := (congrFun h' ![1, 1]).symm.trans h
    simp [state2] at this
  · have := (congrFun h' ![1, 1]).symm.trans h
    simp at this

theorem cnot2_log {svd : SVDOracle} (hv : ValidSVD svd) (post : List Op) (hp : ∀ o, post.head? = some o → o.supportTN = false) :
    ∀ A ∈ ((circ 2 (.gate (mkCnot 2 (.list [0, 1])) :: post)).TN_evolutionL svd 0 world2).2.log, Lossless A := by
  have hl := cnot_run_lossless hv (p := 1) (q := 2 * Complex.I) (by norm_num) (by norm_num)
  rw [evolution_log]
  unfold Circuit.TN_evolution
  rw [raiseIf_false (by simp [circ_nqubits, world2]), TNM.lift_ok_bind, circ_gate, List.foldlM_cons,
    if_pos (show (Op.gate (mkCnot 2 (.list [0, 1]))).supportTN = true from rfl)]
  show ∀ A ∈ (((mkCnot 2 (.list [0, 1])).TN_operation svd [site1 1 (2 * Complex.I), site1 1 0] >>= fun m =>
    post.foldlM _ m) []).2, Lossless A
  rcases hx : (mkCnot 2 (.list [0, 1])).TN_operation svd [site1 1 (2 * Complex.I), site1 1 0] [] with ⟨(e | m), s⟩
  · rw [TNM.bind_error hx]
    rw [hx] at hl; exact hl
  · rw [TNM.bind_ok hx]
    rw [hx] at hl
    cases post with
    | nil => exact hl
    | cons o post =>
      rw [List.foldlM_cons, if_neg (by simp [hp o rfl])]
      exact hl

/-- A CNOT that entangles the state: the hypotheses of `C67_argument_evolved` and `C67_argument_lost`. -/
example : ∃ svd, ValidSVD svd ∧ ∃ (ops : List Op) (r : LRef) (w : LWorld) (v : QState 2),
    [Item.gate (.cnot (0 : Fin 2) 1)].mapM buildItem = .ok ops ∧ HoldsState (w.lists r) v ∧ v ≠ 0 ∧
    circuitOp [Item.gate (.cnot (0 : Fin 2) 1)] *ᵥ v ≠ v ∧
    ∀ A ∈ ((circ 2 ops).TN_evolutionL svd r w).2.log, Lossless A := by
  obtain ⟨svd, hv⟩ := exists_validSVD
  exact ⟨svd, hv, _, 0, world2, state2, cnot2_ops, world2_holds, state2_ne, cnot2_moves.1, cnot2_log hv [] (by simp)⟩

/-- The same, followed by a Pauli X on the same list: the hypotheses of `C67_second_run`. -/
example : ∃ svd, ValidSVD svd ∧ ∃ (ops ops' : List Op) (r : LRef) (w : LWorld) (v : QState 2),
    [Item.gate (.cnot (0 : Fin 2) 1)].mapM buildItem = .ok ops ∧
    [Item.gate (.x (0 : Fin 2))].mapM buildItem = .ok ops' ∧ HoldsState (w.lists r) v ∧ v ≠ 0 ∧
    circuitOp [Item.gate (.cnot (0 : Fin 2) 1)] *ᵥ v ≠ 0 ∧
    (∀ A ∈ ((circ 2 ops).TN_evolutionL svd r w).2.log, Lossless A) ∧
    ∀ A ∈ ((circ 2 ops').TN_evolutionL svd r ((circ 2 ops).TN_evolutionL svd r w).2).2.log, Lossless A := by
  obtain ⟨svd, hv⟩ := exists_validSVD
  have hl := cnot2_log hv [] (by simp)
  refine ⟨svd, hv, _, [.gate (mkPauliX 2 (.int 0))], 0, world2, state2, cnot2_ops, rfl, world2_holds, state2_ne,
    cnot2_moves.2, hl, ?_⟩
  obtain ⟨ops, hops, H⟩ := C67_argument_evolved hv (by omega) [Item.gate (.cnot (0 : Fin 2) 1)]
    (by simp [Item.WF, Instr.WF]) (by intro it hit; rw [List.mem_singleton.1 hit]; trivial)
  rw [cnot2_ops] at hops
  cases hops
  obtain ⟨w', e1, e2, -⟩ := H 0 world2 state2 world2_holds state2_ne hl
  rw [e1] at hl ⊢
  rw [evolution_log]
  unfold Circuit.TN_evolution
  rw [raiseIf_false (by simpa [circ_nqubits] using e2.1), TNM.lift_ok_bind, circ_gate, List.foldlM_cons,
    if_pos (show (Op.gate (mkPauliX 2 (.int 0))).supportTN = true from rfl)]
  show ∀ A ∈ ((((mkPauliX 2 (.int 0)).TN_operation svd (w'.lists 0)) >>= fun a => pure a) w'.log).2, _
  rw [TNM.bind_pure]
  exact hl

/-- The same CNOT with an unsupported layer behind it: the hypotheses of `C67_failure_not_atomic`. -/
example : ∃ svd, ValidSVD svd ∧ ∃ (ops : List Op) (o : Op) (r : LRef) (w : LWorld) (v : QState 2),
    [Item.gate (.cnot (0 : Fin 2) 1)].mapM buildItem = .ok ops ∧ o.supportTN = false ∧
    buildItem (.ring2 [0, 1] : Item 2) = .ok o ∧ HoldsState (w.lists r) v ∧ v ≠ 0 ∧
    ∀ A ∈ ((circ 2 (ops ++ o :: [])).TN_evolutionL svd r w).2.log, Lossless A := by
  obtain ⟨svd, hv⟩ := exists_validSVD
  refine ⟨svd, hv, _, _, 0, world2, state2, cnot2_ops, ?_, rfl, world2_holds, state2_ne, cnot2_log hv [_] ?_⟩
  · rfl
  · intro o ho; cases ho; rfl

/-- `toffoli` with wires `[a, a, t]`, `a` the last qubit and `t = a - 2`: one SWAP, then an exception. -/
theorem toffoli_half (svd : SVDOracle) (a b t : Fin N) (ha : (a : ℕ) + 1 = N) (hb : (b : ℕ) + 1 = a)
    (ht : (t : ℕ) + 1 = b) (r : LRef) (w : LWorld) (hm : (w.lists r).length = N) :
    (∃ m s, (mkSwap N (.list [wire t, wire b])).TN_operation svd (w.lists r) w.log = (.ok m, s) ∧
      Gate.TN_operationL svd (⟨.toffoli, N, .list [wire a, wire a, wire t], [], toffoliMat, noMat⟩ : Gate) r w =
        (.error .indexError, w.put r m s)) ∨
    (∃ e m s, (mkSwap N (.list [wire t, wire b])).TN_operation svd (w.lists r) w.log = (.error e, s) ∧
      Gate.TN_operationL svd (⟨.toffoli, N, .list [wire a, wire a, wire t], [], toffoliMat, noMat⟩ : Gate) r w =
        (.error e, w.put r m s)) := by
  have e0 : ∀ x y z : ℤ, pyGet [x, y, z] 0 = .ok x := fun _ _ _ => rfl
  have e1 : ∀ x y z : ℤ, pyGet [x, y, z] 1 = .ok y := fun _ _ _ => rfl
  have e2 : ∀ x y z : ℤ, pyGet [x, y, z] 2 = .ok z := fun _ _ _ => rfl
  have hta : wire t + 1 = wire b := by unfold wire; omega
  have hba : wire b = wire a - 1 := by unfold wire; omega
  have s1 : [wire a, wire a, wire t].mergeSort (· ≤ ·) = [wire t, wire a, wire a] := by
    refine List.Perm.eq_of_pairwise' (r := (· ≤ ·))
      (by simpa using List.pairwise_mergeSort' (· ≤ ·) [wire a, wire a, wire t])
      (by simp; omega) ((List.mergeSort_perm _ _).trans ?_)
    exact (List.perm_append_comm (l₁ := [wire a, wire a]) (l₂ := [wire t]))
  have r1 : pyRange2 (wire t) (wire a - 1) = [wire t] := by
    rw [← hba, ← hta]; simp [pyRange2]
  obtain ⟨G, hG⟩ : ∃ G, Gate.toffoliG (wire t) (wire a) (wire a) = .ok G := by
    unfold Gate.toffoliG
    rw [if_neg (by omega), if_neg (by omega)]
    obtain ⟨G, hG, -⟩ := (C03_multi_controlled_not 3).1 1 2 0 (by decide) (by decide)
    exact ⟨G, hG⟩
  have unf : Gate.TN_operationL svd (⟨.toffoli, N, .list [wire a, wire a, wire t], [], toffoliMat, noMat⟩ : Gate) r w =
      (Gate.swapCallL svd N (wire t) (wire b) r >>= fun r => Gate.applyThreeL svd G r (wire a) >>= fun r =>
        (pyRangeDown (wire a - 1) (wire t)).foldlM (fun r i => Gate.swapCallL svd N (i - 1) i r) r >>= fun r =>
        (pyRange2 (wire a + 1) (wire a)).foldlM (fun r i => Gate.swapCallL svd N i (i + 1) r) r) w := by
    show Gate.toffoli_TN_operationL svd _ r w = _
    unfold Gate.toffoli_TN_operationL
    rw [guard_list (N := N) rfl rfl]
    simp only [asList_list, LM.py_ok_bind, s1, e0, e1, e2, hG]
    rw [r1, pyRangeDown_empty (show wire a ≤ wire a + 1 by omega), List.foldlM_cons, hta]
    show ((Gate.swapCallL svd N (wire t) (wire b) r >>= pure) >>= fun r => pure r >>= _) w = _
    rw [LM.bind_eq, LM.bind_eq, LM.bind_eq]
    rcases Gate.swapCallL svd N (wire t) (wire b) r w with ⟨(e | r'), w'⟩ <;> rfl
  rw [unf]
  rcases inPlace_swapCall svd N (wire t) (wire b) r w with ⟨m, s, h1, h2, h3⟩ | ⟨e, m, s, h1, h2, h3⟩
  · have three : Gate.applyThreeL svd G r (wire a) (w.put r m s) = (.error .indexError, w.put r m s) := by
      have hlen : m.length = N := h2.trans hm
      have g1 : pyGet m (wire a - 1) = .ok (m[(b : ℕ)]'(by omega)) := by
        rw [← hba]; exact pyGet_nat (by omega)
      have g2 : pyGet m (wire a) = .ok (m[(a : ℕ)]'(by omega)) := pyGet_nat (by omega)
      have g3 : pyGet m (wire a + 1) = .error .indexError := by
        unfold pyGet wrapIdx wire
        rw [if_pos (by omega), if_neg (by omega)]
        rfl
      unfold Gate.applyThreeL
      rw [LM.bind_ok (show LM.item r (wire a - 1) (w.put r m s) = (.ok _, w.put r m s) by
          unfold LM.item; rw [LWorld.put_lists, g1]),
        LM.bind_ok (show LM.item r (wire a) (w.put r m s) = (.ok _, w.put r m s) by
          unfold LM.item; rw [LWorld.put_lists, g2]),
        LM.bind_error (show LM.item r (wire a + 1) (w.put r m s) = (.error .indexError, w.put r m s) by
          unfold LM.item; rw [LWorld.put_lists, g3])]
    exact .inl ⟨m, s, h1, by rw [LM.bind_ok h3, LM.bind_error three]⟩
  · exact .inr ⟨e, m, s, h1, by rw [LM.bind_error h3]⟩

/-- C67: nor is a single gate atomic.  `toffoli` with the last qubit as control twice and the qubit two places
above as target raises IndexError after exchanging two qubits of the caller's state. -/
theorem C67_gate_not_atomic {svd : SVDOracle} (hv : ValidSVD svd) (a b t : Fin N) (ha : (a : ℕ) + 1 = N)
    (hb : (b : ℕ) + 1 = a) (ht : (t : ℕ) + 1 = b) :
    ∃ g, mkToffoli N (.list [wire a, wire a, wire t]) = .ok g ∧ ∀ (r : LRef) (w : LWorld) (v : QState N),
      HoldsState (w.lists r) v → v ≠ 0 → (∀ A ∈ (g.TN_operationL svd r w).2.log, Lossless A) →
      ∃ w', g.TN_operationL svd r w = (.error .indexError, w') ∧
        HoldsState (w'.lists r) (Spec.swap t b *ᵥ v) := by
  refine ⟨_, rfl, fun r w v hm h0 hl => ?_⟩
  have htb : t ≠ b := fun h => by rw [h] at ht; omega
  obtain ⟨g', hg', hE⟩ := C19_two_qubit hv (.swap t b : Instr N) (show t ≠ b from htb) trivial
  cases hg'
  rcases toffoli_half svd a b t ha hb ht r w hm.1 with ⟨m, s, h1, h2⟩ | ⟨e, m, s, h1, h2⟩
  · rw [h2] at hl
    refine ⟨w.put r m s, h2, ?_⟩
    rcases hE (w.lists r) v w.log hm (by rw [h1]; exact hl) with ⟨m', s', -, -, e, e', -⟩ | ⟨e, -⟩
    · rw [h1] at e
      cases e
      rw [LWorld.put_lists]
      exact e'
    · exact absurd e h0
  · rw [h2] at hl
    rcases hE (w.lists r) v w.log hm (by rw [h1]; exact hl) with ⟨m', s', -, -, e, e', -⟩ | ⟨e, -⟩
    · rw [h1] at e
      cases e
    · exact absurd e h0

/-- `toffoli(3,[2,2,0])` on `|100⟩` meets the hypotheses, and the exchange of the first two qubits is visible. -/
example : ∃ svd, ValidSVD svd ∧ ∃ (g : Gate) (r : LRef) (w : LWorld) (v : QState 3),
    mkToffoli 3 (.list [2, 2, 0]) = .ok g ∧ HoldsState (w.lists r) v ∧ v ≠ 0 ∧
    (∀ A ∈ (g.TN_operationL svd r w).2.log, Lossless A) ∧ Spec.swap (0 : Fin 3) 1 *ᵥ v ≠ v := by
  obtain ⟨svd, hv⟩ := exists_validSVD
  set w : LWorld := ⟨fun _ => [site1 0 1, site1 1 0, site1 1 0], 1, circ 3 [], []⟩ with hw
  set v : QState 3 := fun a => if a 0 = 1 ∧ a 1 = 0 ∧ a 2 = 0 then 1 else 0 with hvv
  have hm : HoldsState (w.lists 0) v := by
    refine holds_iff.2 ⟨rfl, ⟨by omega, 1, rfl, by omega, 1, rfl, by omega, 1, rfl, rfl⟩, fun a => ?_⟩
    rw [hw]
    dsimp only
    rw [bl_three, amp_triple (A := site1 0 1) (B := site1 1 0) (C := site1 1 0) rfl rfl rfl _ _ _ _
      (by omega : 0 < 1)]
    simp only [Finset.sum_range_one, hvv]
    generalize a 0 = x, a 1 = y, a 2 = z
    fin_cases x <;> fin_cases y <;> fin_cases z <;> simp [site1_get0, site1_get1]
  have hlog : ∀ A ∈ ((mkSwap 3 (.list [0, 1])).TN_operation svd (w.lists 0) w.log).2, Lossless A := by
    obtain ⟨A', e, sA, gA⟩ := applyTwo_log hv (by omega) (by omega) (A := site1 0 1) (B := site1 1 0)
      (l := 1) (m := 1) (r := 1) rfl rfl swapMat_rep []
    have : ((mkSwap 3 (.list [0, 1])).TN_operation svd (w.lists 0) w.log).2 =
        (Gate.applyTwo svd swapMat [site1 0 1, site1 1 0] 0 []).2 := by
      show (((Gate.applyTwo svd swapMat [site1 0 1, site1 1 0, site1 1 0] 0 >>= fun a => pure a) >>= fun m => pure m) []).2 = _
      rw [TNM.bind_pure, TNM.bind_pure]
      unfold Gate.applyTwo
      have g0 : ∀ l, pyGet (site1 0 1 :: site1 1 0 :: l) 0 = .ok (site1 0 1) := fun l => pyGet_nat (k := 0) (by simp)
      have g1 : ∀ l, pyGet (site1 0 1 :: site1 1 0 :: l) (0 + 1) = .ok (site1 1 0) :=
        fun l => pyGet_nat (k := 1) (by simp)
      rw [g0, g1, g0, g1]
      simp only [TNM.lift_ok_bind]
      rcases Gate.mergeTwo (site1 0 1) (site1 1 0) swapMat with e | t
      · rfl
      · rw [TNM.lift_ok_bind, TNM.lift_ok_bind]
        rcases hx : TensorDecompAfterTwoQbitGate svd t [] with ⟨(e | ab), s⟩
        · rw [TNM.bind_error hx, TNM.bind_error hx]
        · rw [TNM.bind_ok hx, TNM.bind_ok hx]
          rfl
    rw [this, e]
    intro A hA
    obtain rfl : A = A' := by simpa using hA
    refine lossless_of_gram sA ![0, 1] ?_ ?_
    · have gA' : toMat A 2 2 = !![0, 1; 0, 0] := by
        ext i j
        have := gA ![i, j] 0 0 (by omega) (by omega)
        rw [sum_bits2] at this
        simp only [Finset.sum_range_one] at this
        fin_cases i <;> fin_cases j <;>
          simp [Spec.swap, site1_get0, site1_get1, toMat] at this ⊢ <;> rw [this] 
      rw [gA']
      ext i j
      fin_cases i <;> fin_cases j <;> simp [Matrix.mul_apply, Fin.sum_univ_two]
    · intro j
      fin_cases j
      · exact .inl rfl
      · right; norm_num
  refine ⟨svd, hv, _, 0, w, v, rfl, hm, fun h => ?_, ?_, fun h => ?_⟩
  · have := congrFun h ![1, 0, 0]
    simp [hvv] at this
  · rcases toffoli_half svd (2 : Fin 3) 1 0 rfl rfl rfl 0 w rfl with ⟨m, s, h1, h2⟩ | ⟨e, m, s, h1, h2⟩
    · have h1' : (mkSwap 3 (.list [0, 1])).TN_operation svd (w.lists 0) w.log = (.ok m, s) := h1
      rw [h1'] at hlog
      intro A hA
      refine hlog A ?_
      have h2' : Gate.TN_operationL svd (⟨.toffoli, 3, .list [2, 2, 0], [], toffoliMat, noMat⟩ : Gate) 0 w = _ := h2
      rw [h2'] at hA
      exact hA
    · have h1' : (mkSwap 3 (.list [0, 1])).TN_operation svd (w.lists 0) w.log = (.error e, s) := h1
      rw [h1'] at hlog
      intro A hA
      refine hlog A ?_
      have h2' : Gate.TN_operationL svd (⟨.toffoli, 3, .list [2, 2, 0], [], toffoliMat, noMat⟩ : Gate) 0 w = _ := h2
      rw [h2'] at hA
      exact hA
  · have := congrFun h ![1, 0, 0]
    rw [swap_mulVec] at this
    simp [hvv] at this

/-! ### Batches -/

/-- One encoding on a list object. -/
theorem enc_run {e : PauliEnc} {M : QOp N} {r : LRef} {w : LWorld} {mps' : List (Tensor ℂ)} {v : QState N}
    (h : e.TN_operation (w.lists r) = .ok mps') (hm : HoldsState mps' (M *ᵥ v)) :
    ∃ w', e.TN_operationL r w = (.ok r, w') ∧ HoldsState (w'.lists r) (M *ᵥ v) ∧ w'.next = w.next ∧
      ∀ x, x ≠ r → w'.lists x = w.lists x := by
  obtain ⟨res, w', h1, h2, h3, -, -, h4⟩ := actsOnList_of (inPlace_enc e) r w
  beta_reduce at h4
  rcases h4 with ⟨rfl, h4⟩ | ⟨e', -, h4⟩
  · have : ((.ok mps' : Py _), w.log) = (.ok (w'.lists r), w'.log) := by
      rw [← h4, h]; rfl
    have : mps' = w'.lists r := by injection (congrArg Prod.fst this)
    exact ⟨w', h1, this ▸ hm, h3, h2⟩
  · have : ((.ok mps' : Py _), w.log) = (.error e', w'.log) := by
      rw [← h4, h]; rfl
    cases this

/-- C67: the encoding loop of tests/test_TN_train.py.  With `copy.deepcopy(MPS)` the batch consists of
different new lists, one for each input, and `MPS` is untouched; without, all elements of the batch are `MPS`,
which holds the state after all encodings one after the other. -/
theorem C67_batch (hN : 0 < N) (ws : List (Fin N)) (hw : ws.Nodup) (p : String) (P : Mat2) (hp : axisOf p = some P)
    (xs : List (List ℝ)) (hx : ∀ x ∈ xs, x ≠ [] ∧ x.length ≤ N) :
    ∃ es, xs.mapM (fun x => mkPauliEnc N x (wires ws) p) = .ok es ∧
      ∀ (r : LRef) (w : LWorld) (v : QState N), r < w.next → HoldsState (w.lists r) v →
      (∃ rs w', encodeBatchL r es w = (.ok rs, w') ∧ rs.Nodup ∧ (∀ x < w.next, x ∉ rs ∧ w'.lists x = w.lists x) ∧
        List.Forall₂ (fun x r' => HoldsState (w'.lists r') (encOp P x ws *ᵥ v)) xs rs) ∧
      ∃ w', encodeSharedL r es w = (.ok (List.replicate xs.length r), w') ∧
        HoldsState (w'.lists r) (xs.foldl (fun v x => encOp P x ws *ᵥ v) v) := by
  induction xs with
  | nil =>
    refine ⟨[], rfl, fun r w v _ hm => ⟨⟨[], w, rfl, List.nodup_nil, fun x _ => ⟨by simp, rfl⟩, .nil⟩, w, rfl, hm⟩⟩
  | cons x xs ih =>
    obtain ⟨es, hes, H⟩ := ih fun y hy => hx y (List.mem_cons_of_mem _ hy)
    obtain ⟨e, he, -, -, hE⟩ := C44_encoding hN x (hx x (by simp)).1 (hx x (by simp)).2 ws hw p P hp
    refine ⟨e :: es, by rw [List.mapM_cons, he, Py.ok_bind, hes]; rfl, fun r w v hr hm => ⟨?_, ?_⟩⟩
    · obtain ⟨mps', -, -, h1, h2, -⟩ := hE (w.lists r) v hm
      obtain ⟨w1, e1, k1, n1, o1⟩ := enc_run (w := w.grow (w.lists r)) (r := w.next) (by rw [LWorld.grow_new]; exact h1) h2
      have old : ∀ y < w.next, w1.lists y = w.lists y := fun y hy => by
        rw [o1 y (Nat.ne_of_lt hy)]; unfold LWorld.grow; exact Function.update_of_ne (Nat.ne_of_lt hy) _ _
      obtain ⟨⟨rs, w', e2, d2, o2, k2⟩, -⟩ := H r w1 v (by rw [n1, LWorld.grow_next]; exact Nat.lt_succ_of_lt hr)
        (by rw [old r hr]; exact hm)
      rw [n1, LWorld.grow_next] at o2
      have hn := o2 w.next (Nat.lt_succ_self _)
      refine ⟨w.next :: rs, w', ?_, List.nodup_cons.2 ⟨hn.1, d2⟩, fun y hy => ⟨?_, ?_⟩, .cons ?_ k2⟩
      · unfold encodeBatchL
        rw [LM.bind_ok (LM.deepcopy_eq r w), LM.bind_ok e1, LM.bind_ok e2]
        rfl
      · exact List.not_mem_cons_of_ne_of_not_mem (Nat.ne_of_lt hy) (o2 y (Nat.lt_succ_of_lt hy)).1
      · rw [(o2 y (Nat.lt_succ_of_lt hy)).2, old y hy]
      · rw [hn.2]
        exact k1
    · obtain ⟨mps', -, -, h1, h2, -⟩ := hE (w.lists r) v hm
      obtain ⟨w1, e1, k1, n1, o1⟩ := enc_run h1 h2
      obtain ⟨-, w', e2, k2⟩ := H r w1 _ (by rw [n1]; exact hr) k1
      refine ⟨w', ?_, k2⟩
      unfold encodeSharedL
      rw [LM.bind_ok e1, LM.bind_ok e2]
      rfl

/-- Two inputs for two qubits, one of them shorter than the number of qubits. -/
example : (0 < 2) ∧ ([0, 1] : List (Fin 2)).Nodup ∧ axisOf "Y" = some Spec.Y ∧
    (∀ x ∈ [[(0.3 : ℝ)], [0.7, 0.1]], x ≠ [] ∧ x.length ≤ 2) ∧ 0 < world2.next ∧ HoldsState (world2.lists 0) state2 :=
  ⟨by decide, by decide, rfl, by simp, Nat.one_pos, world2_holds⟩

/-! ### The routines that copy -/

/-- C67: `cir_expectation` returns what it returns for values and changes no existing list. -/
theorem C67_expectation (svd : SVDOracle) (c : Circuit) (init M : Tensor ℂ) (tn : Bool) (w : LWorld) :
    ∃ w', c.cir_expectationL svd init M tn w = ((c.cir_expectation svd init M tn w.log).1, w') ∧
      w'.log = (c.cir_expectation svd init M tn w.log).2 ∧ ∀ x < w.next, w'.lists x = w.lists x := by
  obtain ⟨w', h1, h2, -, h3⟩ := PShift.expectation_run svd c init M tn w
  exact ⟨w', h1, h2, h3.lists⟩

/-- C67: the gradient routine of `parameter_shift` (`save_mid_MPS`, then `cal_params_grad2`) keeps the states it
saved: although every operation works in place, the saved lists still have the contents of the functions on
values at the end, the gradient is the same, and no list that existed before has changed. -/
theorem C67_gradient (svd : SVDOracle) (ps : PShift) (mOper : Op) (w : LWorld) {d' : PShift.SavedL} {psi : Tensor ℂ}
    {w1 : LWorld} (h : ps.save_mid_MPSL svd mOper w = (.ok (d', psi), w1)) :
    ∃ d, ps.save_mid_MPS svd w.cir mOper w.log = (.ok (d, psi), w1.log) ∧ w1.cir = w.cir ∧
      (∀ x < w.next, w1.lists x = w.lists x) ∧ (∀ k, d k = (d' k).map w1.lists) ∧
      ∃ w2, ps.cal_params_grad2L svd d' w1 = ((ps.cal_params_grad2 svd d (w1.cir, w1.log)).1, w2) ∧
        (w2.cir, w2.log) = (ps.cal_params_grad2 svd d (w1.cir, w1.log)).2 ∧
        (∀ x < w.next, w2.lists x = w.lists x) ∧ ∀ k, d k = (d' k).map w2.lists := by
  rcases PShift.save_run svd ps mOper w with ⟨d, psi', s, d'', w', h1, h2, h3, h4, h5, h6⟩ | ⟨e, s, w', h1, h2, -⟩
  · rw [h] at h2
    cases h2
    obtain ⟨w2, k1, k2, k3⟩ := PShift.grad2_run svd ps w1 h6
    refine ⟨d, by rw [h1, h3], h4, h5.lists, fun k => (h6 k).1, w2, k1, k2, (h5.trans k3).lists, fun k => ?_⟩
    obtain ⟨g1, g2⟩ := h6 k
    rw [g1]
    rcases hk : d' k with _ | x
    · rfl
    · exact congrArg some (k3.lists x (g2 x hk)).symm
  · rw [h] at h2
    cases h2

/-- A run of `save_mid_MPS` that returns: `u1(π/2)` on `|0⟩ + |1⟩` with observable X. -/
example : ∃ svd, ValidSVD svd ∧ ∃ (ps : PShift) (mo : Op) (w : LWorld) (d' : PShift.SavedL) (psi : Tensor ℂ)
    (w1 : LWorld), w.cir.gate.length = 1 ∧ ps.save_mid_MPSL svd mo w = (.ok (d', psi), w1) := by
  obtain ⟨svd, hv⟩ := exists_validSVD
  obtain ⟨ops, mo, hops, -, d, psi, g, h1, -⟩ := C42_u1_wrong hv (Tensor.eye 2)
  rcases PShift.save_run svd ⟨plusVec, Tensor.eye 2⟩ mo ⟨fun _ => [], 0, circ 1 ops, []⟩ with
    ⟨d1, psi', s, d'', w', k1, k2, -⟩ | ⟨e, s, w', k1, -⟩
  · exact ⟨svd, hv, _, mo, _, d'', psi', w', by rw [circ_gate]; cases hops; rfl, k2⟩
  · rw [show PShift.save_mid_MPS svd _ (circ 1 ops) mo [] = _ from h1] at k1
    cases k1

/-- C67: and `save_mid_MPS` raises what it raises for values, again without changing an existing list. -/
theorem C67_gradient_raises (svd : SVDOracle) (ps : PShift) (mOper : Op) (w : LWorld) {e : PyErr} {w1 : LWorld}
    (h : ps.save_mid_MPSL svd mOper w = (.error e, w1)) :
    ps.save_mid_MPS svd w.cir mOper w.log = (.error e, w1.log) ∧ ∀ x < w.next, w1.lists x = w.lists x := by
  rcases PShift.save_run svd ps mOper w with ⟨d, psi', s, d'', w', h1, h2, h3, h4, h5, h6⟩ | ⟨e, s, w', h1, h2, h3, -, h5⟩
  · rw [h] at h2
    cases h2
  · rw [h] at h2
    cases h2
    exact ⟨by rw [h1, h3], h5.lists⟩

end QTN.Props
