import Verif.SpecInfo
import Verif.Lemmas.Grad

/-! # Property C80: `info()` describes the operation -/

namespace QTN.Props

open QTN QTN.Spec Matrix

variable {N : ℕ}

theorem wireOf_wire (i : Fin N) : wireOf N (.int (wire i)) = some i := by
  have h : (0 : ℤ) ≤ wire i ∧ wire i < N := by unfold wire; omega
  show (if h : 0 ≤ wire i ∧ wire i < N then some (⟨(wire i).toNat, by omega⟩ : Fin N) else none) = some i
  rw [dif_pos h]
  simp [wire]

theorem wiresOf (ws : List (Fin N)) : ((wires ws).map Wires.int).mapM (wireOf N) = some ws := by
  induction ws with
  | nil => rfl
  | cons w ws ih =>
    rw [wires, List.map_cons, List.map_cons, List.mapM_cons, wireOf_wire]
    change (do let a ← some w; let b ← ((wires ws).map Wires.int).mapM (wireOf N); pure (a :: b)) = _
    rw [ih]
    rfl

theorem label_ne (n : ℕ) {s : String} (h : s.toList.getLast? ≠ some 't') : s ≠ toString n ++ "_control_cnot" := by
  intro e
  apply h
  rw [e, String.toList_append, List.getLast?_append]
  rfl

theorem readInfo_eq {i : Info} (lab : String) {cs ts : List (Fin N)} (hl : i.label = lab) (hc : i.contral_lst = (wires cs).map Wires.int)
    (ht : i.target_lst = (wires ts).map Wires.int) :
    readInfo N i = readLabel lab cs cs ts i.params := by
  unfold readInfo
  rw [hc, ht, wiresOf, wiresOf, hl]

theorem gate_info (ins : Instr N) (h : ins.WF) :
    ∃ g i, build ins = .ok g ∧ g.info = .ok i ∧ readInfo N i = some ins.op := by
  cases ins with
  | u3 θ φ l i =>
    obtain ⟨u, hu, -⟩ := u3Mat_rep θ φ l
    refine ⟨_, _, by simp only [build, mkU3, hu, Py.ok_bind]; rfl, rfl, ?_⟩
    rw [readInfo_eq _ (cs := []) (ts := [i]) rfl rfl rfl]
    simp [readLabel, Instr.op]
    rfl
  | cu3 θ φ l c t =>
    obtain ⟨g, hg, -⟩ := build_ok (.cu3 θ φ l c t) h
    obtain ⟨u, hu, hg'⟩ := py_bind_ok hg
    obtain ⟨m, hm, hg'⟩ := py_bind_ok hg'
    cases hg'
    refine ⟨_, _, hg, rfl, ?_⟩
    rw [readInfo_eq _ (cs := [c]) (ts := [t]) rfl rfl rfl]
    simp [readLabel, Instr.op]
    rfl
  | toffoli a b t =>
    refine ⟨_, _, rfl, rfl, ?_⟩
    rw [readInfo_eq _ (cs := [a, b]) (ts := [t]) rfl rfl rfl]
    simp [readLabel, Instr.op]
    rfl
  | mcnot cs t =>
    obtain ⟨g, hg, -⟩ := build_ok (.mcnot cs t) h
    obtain ⟨l, hl, hg'⟩ := py_bind_ok hg
    cases hl
    have hl : pyGet (cs.map wire ++ [wire t]) (-1) = .ok (wire t) := pyGet_last _ _
    rw [hl] at hg'
    cases hg'
    refine ⟨_, ⟨toString cs.length ++ "_control_cnot", (wires cs).map .int, [.int (wire t)], none⟩, hg, ?_, ?_⟩
    · simp only [Gate.info, Gate.label, Wires.asList, Py.ok_bind, hl]
      simp [wires]
    · rw [readInfo_eq _ (cs := cs) (ts := [t]) rfl rfl rfl]
      unfold readLabel
      rw [if_pos rfl]
      rfl
  | h i | x i | y i | z i | rx θ i | ry θ i | rz θ i | u1 θ i =>
    refine ⟨_, _, rfl, rfl, ?_⟩
    rw [readInfo_eq _ (cs := []) (ts := [i]) rfl rfl rfl, readLabel, if_neg (label_ne _ (by dsimp only; decide))]
    simp
    rfl
  | rxx θ p q | ryy θ p q | rzz θ p q | swap p q =>
    refine ⟨_, _, rfl, rfl, ?_⟩
    rw [readInfo_eq _ (cs := []) (ts := [p, q]) rfl rfl rfl, readLabel, if_neg (label_ne _ (by dsimp only; decide))]
    simp
    rfl
  | cnot c t =>
    refine ⟨_, _, rfl, rfl, ?_⟩
    have hne : "cnot" ≠ toString [c].length ++ "_control_cnot" := by
      show "cnot" ≠ toString 1 ++ "_control_cnot"
      decide
    rw [readInfo_eq _ (cs := [c]) (ts := [t]) rfl rfl rfl, readLabel, if_neg hne]
    simp
    rfl
  | cz c t | cphase θ c t =>
    refine ⟨_, _, rfl, rfl, ?_⟩
    rw [readInfo_eq _ (cs := [c]) (ts := [t]) rfl rfl rfl, readLabel, if_neg (label_ne _ (by dsimp only; decide))]
    simp
    rfl

theorem ringGates_eq (d : ℕ) (ws : List (Fin N)) (hw : 0 < ws.length) :
    ringGates d ws = cnots ws (List.ofFn fun i : Fin ws.length => ws.get ⟨(i + d) % ws.length, Nat.mod_lt _ hw⟩) := by
  apply List.ext_getElem
  · simp [ringGates, cnots]
  · intro i h1 h2
    simp [ringGates, cnots]

theorem ring_targets (d : ℕ) (ws : List (Fin N)) (hw : 0 < ws.length) :
    (List.range (wires ws).length).mapM (fun i => pyGet (wires ws) (((i + d) % (wires ws).length : ℕ) : ℤ)) =
      .ok (wires (List.ofFn fun i : Fin ws.length => ws.get ⟨(i + d) % ws.length, Nat.mod_lt _ hw⟩)) := by
  have hl : (wires ws).length = ws.length := by simp
  rw [hl]
  rw [mapM_ok _ _ (fun i => wire (ws.get ⟨(i + d) % ws.length, Nat.mod_lt _ hw⟩))
    (fun i _ => pyGet_wires ws _ (Nat.mod_lt _ hw))]
  congr 1
  apply List.ext_getElem
  · simp
  · intro i h1 h2
    simp

theorem ring_read {r : Ring} {lab : String} {d : ℕ} {ws : List (Fin N)} (h2 : 2 ≤ ws.length)
    (hw : r.wires = wires ws) (hlab : r.label = lab)
    (hd : r.infoOffset = d) (hne : ws.length ≠ 2) :
    r.info = .ok ⟨lab, (wires ws).map .int,
      (wires (List.ofFn fun i : Fin ws.length => ws.get ⟨(i + d) % ws.length, Nat.mod_lt _ (by omega)⟩)).map .int,
      none⟩ := by
  unfold Ring.info
  rw [hw, hlab]
  dsimp only
  rw [hd, ring_targets d ws (by omega), Py.ok_bind, if_neg (by simpa using hne)]

theorem ring_read2 {r : Ring} {lab : String} {d : ℕ} {a b : Fin N}
    (hw : r.wires = wires [a, b]) (hlab : r.label = lab)
    (hd : r.infoOffset = d) :
    r.info = .ok ⟨lab, [.int (wire a)], [.int (wire b)], none⟩ := by
  unfold Ring.info
  rw [hw, hlab]
  dsimp only
  rw [hd, ring_targets d [a, b] (by simp), Py.ok_bind, if_pos (by simp)]
  rfl

/-- C80: for every gate and layer on admissible wires, `info()` returns a dictionary that describes its operator:
read by label, controls, targets and parameters it is the operator which `U_expand()` returns. -/
theorem C80_info (it : Item N) (h : it.WF) :
    ∃ o i, buildItem it = .ok o ∧ o.info = .ok i ∧ readInfo N i = some it.op ∧ Computes o.U_expand it.op := by
  obtain ⟨o, ho, hc⟩ := item_ok it h
  suffices ∃ i, o.info = .ok i ∧ readInfo N i = some it.op by
    obtain ⟨i, h1, h2⟩ := this
    exact ⟨o, i, ho, h1, h2, hc⟩
  cases it with
  | gate ins =>
    obtain ⟨g, i, hg, hi, hr⟩ := gate_info ins h
    have e : buildItem (.gate ins) = .ok (.gate g) := by simp [buildItem, hg]
    rw [e] at ho
    cases ho
    exact ⟨i, hi, hr⟩
  | layer k ws p =>
    obtain ⟨l, hl, ho⟩ := py_bind_ok ho
    cases ho
    have e : l = ⟨layerCls k, N, wires ws, p⟩ := by
      unfold mkSLayer at hl
      obtain ⟨_, -, hl⟩ := py_bind_ok hl
      obtain ⟨_, -, hl⟩ := py_bind_ok hl
      exact (Except.ok.inj hl).symm
    subst e
    refine ⟨_, rfl, ?_⟩
    cases k <;> dsimp only [SLayer.info, layerCls, LayerCls.label] <;>
    · rw [readInfo_eq _ (cs := []) (ts := ws) rfl rfl rfl, readLabel, if_neg (label_ne _ (by dsimp only; decide))]
      simp
      rfl
  | hlayer ws =>
    obtain ⟨l, hl, ho⟩ := py_bind_ok ho
    cases ho
    have e : l = ⟨.h, N, wires ws, []⟩ := by
      unfold mkSLayer at hl
      obtain ⟨_, -, hl⟩ := py_bind_ok hl
      obtain ⟨_, -, hl⟩ := py_bind_ok hl
      exact (Except.ok.inj hl).symm
    subst e
    refine ⟨_, rfl, ?_⟩
    dsimp only [SLayer.info, LayerCls.label]
    rw [readInfo_eq _ (cs := []) (ts := ws) rfl rfl rfl, readLabel, if_neg (label_ne _ (by dsimp only; decide))]
    simp
    rfl
  | ring ws =>
    obtain ⟨r, hr, ho⟩ := py_bind_ok ho
    cases ho
    have e : r = ⟨.ring, N, wires ws⟩ := by
      unfold mkRing at hr
      obtain ⟨_, -, hr⟩ := py_bind_ok hr
      obtain ⟨_, -, hr⟩ := py_bind_ok hr
      exact (Except.ok.inj hr).symm
    subst e
    by_cases h2 : ws.length = 2
    · obtain ⟨a, b, rfl⟩ := List.length_eq_two.1 h2
      refine ⟨_, ring_read2 rfl rfl rfl, ?_⟩
      rw [readInfo_eq _ (cs := [a]) (ts := [b]) rfl rfl rfl, readLabel,
        if_neg (label_ne _ (by dsimp only [Ring.label]; decide))]
      simp only [Ring.label]
      exact congrArg some (timeOrdered_singleton _)
    · refine ⟨_, ring_read h.2 rfl rfl rfl h2, ?_⟩
      rw [readInfo_eq _ (cs := ws) rfl rfl rfl, readLabel,
        if_neg (label_ne _ (by dsimp only [Ring.label]; decide))]
      simp only [Ring.label]
      refine congrArg some ?_
      rw [Item.op, ringOp_of_ne h2, ringGates_eq _ _ (by have := h.2; omega)]
      rfl
  | ringDag ws =>
    obtain ⟨r, hr, ho⟩ := py_bind_ok ho
    cases ho
    have e : r = ⟨.dagger, N, wires ws⟩ := by
      unfold mkRing at hr
      obtain ⟨_, -, hr⟩ := py_bind_ok hr
      obtain ⟨_, -, hr⟩ := py_bind_ok hr
      exact (Except.ok.inj hr).symm
    subst e
    by_cases h2 : ws.length = 2
    · obtain ⟨a, b, rfl⟩ := List.length_eq_two.1 h2
      refine ⟨_, ring_read2 rfl rfl rfl, ?_⟩
      rw [readInfo_eq _ (cs := [a]) (ts := [b]) rfl rfl rfl, readLabel,
        if_neg (label_ne _ (by dsimp only [Ring.label]; decide))]
      simp only [Ring.label]
      exact congrArg some (timeOrdered_singleton _)
    · refine ⟨_, ring_read h.2 rfl rfl rfl h2, ?_⟩
      rw [readInfo_eq _ (cs := ws) rfl rfl rfl, readLabel,
        if_neg (label_ne _ (by dsimp only [Ring.label]; decide))]
      simp only [Ring.label]
      refine congrArg some ?_
      rw [Item.op, ringDagOp_of_ne h2, ringGates_eq _ _ (by have := h.2; omega)]
      rfl
  | ring2 ws =>
    obtain ⟨r, hr, ho⟩ := py_bind_ok ho
    cases ho
    have e : r = ⟨.ring2, N, wires ws⟩ := by
      unfold mkRing at hr
      obtain ⟨_, -, hr⟩ := py_bind_ok hr
      obtain ⟨_, -, hr⟩ := py_bind_ok hr
      exact (Except.ok.inj hr).symm
    subst e
    by_cases h2 : ws.length = 2
    · obtain ⟨a, b, rfl⟩ := List.length_eq_two.1 h2
      refine ⟨_, ring_read2 rfl rfl rfl, ?_⟩
      rw [readInfo_eq _ (cs := [a]) (ts := [b]) rfl rfl rfl, readLabel,
        if_neg (label_ne _ (by dsimp only [Ring.label]; decide))]
      simp only [Ring.label]
      exact congrArg some (timeOrdered_singleton _)
    · refine ⟨_, ring_read h.2 rfl rfl rfl h2, ?_⟩
      rw [readInfo_eq _ (cs := ws) rfl rfl rfl, readLabel,
        if_neg (label_ne _ (by dsimp only [Ring.label]; decide))]
      simp only [Ring.label]
      refine congrArg some ?_
      rw [Item.op, ringOp_of_ne h2, ringGates_eq _ _ (by have := h.2; omega)]
      rfl
  | basic ws p reps =>
    obtain ⟨b, hb, ho⟩ := py_bind_ok ho
    cases ho
    have e : b.wires = wires ws ∧ b.params = p ∧ b.pyList = false := by
      unfold mkBasic at hb
      obtain ⟨_, -, hb⟩ := py_bind_ok hb
      obtain ⟨_, -, hb⟩ := py_bind_ok hb
      obtain ⟨_, -, hb⟩ := py_bind_ok hb
      obtain ⟨_, -, hb⟩ := py_bind_ok hb
      obtain ⟨_, -, hb⟩ := py_bind_ok hb
      cases hb
      exact ⟨rfl, rfl, rfl⟩
    refine ⟨_, rfl, ?_⟩
    have hi : b.info = ⟨"BasicEntangleLayer", [], (wires ws).map .int, some (.vec p)⟩ := by
      unfold Basic.info
      simp only [Op.params, e.1, e.2.1, e.2.2]
      rfl
    rw [hi, readInfo_eq _ (cs := []) (ts := ws) rfl rfl rfl, readLabel,
      if_neg (label_ne _ (by dsimp only; decide))]
    simp only [Item.op]
    have : p.length / (3 * ws.length) = reps := by
      rw [h.2.2.2]
      exact Nat.mul_div_cancel_left _ (by have := h.2.1; omega)
    simp [readBasic, this]

/-- C80: objects with the same dictionary have the same operator. -/
theorem C80_same (it it' : Item N) (h : it.WF) (h' : it'.WF) {o o' : Op} {i : Info} (ho : buildItem it = .ok o)
    (ho' : buildItem it' = .ok o') (hi : o.info = .ok i) (hi' : o'.info = .ok i) :
    it.op = it'.op ∧ ∃ M : QOp N, Computes o.U_expand M ∧ Computes o'.U_expand M := by
  obtain ⟨a, j, ea, ej, rj, ca⟩ := C80_info it h
  obtain ⟨a', j', ea', ej', rj', ca'⟩ := C80_info it' h'
  rw [ho] at ea
  cases ea
  rw [ho'] at ea'
  cases ea'
  rw [hi] at ej
  cases ej
  rw [hi'] at ej'
  cases ej'
  rw [rj] at rj'
  have e := Option.some.inj rj'
  exact ⟨e, it.op, ca, by rw [e]; exact ca'⟩

/-- C80: after `params_update` with as many parameters as before, `info()` describes the operation with the new
parameters. -/
theorem C80_update (it : Item N) (h : it.WF) (p : List ℝ) (hp : p.length = it.params.length)
    (h0 : it.params ≠ []) : ∃ o o' i, buildItem it = .ok o ∧ o.params_update p = .ok o' ∧ o'.info = .ok i ∧
      readInfo N i = some (it.withParams p).op ∧ Computes o'.U_expand (it.withParams p).op := by
  obtain ⟨o, ho, -⟩ := item_ok it h
  obtain ⟨o', hu, hb⟩ := (built_facts h ho).2.2 p hp h0
  obtain ⟨a, i, ea, ei, ri, ca⟩ := C80_info (it.withParams p) (wf_withParams h hp)
  rw [show buildItem (it.withParams p) = .ok o' from hb] at ea
  cases ea
  exact ⟨o, o', i, ho, hu, ei, ri, ca⟩

/-- C80: `info()` of `operation_dagger()` describes the adjoint. -/
theorem C80_dagger (it : Item N) (h : it.WF) (hd : Spec.Item.hasDagger it) :
    ∃ o o' i, buildItem it = .ok o ∧ o.operation_dagger = .ok (some o') ∧ o'.info = .ok i ∧
      readInfo N i = some (it.op)ᴴ := by
  obtain ⟨o, it', ho, hw, -, hop, o', ho', hdag⟩ := item_dagger it h hd
  obtain ⟨a, i, ea, ei, ri, -⟩ := C80_info it' hw
  rw [ho'] at ea
  cases ea
  exact ⟨o, o', i, ho, hdag, ei, by rw [ri, hop]⟩

/-- C80: the dictionaries of all operations of a circuit, read one by one and multiplied in time order, give the
operator of the circuit. -/
theorem C80_circuit (l : List (Item N)) (h : ∀ it ∈ l, it.WF) : ∃ ops is Ms, l.mapM buildItem = .ok ops ∧
    (circ N ops).gate.mapM Op.info = .ok is ∧ is.mapM (readInfo N) = some Ms ∧ timeOrdered Ms = circuitOp l ∧
    Computes (circ N ops).U (timeOrdered Ms) := by
  obtain ⟨ops, hops, hU, -⟩ := C13_items N l h
  have key : ∀ (l : List (Item N)) (ops : List Op), (∀ it ∈ l, it.WF) → l.mapM buildItem = .ok ops →
      ∃ is, ops.mapM Op.info = .ok is ∧ is.mapM (readInfo N) = some (l.map Item.op) := by
    intro l
    induction l with
    | nil =>
      intro ops _ ho
      cases ho
      exact ⟨[], rfl, rfl⟩
    | cons it l ih =>
      intro ops h ho
      rw [List.mapM_cons] at ho
      obtain ⟨o, i, ea, ei, ri, -⟩ := C80_info it (h it (by simp))
      rw [ea, Py.ok_bind] at ho
      obtain ⟨os, hos, e⟩ := py_bind_ok ho
      cases e
      obtain ⟨is, his, hr⟩ := ih os (fun j hj => h j (by simp [hj])) hos
      refine ⟨i :: is, ?_, ?_⟩
      · rw [List.mapM_cons, ei, Py.ok_bind, his, Py.ok_bind]
        rfl
      · rw [List.mapM_cons, ri, hr]
        rfl
  obtain ⟨is, his, hr⟩ := key l ops h hops
  exact ⟨ops, is, _, hops, by rw [circ_gate]; exact his, hr, rfl, hU⟩

/-- Items of every kind that meet the hypothesis of `C80_info` and `C80_circuit`. -/
example : ∀ it ∈ ([.gate (.mcnot [2, 0] 1), .gate (.cu3 0.1 0.2 0.3 2 0), .gate (.rxx 0.4 0 2),
    .layer .zx [2, 0] [1, 2, 3, 4], .hlayer [1], .ring2 [0, 2, 1], .ringDag [1, 0],
    .basic [1, 0] (List.replicate 12 0.5) 2] : List (Item 3)), it.WF := by
  intro it hit
  simp only [List.mem_cons, List.not_mem_nil, or_false] at hit
  rcases hit with rfl | rfl | rfl | rfl | rfl | rfl | rfl | rfl <;>
    simp [Item.WF, Instr.WF, LayerKind.axes]

/-- The hypotheses of `C80_update` and `C80_dagger`. -/
example : (Item.layer .zx [2, 0] [1, 2, 3, 4] : Item 3).WF ∧ Spec.Item.hasDagger (Item.layer .zx [2, 0] [1, 2, 3, 4] : Item 3) ∧
    ([5, 6, 7, 8] : List ℝ).length = (Item.layer .zx [2, 0] [1, 2, 3, 4] : Item 3).params.length := by
  refine ⟨?_, ?_, rfl⟩
  · simp [Item.WF, LayerKind.axes]
  · simp [Spec.Item.hasDagger]

/-- C80: a toffoli gate with the default `wires=-1` has no `info()`, and neither has a `PauliEncoding`: both calls
raise AttributeError. -/
theorem C80_missing (n : ℤ) (e : PauliEnc) :
    (∃ g, mkToffoli n (.int (-1)) = .ok g ∧ g.info = .error .attributeError) ∧
    (Obj.enc e).info = .error .attributeError :=
  ⟨⟨_, rfl, rfl⟩, rfl⟩

theorem layer_zero {ws : List (Fin N)} (n : ℕ) : layerOp [Spec.Y, Spec.Z, Spec.Y] ws (List.replicate n 0) = 1 := by
  have hz : ∀ P : Mat2, Spec.rot P 0 = 1 := by
    intro P
    simp [Spec.rot]
  have hs : ∀ k : ℕ, seqRot [Spec.Y, Spec.Z, Spec.Y] (List.replicate k 0) = 1 := by
    intro k
    rcases k with _ | _ | _ | k <;> simp [seqRot, List.replicate_succ, hz]
  unfold layerOp
  have e : (fun j => if j ∈ ws then seqRot [Spec.Y, Spec.Z, Spec.Y]
      ((List.replicate n (0 : ℝ)).drop ([Spec.Y, Spec.Z, Spec.Y].length * ws.idxOf j)) else 1) =
      fun _ : Fin N => (1 : Mat2) := by
    funext j
    rw [List.drop_replicate, hs, ite_self]
  rw [e]
  exact onEach_one

/-- C80: the number of repetitions of a `BasicEntangleLayer` is not in the dictionary.  A layer with one repetition
whose parameters are replaced by twice as many has the same dictionary as a layer with two repetitions, and another
operator. -/
theorem C80_repeat : ∃ (o o1 o2 : Op) (i : Info), buildItem (N := 2) (.basic [0, 1] (List.replicate 6 0) 1) = .ok o ∧
    o.params_update (List.replicate 12 0) = .ok o1 ∧
    buildItem (N := 2) (.basic [0, 1] (List.replicate 12 0) 2) = .ok o2 ∧
    o1.info = .ok i ∧ o2.info = .ok i ∧
    ∀ M1 M2 : QOp 2, Computes o1.U_expand M1 → Computes o2.U_expand M2 → M1 ≠ M2 := by
  have hn : ([0, 1] : List (Fin 2)).Nodup := by decide
  have h1 := basic_rep (b := false) (reps := 1) (p := List.replicate 12 0) hn le_rfl le_rfl (by simp)
  have h2 := basic_rep (b := false) (reps := 2) (p := List.replicate 12 0) hn le_rfl (by norm_num) (by simp)
  have e1 : basicOp (N := 2) [0, 1] (List.replicate 12 0) 1 = controlled [0] 1 Spec.X := by
    simp only [basicOp, List.range_succ, List.range_zero, List.nil_append, List.map_cons, List.map_nil,
      List.drop_replicate, layer_zero, mul_one]
    exact timeOrdered_singleton _
  have e2 : basicOp (N := 2) [0, 1] (List.replicate 12 0) 2 =
      controlled [0] 1 Spec.X * controlled [0] 1 Spec.X := by
    simp only [basicOp, List.range_succ, List.range_zero, List.nil_append, List.map_cons, List.map_nil,
      List.drop_replicate, layer_zero, mul_one, List.map_append]
    rw [timeOrdered_append, timeOrdered_singleton]
    rfl
  refine ⟨.basic (basicObj 2 [0, 1] (List.replicate 6 0) false 1),
    .basic (basicObj 2 [0, 1] (List.replicate 12 0) false 1),
    .basic (basicObj 2 [0, 1] (List.replicate 12 0) false 2), _, ?_, ?_, ?_, rfl, rfl, ?_⟩
  · show (mkBasic _ _ _ _ _ >>= _ : Py _) = _
    rw [mkBasic_ok hn le_rfl le_rfl (by simp)]
    rfl
  · unfold Op.params_update Basic.params_update
    dsimp only [basicObj]
    rw [basicParts_ok hn le_rfl (by simp)]
    rfl
  · show (mkBasic _ _ _ _ _ >>= _ : Py _) = _
    rw [mkBasic_ok hn le_rfl (by norm_num) (by simp)]
    rfl
  · rintro M1 M2 ⟨U1, a1, r1⟩ ⟨U2, a2, r2⟩ rfl
    obtain ⟨V1, b1, s1⟩ := h1
    obtain ⟨V2, b2, s2⟩ := h2
    cases a1.symm.trans b1
    cases a2.symm.trans b2
    have e := (s1.unique r1).trans (r2.unique s2)
    rw [e1, e2, controlled_mul (by decide)] at e
    have := congrFun (congrFun e ![1, 1]) ![1, 0]
    simp [controlled, onQubit, Spec.X, Fin.forall_fin_two] at this

end QTN.Props
