import Verif.Model.Objects
import Verif.Lemmas.Grad

/-! # The object level and the value level -/

namespace QTN

open Spec

/-! ## Reading -/

/-- The objects in the circuit `c` are the operations of `c'`, and the bookkeeping is the same. -/
structure View (h : Heap) (c : OCircuit) (c' : Circuit) : Prop where
  nqubits : c.nqubits = c'.nqubits
  gate : c.objs h = c'.gate.map .op
  params : c.cir_params = c'.cir_params
  num : c.cir_num_params = c'.cir_num_params

theorem foldlM_map' {m : Type → Type} [Monad m] {α β γ : Type} (f : β → γ) (g : α → γ → m α) (l : List β) :
    ∀ a, (l.map f).foldlM g a = l.foldlM (fun a b => g a (f b)) a := by
  induction l with
  | nil => intro a; rfl
  | cons b l ih =>
    intro a
    simp only [List.map_cons, List.foldlM_cons]
    congr 1
    funext x
    exact ih x

namespace View

variable {h : Heap} {c : OCircuit} {c' : Circuit}

theorem length (v : View h c c') : c.gate.length = c'.gate.length := by
  have := congrArg List.length v.gate
  simpa [OCircuit.objs] using this

theorem U (v : View h c c') (b : Bool) : c.U h b = c'.U b := by
  unfold OCircuit.U Circuit.U
  rw [v.gate, v.nqubits, foldlM_map']
  rfl

theorem TN_evolution (v : View h c c') (svd : SVDOracle) (mps : List (Tensor ℂ)) :
    c.TN_evolution svd h mps = c'.TN_evolution svd mps := by
  unfold OCircuit.TN_evolution Circuit.TN_evolution
  rw [v.gate, v.nqubits, foldlM_map']
  rfl

theorem TN_contract_evolution (v : View h c c') (T : Tensor ℂ) (b : Bool) :
    c.TN_contract_evolution h T b = c'.TN_contract_evolution T b := by
  unfold OCircuit.TN_contract_evolution Circuit.TN_contract_evolution
  rw [v.gate, v.nqubits, foldlM_map']
  rfl

theorem tnCheck_ops (l : List Op) : OCircuit.tnCheck (l.map .op) = .ok (l.all (fun o => o.supportTN)) := by
  induction l with
  | nil => rfl
  | cons o l ih =>
    rw [List.map_cons, OCircuit.tnCheck, ih, List.all_cons]
    show (if o.supportTN = false then _ else _) = _
    cases o.supportTN <;> rfl

theorem TN_check (v : View h c c') : c.TN_check h = .ok c'.TN_check := by
  unfold OCircuit.TN_check
  rw [v.gate, tnCheck_ops]
  rfl

theorem cir_expectation (v : View h c c') (svd : SVDOracle) (init M : Tensor ℂ) (tn : Bool) :
    c.cir_expectation svd h init M tn = c'.cir_expectation svd init M tn := by
  unfold OCircuit.cir_expectation Circuit.cir_expectation
  simp only [v.TN_check, v.U, v.nqubits, v.TN_evolution]
  rfl

theorem pyGet_map {α β : Type} (f : α → β) (l : List α) (i : ℤ) :
    pyGet (l.map f) i = (do .ok (f (← pyGet l i)) : Py β) := by
  unfold pyGet
  rw [List.length_map]
  cases wrapIdx l.length i with
  | error e => rfl
  | ok k =>
    show (match (l.map f)[k]? with | some x => Except.ok x | none => .error .indexError) =
      (do .ok (f (← (match l[k]? with | some x => Except.ok x | none => .error .indexError : Py α))) : Py β)
    rw [List.getElem?_map]
    cases l[k]? <;> rfl

theorem saveForward_ops (svd : SVDOracle) (gates : List Op) : ∀ (os : List Op) (idx : ℕ),
    idx + os.length ≤ gates.length → ∀ mps d,
    PShift.osaveForward svd (gates.map .op) idx (os.map .op) mps d = PShift.saveForward svd gates idx os mps d := by
  intro os
  induction os with
  | nil => intro idx _ mps d; rfl
  | cons o os ih =>
    intro idx hi mps d
    rw [List.length_cons] at hi
    rw [List.map_cons, PShift.osaveForward, PShift.saveForward]
    show (if o.supportTN = true then _ else _) = (if o.supportTN = true then _ else _)
    by_cases hs : o.supportTN = true
    · rw [if_pos hs, if_pos hs]
      show (o.TN_operation svd mps >>= _) = (o.TN_operation svd mps >>= _)
      congr 1
      funext mps'
      rw [List.length_map]
      by_cases hl : idx = gates.length - 1
      · have e : ¬ (idx ≠ gates.length - 1 ∧ ∃ nxt, gates[idx + 1]? = some nxt ∧ nxt.numParams ≠ 0) :=
          fun h => h.1 hl
        rw [if_neg (not_not_intro hl), if_neg e]
        exact ih (idx + 1) (by omega) mps' d
      · have hlt : idx + 1 < gates.length := by omega
        have eg : pyGet (gates.map Obj.op) ((idx : ℤ) + 1) = .ok (.op gates[idx + 1]) := by
          rw [pyGet_map, show (idx : ℤ) + 1 = ((idx + 1 : ℕ) : ℤ) by push_cast; rfl, pyGet_nat hlt]
          rfl
        rw [if_pos hl, eg]
        by_cases hn : gates[idx + 1].numParams = 0
        · have e : ¬ (idx ≠ gates.length - 1 ∧ ∃ nxt, gates[idx + 1]? = some nxt ∧ nxt.numParams ≠ 0) := by
            rintro ⟨-, nxt, h1, h2⟩
            rw [List.getElem?_eq_getElem hlt] at h1
            cases h1
            exact h2 hn
          rw [if_neg e]
          refine Eq.trans ?_ (ih (idx + 1) (by omega) mps' d)
          show (PShift.osaveForward svd (gates.map .op) (idx + 1) (os.map .op) mps'
            (if decide (gates[idx + 1].numParams ≠ 0) = true then _ else d)) = _
          rw [if_neg (by simpa using hn)]
        · have e : idx ≠ gates.length - 1 ∧ ∃ nxt, gates[idx + 1]? = some nxt ∧ nxt.numParams ≠ 0 :=
            ⟨hl, _, List.getElem?_eq_getElem hlt, hn⟩
          rw [if_pos e]
          refine Eq.trans ?_ (ih (idx + 1) (by omega) mps' _)
          show (PShift.osaveForward svd (gates.map .op) (idx + 1) (os.map .op) mps'
            (if decide (gates[idx + 1].numParams ≠ 0) = true then _ else d)) = _
          rw [if_pos (by simpa using hn)]
    · rw [if_neg hs, if_neg hs]

theorem saveBackward_ops (svd : SVDOracle) (gates : List Op) : ∀ (idx : ℕ), idx ≤ gates.length → ∀ mps d,
    PShift.osaveBackward svd (gates.map .op) idx mps d = PShift.saveBackward svd gates idx mps d := by
  intro idx
  induction idx with
  | zero => intro _ mps d; rfl
  | succ idx ih =>
    intro hi mps d
    rw [PShift.osaveBackward, PShift.saveBackward]
    have eg : pyGet (gates.map Obj.op) (idx : ℤ) = .ok (.op gates[idx]) := by
      rw [pyGet_map, pyGet_nat hi]
      rfl
    rw [eg, pyGet_nat hi]
    show ((liftM (gates[idx].operation_dagger) : TNM _) >>= _) = ((liftM (gates[idx].operation_dagger) : TNM _) >>= _)
    congr 1
    funext od
    cases od with
    | none => rfl
    | some o' =>
      show (if o'.supportTN = true then _ else _) = (if o'.supportTN = true then _ else _)
      by_cases hs : o'.supportTN = true
      · rw [if_pos hs, if_pos hs]
        show (o'.TN_operation svd mps >>= _) = (o'.TN_operation svd mps >>= _)
        congr 1
        funext mps'
        rw [List.length_map]
        by_cases hl : idx = 0
        · have e : ¬ (idx ≠ 0 ∧ ∃ prv, gates[idx - 1]? = some prv ∧ prv.numParams ≠ 0) :=
            fun h => h.1 hl
          rw [if_neg (not_not_intro hl), if_neg e]
          exact ih (by omega) mps' d
        · have hlt : idx - 1 < gates.length := by omega
          have eg : pyGet (gates.map Obj.op) ((idx : ℤ) - 1) = .ok (.op gates[idx - 1]) := by
            rw [pyGet_map, show (idx : ℤ) - 1 = ((idx - 1 : ℕ) : ℤ) by omega, pyGet_nat hlt]
            rfl
          rw [if_pos hl, eg]
          by_cases hn : gates[idx - 1].numParams = 0
          · have e : ¬ (idx ≠ 0 ∧ ∃ prv, gates[idx - 1]? = some prv ∧ prv.numParams ≠ 0) := by
              rintro ⟨-, nxt, h1, h2⟩
              rw [List.getElem?_eq_getElem hlt] at h1
              cases h1
              exact h2 hn
            rw [if_neg e]
            refine Eq.trans ?_ (ih (by omega) mps' d)
            show (PShift.osaveBackward svd (gates.map .op) idx mps'
              (if decide (gates[idx - 1].numParams ≠ 0) = true then _ else d)) = _
            rw [if_neg (by simpa using hn)]
          · have e : idx ≠ 0 ∧ ∃ prv, gates[idx - 1]? = some prv ∧ prv.numParams ≠ 0 :=
              ⟨hl, _, List.getElem?_eq_getElem hlt, hn⟩
            rw [if_pos e]
            refine Eq.trans ?_ (ih (by omega) mps' _)
            show (PShift.osaveBackward svd (gates.map .op) idx mps'
              (if decide (gates[idx - 1].numParams ≠ 0) = true then _ else d)) = _
            rw [if_pos (by simpa using hn)]
      · rw [if_neg hs, if_neg hs]

theorem save_mid_MPS (v : View h c c') (svd : SVDOracle) (ps : PShift) (m : Op) :
    ps.osave_mid_MPS svd h c m = ps.save_mid_MPS svd c' m := by
  unfold PShift.osave_mid_MPS PShift.save_mid_MPS
  rw [v.gate, v.nqubits]
  simp only [List.length_map, saveForward_ops svd c'.gate c'.gate 0 (by omega),
    saveBackward_ops svd c'.gate c'.gate.length le_rfl, pyGet_map]
  congr 1; funext mps
  congr 1; funext _
  congr 1; funext x
  congr 1; funext svf
  congr 1; funext mps'
  cases pyGet c'.gate ((c'.gate.length : ℤ) - 1) <;> rfl

theorem overlap (v : View h c c') (svd : SVDOracle) (initMPS : List (Tensor ℂ)) (d : PShift.Saved) (idx : ℕ)
    (s : List (Tensor ℂ)) :
    ∃ x s', PShift.ooverlap svd initMPS d idx ⟨h, c, s⟩ = (x, ⟨h, c, s'⟩) ∧
      PShift.overlap svd initMPS d idx (c', s) = (x, (c', s')) := by
  refine ⟨_, _, rfl, ?_⟩
  unfold PShift.overlap CM.read
  dsimp only
  rw [v.gate, v.length, pyGet_map]
  cases pyGet c'.gate (idx : ℤ) <;> rfl

end View

/-! ## Writing -/

/-- Same circuit, same log, and no object occurs twice. -/
def WView (w : World) (st : Circuit × List (Tensor ℂ)) : Prop :=
  View w.heap w.cir st.1 ∧ w.log = st.2 ∧ w.cir.gate.Nodup

/-- The computation on objects does what the computation on values does. -/
def Simulates {α : Type} (x : OM α) (y : CM α) : Prop :=
  ∀ w st, WView w st → (x w).1 = (y st).1 ∧ WView (x w).2 (y st).2

theorem OM.bind_ok {α β : Type} {x : OM α} {f : α → OM β} {w w' : World} {a : α}
    (h : x w = (.ok a, w')) : (x >>= f) w = f a w' := by
  show OM.bind' x f w = _
  unfold OM.bind'
  rw [h]

theorem OM.bind_error {α β : Type} {x : OM α} {f : α → OM β} {w w' : World} {e : PyErr}
    (h : x w = (.error e, w')) : (x >>= f) w = (.error e, w') := by
  show OM.bind' x f w = _
  unfold OM.bind'
  rw [h]

namespace Simulates

theorem bind {α β : Type} {x : OM α} {y : CM α} {f : α → OM β} {g : α → CM β} (hx : Simulates x y)
    (hf : ∀ a, Simulates (f a) (g a)) : Simulates (x >>= f) (y >>= g) := by
  intro w st hv
  obtain ⟨h1, h2⟩ := hx w st hv
  rcases ex : x w with ⟨r, w'⟩
  rcases ey : y st with ⟨r', st'⟩
  rw [ex, ey] at h1 h2
  dsimp only at h1 h2
  subst h1
  cases r with
  | error e => rw [OM.bind_error ex, CM.bind_error ey]; exact ⟨rfl, h2⟩
  | ok a => rw [OM.bind_ok ex, CM.bind_ok ey]; exact hf a w' st' h2

theorem pure {α : Type} (a : α) : Simulates (Pure.pure a : OM α) (Pure.pure a : CM α) :=
  fun _ _ h => ⟨rfl, h⟩

theorem lift {α : Type} (a : Py α) : Simulates (OM.lift a) (CM.lift a) := fun _ _ h => ⟨rfl, h⟩

theorem read {α : Type} {f : Heap → OCircuit → TNM α} {g : Circuit → TNM α}
    (h : ∀ hp c c', View hp c c' → f hp c = g c') : Simulates (OM.read f) (CM.read g) := by
  intro w st ⟨h1, h2, h3⟩
  unfold OM.read CM.read
  dsimp only
  rw [h _ _ _ h1, h2]
  exact ⟨rfl, h1, rfl, h3⟩

theorem update (idx : ℕ) (p : List ℝ) : Simulates (OM.update idx p) (CM.update idx p) := by
  rintro w ⟨c, s⟩ ⟨h1, h2, h3⟩
  have hg : (w.cir.gate[idx]?).map w.heap = (c.gate[idx]?).map Obj.op := by
    have := congrArg (fun l => l[idx]?) h1.gate
    simpa [OCircuit.objs] using this
  unfold OM.update CM.update
  cases er : w.cir.gate[idx]? with
  | none =>
    rw [er] at hg
    have : c.gate[idx]? = none := by
      cases e : c.gate[idx]? with
      | none => rfl
      | some o => rw [e] at hg; cases hg
    dsimp only
    rw [this]
    exact ⟨rfl, h1, h2, h3⟩
  | some r =>
    rw [er] at hg
    cases e : c.gate[idx]? with
    | none => rw [e] at hg; cases hg
    | some o =>
      rw [e] at hg
      have ho : w.heap r = .op o := by simpa using hg
      dsimp only
      unfold OM.touch
      have eu : (w.heap r).params_update p = (do .ok (.op (← o.params_update p)) : Py Obj) := by rw [ho]; rfl
      rw [eu]
      cases hu : o.params_update p with
      | error e' => exact ⟨rfl, h1, h2, h3⟩
      | ok o' =>
        refine ⟨rfl, ⟨h1.nqubits, ?_, h1.params, h1.num⟩, h2, h3⟩
        show w.cir.gate.map (Function.update w.heap r (.op o')) = (c.gate.set idx o').map Obj.op
        have hl := h1.gate
        rw [List.map_set, ← hl]
        unfold OCircuit.objs
        apply List.ext_getElem?
        intro k
        rw [List.getElem?_map]
        by_cases hk : k = idx
        · subst hk
          have hlt : k < w.cir.gate.length := by
            by_contra hge
            rw [List.getElem?_eq_none (by omega)] at er
            cases er
          rw [er, Option.map_some, Function.update_self, List.getElem?_set_self (by simpa using hlt)]
        · rw [List.getElem?_set_ne (Ne.symm hk), List.getElem?_map]
          cases ek : w.cir.gate[k]? with
          | none => rfl
          | some r' =>
            have hne : r' ≠ r := by
              rintro rfl
              have hk1 : k < w.cir.gate.length := by
                by_contra hge
                rw [List.getElem?_eq_none (by omega)] at ek
                cases ek
              exact hk ((List.getElem?_inj hk1 h3).1 (ek.trans er.symm))
            rw [Option.map_some, Function.update_of_ne hne, Option.map_some]

end Simulates

theorem sim_oget {α : Type} (idx : ℕ) {f : ℕ → OM α} {g : Op → CM α} (h : ∀ o : Op, Simulates (f o.numParams) (g o)) :
    Simulates (do let o ← PShift.oget idx; let n ← OM.lift o.numParams; f n)
      (do let o ← CM.read (fun c => match c.gate[idx]? with
            | some o => TNM.lift (.ok o)
            | none => TNM.lift (.error .indexError)); g o) := by
  rintro w ⟨c, s⟩ hv
  have hg : (w.cir.gate[idx]?).map w.heap = (c.gate[idx]?).map Obj.op := by
    have := congrArg (fun l => l[idx]?) hv.1.gate
    simpa [OCircuit.objs] using this
  cases er : w.cir.gate[idx]? with
  | none =>
    rw [er] at hg
    have ec : c.gate[idx]? = none := by
      cases e : c.gate[idx]? with
      | none => rfl
      | some o => rw [e] at hg; cases hg
    have e1 : PShift.oget idx w = (.error .indexError, w) := by
      unfold PShift.oget OM.read
      dsimp only
      rw [er]
      rfl
    have e2 : (CM.read (fun c => match c.gate[idx]? with
            | some o => TNM.lift (.ok o)
            | none => TNM.lift (.error .indexError)) : CM Op) (c, s) = (.error .indexError, (c, s)) := by
      unfold CM.read
      dsimp only
      rw [ec]
      rfl
    rw [OM.bind_error e1, CM.bind_error e2]
    exact ⟨rfl, hv⟩
  | some r =>
    rw [er] at hg
    cases e : c.gate[idx]? with
    | none => rw [e] at hg; cases hg
    | some o =>
      rw [e] at hg
      have ho : w.heap r = .op o := by simpa using hg
      have e1 : PShift.oget idx w = (.ok (.op o), w) := by
        unfold PShift.oget OM.read
        dsimp only
        rw [er]
        show (Except.ok (w.heap r), _) = _
        rw [ho]
        rfl
      have e2 : (CM.read (fun c => match c.gate[idx]? with
              | some o => TNM.lift (.ok o)
              | none => TNM.lift (.error .indexError)) : CM Op) (c, s) = (.ok o, (c, s)) := by
        unfold CM.read
        dsimp only
        rw [e]
        rfl
      rw [OM.bind_ok e1, CM.bind_ok e2]
      exact h o w (c, s) hv

theorem sim_expec (svd : SVDOracle) (ps : PShift) : Simulates (ps.oexpec svd) (ps.expec svd) :=
  Simulates.read fun _ _ _ v => v.cir_expectation svd _ _ _

theorem sim_gradVec (svd : SVDOracle) (ps : PShift) (idx : ℕ) : ∀ (is : List ℕ) (p : List ℝ),
    Simulates (ps.ogradVec svd idx is p) (ps.gradVec svd idx is p)
  | [], _ => Simulates.pure _
  | _ :: is, _ => (Simulates.update _ _).bind fun _ => (sim_expec svd ps).bind fun _ =>
    (Simulates.update _ _).bind fun _ => (sim_expec svd ps).bind fun _ => (Simulates.update _ _).bind fun _ =>
      (sim_gradVec svd ps idx is _).bind fun _ => Simulates.pure _

theorem sim_readParams (idx : ℕ) : Simulates (OM.read (fun _ c => TNM.lift (PShift.oreadParams c idx)))
    (CM.read (fun c => TNM.lift (PShift.readParams c idx))) := by
  refine Simulates.read fun _ c c' v => ?_
  unfold PShift.oreadParams PShift.readParams
  rw [v.params]
  rcases c'.cir_params idx with _ | _ | _ | _ | _ <;> rfl

theorem sim_gradAt (svd : SVDOracle) (ps : PShift) (idx : ℕ) : Simulates (ps.ogradAt svd idx) (ps.gradAt svd idx) := by
  unfold PShift.ogradAt PShift.gradAt
  refine sim_oget idx (f := fun n => if n = 0 then _ else _) fun o => ?_
  split_ifs
  · exact Simulates.pure _
  · refine (sim_readParams idx).bind fun p => ?_
    cases p with
    | scalar x =>
      exact ((Simulates.update _ _).bind fun _ => (sim_expec svd ps).bind fun _ => (Simulates.update _ _).bind fun _ =>
        (sim_expec svd ps).bind fun _ => (Simulates.update _ _).bind fun _ => Simulates.pure _).bind
          fun _ => Simulates.pure _
    | vec p => exact sim_gradVec svd ps idx _ _
    | pylist p => exact Simulates.lift _

theorem sim_gradLoop (svd : SVDOracle) (ps : PShift) : ∀ l, Simulates (ps.ogradLoop svd l) (ps.gradLoop svd l)
  | [] => Simulates.pure _
  | idx :: l => (sim_gradAt svd ps idx).bind fun _ => (sim_gradLoop svd ps l).bind fun _ => Simulates.pure _

theorem sim_grad (svd : SVDOracle) (ps : PShift) : Simulates (ps.ocal_params_grad svd) (ps.cal_params_grad svd) :=
  (Simulates.read fun _ _ _ v => by rw [v.length]).bind fun _ => (sim_gradLoop svd ps _).bind fun _ =>
    (Simulates.read fun _ _ _ v => by rw [v.num]).bind fun _ => Simulates.pure _

theorem sim_overlap (svd : SVDOracle) (initMPS : List (Tensor ℂ)) (d : PShift.Saved) (idx : ℕ) :
    Simulates (PShift.ooverlap svd initMPS d idx) (PShift.overlap svd initMPS d idx) := by
  rintro ⟨h, c, s⟩ ⟨c', s'⟩ ⟨h1, h2, h3⟩
  dsimp only at h2
  subst h2
  obtain ⟨x, s', e1, e2⟩ := h1.overlap svd initMPS d idx s
  rw [e1, e2]
  exact ⟨rfl, h1, rfl, h3⟩

theorem sim_grad2Vec (svd : SVDOracle) (initMPS : List (Tensor ℂ)) (d : PShift.Saved) (idx : ℕ) :
    ∀ (is : List ℕ) (p : List ℝ),
    Simulates (PShift.ograd2Vec svd initMPS d idx is p) (PShift.grad2Vec svd initMPS d idx is p)
  | [], _ => Simulates.pure _
  | _ :: is, _ => (Simulates.update _ _).bind fun _ => (sim_overlap svd _ _ _).bind fun _ =>
    (Simulates.update _ _).bind fun _ => (sim_grad2Vec svd _ _ idx is _).bind fun _ => Simulates.pure _

theorem sim_grad2At (svd : SVDOracle) (initMPS : List (Tensor ℂ)) (d : PShift.Saved) (idx : ℕ) :
    Simulates (PShift.ograd2At svd initMPS d idx) (PShift.grad2At svd initMPS d idx) := by
  unfold PShift.ograd2At PShift.grad2At
  refine sim_oget idx (f := fun n => if n = 0 then _ else _) fun o => ?_
  split_ifs
  · exact Simulates.pure _
  · refine (sim_readParams idx).bind fun p => ?_
    cases p with
    | scalar x =>
      exact ((Simulates.update _ _).bind fun _ => (sim_overlap svd _ _ _).bind fun _ =>
        (Simulates.update _ _).bind fun _ => Simulates.pure _).bind fun _ => Simulates.pure _
    | vec p => exact sim_grad2Vec svd _ _ idx _ _
    | pylist p => exact Simulates.lift _

theorem sim_grad2Loop (svd : SVDOracle) (initMPS : List (Tensor ℂ)) (d : PShift.Saved) : ∀ l,
    Simulates (PShift.ograd2Loop svd initMPS d l) (PShift.grad2Loop svd initMPS d l)
  | [] => Simulates.pure _
  | idx :: l => (sim_grad2At svd _ _ idx).bind fun _ => (sim_grad2Loop svd _ _ l).bind fun _ => Simulates.pure _

theorem sim_grad2 (svd : SVDOracle) (ps : PShift) (d : PShift.Saved) :
    Simulates (ps.ocal_params_grad2 svd d) (ps.cal_params_grad2 svd d) :=
  (Simulates.read fun _ _ _ v => by rw [v.length]).bind fun _ =>
    (Simulates.read fun _ _ _ v => by rw [v.nqubits]).bind fun _ => (sim_grad2Loop svd _ _ _).bind fun _ =>
    (Simulates.read fun _ _ _ v => by rw [v.num]).bind fun _ => Simulates.pure _

/-- Adding an operation that is not yet in the circuit. -/
theorem add_view {w : World} {st : Circuit × List (Tensor ℂ)} (hv : WView w st) {r : Ref} {o : Op}
    (hr : w.heap r = .op o) (hn : r ∉ w.cir.gate) :
    (OM.add r w).1 = .ok () ∧ WView (OM.add r w).2 (st.1.add o, st.2) := by
  obtain ⟨h1, h2, h3⟩ := hv
  have hg : (w.cir.gate ++ [r]).map w.heap = (st.1.gate ++ [o]).map Obj.op := by
    have := h1.gate
    unfold OCircuit.objs at this
    rw [List.map_append, List.map_append, this]
    simp [hr]
  have hl : (w.cir.gate ++ [r]).length - 1 = (st.1.gate ++ [o]).length - 1 := by
    simp [h1.length]
  have hnd : (w.cir.gate ++ [r]).Nodup := by
    rw [List.nodup_append]
    refine ⟨h3, by simp, fun a ha b hb => ?_⟩
    simp only [List.mem_singleton] at hb
    subst hb
    rintro rfl
    exact hn ha
  unfold OM.add Circuit.add
  rw [hr]
  dsimp only [Obj.numParams, Obj.params]
  split_ifs with h0
  · exact ⟨rfl, ⟨h1.nqubits, hg, by dsimp only; rw [hl, h1.params], by dsimp only; rw [h1.num]⟩, h2, hnd⟩
  · exact ⟨rfl, ⟨h1.nqubits, hg, by dsimp only; rw [hl, h1.params], h1.num⟩, h2, hnd⟩

end QTN
