import Verif.Lemmas.InPlace
import Verif.Model.Objects

/-! # The gradient routine with saved states on list objects -/

namespace QTN

/-! ## Lists that are left alone -/

/-- From `w` to `w'` no list handed out before has changed, apart from `r`. -/
structure LWorld.Frame (r : LRef) (w w' : LWorld) : Prop where
  next : w.next ≤ w'.next
  cir : w'.cir = w.cir
  lists : ∀ x < w.next, x ≠ r → w'.lists x = w.lists x

theorem LWorld.Frame.refl (r : LRef) (w : LWorld) : w.Frame r w := ⟨le_rfl, rfl, fun _ _ _ => rfl⟩

theorem LWorld.Frame.trans {r : LRef} {w w' w'' : LWorld} (h : w.Frame r w') (h' : w'.Frame r w'') :
    w.Frame r w'' :=
  ⟨h.next.trans h'.next, h'.cir.trans h.cir, fun x hx hr =>
    (h'.lists x (lt_of_lt_of_le hx h.next) hr).trans (h.lists x hx hr)⟩

theorem LWorld.frame_put (w : LWorld) (r : LRef) (m s : List (Tensor ℂ)) : w.Frame r (w.put r m s) :=
  ⟨le_rfl, rfl, fun _ _ hr => w.put_other hr m s⟩

/-- No list handed out before has changed. -/
structure LWorld.Old (w w' : LWorld) : Prop where
  next : w.next ≤ w'.next
  lists : ∀ x < w.next, w'.lists x = w.lists x

theorem LWorld.Old.refl (w : LWorld) : w.Old w := ⟨le_rfl, fun _ _ => rfl⟩

theorem LWorld.Old.trans {w w' w'' : LWorld} (h : w.Old w') (h' : w'.Old w'') : w.Old w'' :=
  ⟨h.next.trans h'.next, fun x hx => (h'.lists x (lt_of_lt_of_le hx h.next)).trans (h.lists x hx)⟩

/-- The world after a new list with content `m` has been made. -/
def LWorld.grow (w : LWorld) (m : List (Tensor ℂ)) : LWorld :=
  { w with lists := Function.update w.lists w.next m, next := w.next + 1 }

theorem LM.alloc_eq (m : List (Tensor ℂ)) (w : LWorld) : LM.alloc m w = (.ok w.next, w.grow m) := rfl

theorem LM.deepcopy_eq (r : LRef) (w : LWorld) : LM.deepcopy r w = (.ok w.next, w.grow (w.lists r)) := rfl

@[simp] theorem LWorld.grow_next (w : LWorld) (m : List (Tensor ℂ)) : (w.grow m).next = w.next + 1 := rfl
@[simp] theorem LWorld.grow_cir (w : LWorld) (m : List (Tensor ℂ)) : (w.grow m).cir = w.cir := rfl
@[simp] theorem LWorld.grow_log (w : LWorld) (m : List (Tensor ℂ)) : (w.grow m).log = w.log := rfl
@[simp] theorem LWorld.grow_new (w : LWorld) (m : List (Tensor ℂ)) : (w.grow m).lists w.next = m := by
  simp [LWorld.grow]
theorem LWorld.grow_old (w : LWorld) (m : List (Tensor ℂ)) {x : LRef} (h : x ≠ w.next) :
    (w.grow m).lists x = w.lists x := by simp [LWorld.grow, h]

theorem LWorld.frame_grow (w : LWorld) (m : List (Tensor ℂ)) (r : LRef) : w.Frame r (w.grow m) :=
  ⟨Nat.le_succ _, rfl, fun _ hx _ => w.grow_old m (Nat.ne_of_lt hx)⟩

theorem LWorld.old_grow (w : LWorld) (m : List (Tensor ℂ)) : w.Old (w.grow m) :=
  ⟨Nat.le_succ _, fun _ hx => w.grow_old m (Nat.ne_of_lt hx)⟩

/-- Working on a new list leaves the others alone. -/
theorem LWorld.Frame.old_grow {w w' : LWorld} {m : List (Tensor ℂ)} (h : (w.grow m).Frame w.next w') :
    w.Old w' :=
  ⟨(Nat.le_succ _).trans h.next, fun x hx =>
    (h.lists x (Nat.lt_succ_of_lt hx) (Nat.ne_of_lt hx)).trans (w.grow_old m (Nat.ne_of_lt hx))⟩

/-! ## The dictionary -/

namespace PShift

/-- The references of the dictionary point to lists with the saved contents, none of which is `r`. -/
def Dict (w : LWorld) (d' : SavedL) (d : Saved) : Prop :=
  ∀ k, d k = (d' k).map w.lists ∧ ∀ x, d' k = some x → x < w.next

/-- None of the references of the dictionary is `r`. -/
def Apart (d' : SavedL) (r : LRef) : Prop := ∀ k, d' k ≠ some r

theorem Dict.frame {w w' : LWorld} {r : LRef} {d' : SavedL} {d : Saved} (h : Dict w d' d) (ha : Apart d' r)
    (hf : w.Frame r w') : Dict w' d' d := by
  intro k
  obtain ⟨h1, h2⟩ := h k
  refine ⟨?_, fun x hx => lt_of_lt_of_le (h2 x hx) hf.next⟩
  rcases hk : d' k with _ | x
  · rw [h1, hk]; rfl
  · rw [h1, hk]
    show some (w.lists x) = some (w'.lists x)
    rw [hf.lists x (h2 x hk) (fun e => ha k (e ▸ hk))]

theorem Dict.old {w w' : LWorld} {d' : SavedL} {d : Saved} (h : Dict w d' d) (ho : w.Old w') : Dict w' d' d := by
  intro k
  obtain ⟨h1, h2⟩ := h k
  refine ⟨?_, fun x hx => lt_of_lt_of_le (h2 x hx) ho.next⟩
  rcases hk : d' k with _ | x
  · rw [h1, hk]; rfl
  · rw [h1, hk]
    show some (w.lists x) = some (w'.lists x)
    rw [ho.lists x (h2 x hk)]

theorem keepL_run (cond : Prop) [Decidable cond] {d' : SavedL} {d : Saved} {w : LWorld} {r : LRef} (k : ℕ)
    (hr : r < w.next) (hd : Dict w d' d) (ha : Apart d' r) :
    ∃ d1' w1, keepL cond d' k r w = (.ok d1', w1) ∧ w1.lists r = w.lists r ∧ w1.log = w.log ∧ w.Frame r w1 ∧
      Apart d1' r ∧ (∀ e : Decidable cond,
        Dict w1 d1' (@ite _ cond e (Function.update d k (some (w.lists r))) d)) := by
  unfold keepL
  by_cases h : cond
  · rw [if_pos h]
    refine ⟨Function.update d' k (some w.next), w.grow (w.lists r), ?_, w.grow_old _ (Nat.ne_of_lt hr), rfl,
      w.frame_grow _ r, fun j hj => ?_, fun _ => ?_⟩
    · rw [LM.bind_ok (LM.deepcopy_eq r w)]; rfl
    · by_cases hjk : j = k
      · subst hjk
        rw [Function.update_self] at hj
        cases hj
        exact lt_irrefl _ hr
      · rw [Function.update_of_ne hjk] at hj
        exact ha j hj
    · rw [if_pos h]
      intro j
      by_cases hjk : j = k
      · subst hjk
        rw [Function.update_self, Function.update_self]
        refine ⟨by simp, fun x hx => ?_⟩
        cases hx
        exact Nat.lt_succ_self _
      · rw [Function.update_of_ne hjk, Function.update_of_ne hjk]
        exact hd.frame ha (w.frame_grow _ r) j
  · rw [if_neg h]
    exact ⟨d', w, rfl, rfl, rfl, LWorld.Frame.refl r w, ha, fun _ => by rwa [if_neg h]⟩

/-- What a pass over the operations does with the list `r` and the dictionary. -/
def Passes (x : TNM (List (Tensor ℂ) × Saved)) (x' : LM (LRef × SavedL)) (r : LRef) (w : LWorld) : Prop :=
  (∃ m d s d' w', x w.log = (.ok (m, d), s) ∧ x' w = (.ok (r, d'), w') ∧ w'.lists r = m ∧ w'.log = s ∧
    w.Frame r w' ∧ Dict w' d' d ∧ Apart d' r) ∨
  (∃ e s w', x w.log = (.error e, s) ∧ x' w = (.error e, w') ∧ w'.log = s ∧ w.Frame r w')

theorem passes_trans {x y : TNM (List (Tensor ℂ) × Saved)} {x' y' : LM (LRef × SavedL)} {r : LRef} {w w1 : LWorld}
    (e : x w.log = y w1.log) (e' : x' w = y' w1) (hf : w.Frame r w1) (h : Passes y y' r w1) :
    Passes x x' r w := by
  rcases h with ⟨m, d, s, d', w', h1, h2, h3, h4, h5, h6⟩ | ⟨er, s, w', h1, h2, h3, h4⟩
  · exact .inl ⟨m, d, s, d', w', e.trans h1, e'.trans h2, h3, h4, hf.trans h5, h6⟩
  · exact .inr ⟨er, s, w', e.trans h1, e'.trans h2, h3, hf.trans h4⟩

/-- One operation followed by the decision to save. -/
theorem passes_step (svd : SVDOracle) (o : Op) (cond : Prop) (i1 i2 : Decidable cond) (k : ℕ)
    {rest : List (Tensor ℂ) → Saved → TNM (List (Tensor ℂ) × Saved)} {rest' : LRef → SavedL → LM (LRef × SavedL)}
    (ih : ∀ (w : LWorld) (r : LRef) (d' : SavedL) (d : Saved), r < w.next → Dict w d' d → Apart d' r →
      Passes (rest (w.lists r) d) (rest' r d') r w)
    (w : LWorld) (r : LRef) (d' : SavedL) (d : Saved) (hr : r < w.next) (hd : Dict w d' d) (ha : Apart d' r) :
    Passes (o.TN_operation svd (w.lists r) >>= fun m => rest m (@ite _ cond i1 (Function.update d k (some m)) d))
      (o.TN_operationL svd r >>= fun r => @keepL cond i2 d' k r >>= fun d' => rest' r d') r w := by
  rcases inPlace_op svd o r w with ⟨m, s, h1, -, h2⟩ | ⟨e, m, s, h1, -, h2⟩
  · have hf := w.frame_put r m s
    obtain ⟨d1', w1, k1, k2, k3, k4, k5, k6⟩ := @keepL_run cond i2 d' d (w.put r m s) r k hr (hd.frame ha hf) ha
    rw [LWorld.put_lists] at k2 k6
    refine passes_trans (y := rest (w1.lists r) (@ite _ cond i1 (Function.update d k (some m)) d))
      (y' := rest' r d1') ?_ ?_ (hf.trans k4) (ih w1 r d1' _ (lt_of_lt_of_le hr k4.next) (k6 i1) k5)
    · rw [TNM.bind_ok h1, k2, k3]; rfl
    · rw [LM.bind_ok h2, LM.bind_ok k1]
  · exact .inr ⟨e, s, w.put r m s, TNM.bind_error h1 _, LM.bind_error h2 _, rfl, w.frame_put r m s⟩

theorem forward_passes (svd : SVDOracle) (gates : List Op) : ∀ (os : List Op) (idx : ℕ) (w : LWorld) (r : LRef)
    (d' : SavedL) (d : Saved), r < w.next → Dict w d' d → Apart d' r →
    Passes (saveForward svd gates idx os (w.lists r) d) (saveForwardL svd gates idx os r d') r w
  | [], idx, w, r, d', d, _, hd, ha =>
    .inl ⟨w.lists r, d, w.log, d', w, rfl, rfl, rfl, rfl, LWorld.Frame.refl r w, hd, ha⟩
  | o :: os, idx, w, r, d', d, hr, hd, ha => by
    unfold saveForward saveForwardL
    by_cases ho : o.supportTN = true
    · rw [if_pos ho, if_pos ho]
      exact passes_step svd o _ _ _ idx (rest := fun m d => saveForward svd gates (idx + 1) os m d)
        (rest' := fun r d => saveForwardL svd gates (idx + 1) os r d)
        (fun w r d' d => forward_passes svd gates os (idx + 1) w r d' d) w r d' d hr hd ha
    · rw [if_neg ho, if_neg ho]
      exact .inr ⟨_, w.log, w, rfl, rfl, rfl, LWorld.Frame.refl r w⟩

theorem backward_passes (svd : SVDOracle) (gates : List Op) : ∀ (n : ℕ) (w : LWorld) (r : LRef)
    (d' : SavedL) (d : Saved), r < w.next → Dict w d' d → Apart d' r →
    Passes (saveBackward svd gates n (w.lists r) d) (saveBackwardL svd gates n r d') r w
  | 0, w, r, d', d, _, hd, ha =>
    .inl ⟨w.lists r, d, w.log, d', w, rfl, rfl, rfl, rfl, LWorld.Frame.refl r w, hd, ha⟩
  | n + 1, w, r, d', d, hr, hd, ha => by
    unfold saveBackward saveBackwardL
    rcases pyGet gates (n : ℤ) with e | o
    · exact .inr ⟨e, w.log, w, rfl, rfl, rfl, LWorld.Frame.refl r w⟩
    rw [TNM.lift_ok_bind, LM.py_ok_bind]
    rcases o.operation_dagger with e | (_ | o')
    · exact .inr ⟨e, w.log, w, rfl, rfl, rfl, LWorld.Frame.refl r w⟩
    · exact .inr ⟨.attributeError, w.log, w, rfl, rfl, rfl, LWorld.Frame.refl r w⟩
    · rw [TNM.lift_ok_bind, LM.py_ok_bind]
      dsimp only
      by_cases hs : o'.supportTN = true
      · rw [if_pos hs, if_pos hs]
        exact passes_step svd o' _ _ _ _ (rest := fun m d => saveBackward svd gates n m d)
          (rest' := fun r d => saveBackwardL svd gates n r d)
          (fun w r d' d => backward_passes svd gates n w r d' d) w r d' d hr hd ha
      · rw [if_neg hs, if_neg hs]
        exact .inr ⟨.valueError, w.log, w, rfl, rfl, rfl, LWorld.Frame.refl r w⟩

/-- `save_mid_MPS` on list objects: same result as on values, the saved states are lists of their own, and
nothing else has changed. -/
theorem save_run (svd : SVDOracle) (ps : PShift) (mOper : Op) (w : LWorld) :
    (∃ d psi s d' w', ps.save_mid_MPS svd w.cir mOper w.log = (.ok (d, psi), s) ∧
      ps.save_mid_MPSL svd mOper w = (.ok (d', psi), w') ∧ w'.log = s ∧ w'.cir = w.cir ∧ w.Old w' ∧ Dict w' d' d) ∨
    (∃ e s w', ps.save_mid_MPS svd w.cir mOper w.log = (.error e, s) ∧
      ps.save_mid_MPSL svd mOper w = (.error e, w') ∧ w'.log = s ∧ w'.cir = w.cir ∧ w.Old w') := by
  unfold save_mid_MPS save_mid_MPSL
  rw [LM.bind_ok (show LM.circuit w = (.ok w.cir, w) from rfl)]
  rcases hx : StateVec2MPS svd ps.init_state w.cir.nqubits w.log with ⟨(e | m0), s0⟩
  · refine .inr ⟨e, s0, { w with log := s0 }, TNM.bind_error hx _, LM.bind_error ?_ _, rfl, rfl, le_rfl, fun _ _ => rfl⟩
    unfold LM.tn; rw [hx]
  rw [TNM.bind_ok hx, LM.bind_ok (show LM.tn _ w = (.ok m0, { w with log := s0 }) by unfold LM.tn; rw [hx]),
    LM.bind_ok (LM.alloc_eq m0 _)]
  set w0 : LWorld := { w with log := s0 } with hw0
  have hr0 : w0.next < (w0.grow m0).next := Nat.lt_succ_self _
  have old0 : ∀ w' : LWorld, (w0.grow m0).Frame w0.next w' → w'.cir = w.cir ∧ w.Old w' := fun w' hf =>
    ⟨hf.cir, hf.old_grow.next, hf.old_grow.lists⟩
  rw [LM.bind_ok (show LM.content w0.next (w0.grow m0) = (.ok m0, w0.grow m0) by
    unfold LM.content; rw [LWorld.grow_new])]
  by_cases hl : m0.length ≠ w.cir.nqubits
  · rw [raiseIf_true hl]
    exact .inr ⟨_, s0, w0.grow m0, rfl, rfl, rfl, old0 _ (LWorld.Frame.refl _ _)⟩
  rw [raiseIf_false hl, TNM.lift_ok_bind, LM.py_ok_bind]
  have hpass := forward_passes svd w.cir.gate w.cir.gate 0 (w0.grow m0) w0.next (fun _ => none) (fun _ => none) hr0
    (fun k => ⟨rfl, fun x hx => by cases hx⟩) (fun k hk => by cases hk)
  rw [LWorld.grow_new] at hpass
  rcases hpass with ⟨m, d, s, d', w1, h1, h2, h3, h4, h5, h6, h7⟩ | ⟨e, s, w1, h1, h2, h3, h4⟩
  swap
  · exact .inr ⟨e, s, w1, TNM.bind_error h1 _, LM.bind_error h2 _, h3, old0 _ h4⟩
  have hr1 : w0.next < w1.next := lt_of_lt_of_le hr0 h5.next
  have h1' : saveForward svd w.cir.gate 0 w.cir.gate m0 (fun _ => none) s0 = (.ok (m, d), s) := h1
  rw [TNM.bind_ok h1', LM.bind_ok h2]
  dsimp only
  rw [LM.bind_ok (show LM.content w0.next w1 = (.ok m, w1) by unfold LM.content; rw [h3])]
  rcases MPS2StateVec m with e | psi
  · exact .inr ⟨e, s, w1, rfl, rfl, h4, old0 _ h5⟩
  rw [TNM.lift_ok_bind, LM.py_ok_bind]
  have hop := inPlace_op svd mOper w0.next w1
  rw [h3, h4] at hop
  rcases hop with ⟨m2, s2, k1, -, k2⟩ | ⟨e, m2, s2, k1, -, k2⟩
  swap
  · exact .inr ⟨e, s2, _, TNM.bind_error k1 _, LM.bind_error k2 _, rfl, old0 _ (h5.trans (w1.frame_put _ _ _))⟩
  rw [TNM.bind_ok k1, LM.bind_ok k2]
  have f2 := h5.trans (w1.frame_put w0.next m2 s2)
  rcases pyGet w.cir.gate ((w.cir.gate.length : ℤ) - 1) with e | last
  · exact .inr ⟨e, s2, _, rfl, rfl, rfl, old0 _ f2⟩
  rw [TNM.lift_ok_bind, LM.py_ok_bind]
  obtain ⟨d3', w3, q1, q2, q3, q4, q5, q6⟩ := keepL_run (last.numParams ≠ 0) (w := w1.put w0.next m2 s2)
    (w.cir.gate.length - 1) hr1 (h6.frame h7 (w1.frame_put w0.next m2 s2)) h7
  rw [LM.bind_ok q1]
  rw [LWorld.put_lists] at q2 q6
  have f3 := f2.trans q4
  have hback := backward_passes svd w.cir.gate w.cir.gate.length w3 w0.next d3' _
    (lt_of_lt_of_le hr1 q4.next) (q6 inferInstance) q5
  rw [q2] at hback
  unfold Passes at hback
  rw [q3] at hback
  rcases hback with ⟨m4, d4, s4, d4', w4, p1, p2, p3, p4, p5, p6, p7⟩ | ⟨e, s4, w4, p1, p2, p3, p4⟩
  · refine .inl ⟨d4, psi, s4, d4', w4, TNM.bind_ok p1 _, LM.bind_ok p2 _, p4, (old0 _ (f3.trans p5)).1,
      (old0 _ (f3.trans p5)).2, p6⟩
  · exact .inr ⟨e, s4, w4, TNM.bind_error p1 _, LM.bind_error p2 _, p3, old0 _ (f3.trans p4)⟩

/-! ## cal_params_grad2 -/

/-- In worlds with `P`, the computation on list objects returns what the computation on values returns, changes
the circuit in the same way, and changes no list handed out before. -/
def Sim {α : Type} (P : LWorld → Prop) (x : CM α) (x' : LM α) : Prop :=
  ∀ w, P w → ∃ w', x' w = ((x (w.cir, w.log)).1, w') ∧ (w'.cir, w'.log) = (x (w.cir, w.log)).2 ∧ w.Old w'

theorem cm_ok {α β : Type} {x : CM α} {c c' : Circuit × List (Tensor ℂ)} {a : α} (h : x c = (.ok a, c'))
    (f : α → CM β) : (x >>= f) c = f a c' := by
  show CM.bind' x f c = _
  unfold CM.bind'; rw [h]

theorem cm_error {α β : Type} {x : CM α} {c c' : Circuit × List (Tensor ℂ)} {e : PyErr}
    (h : x c = (.error e, c')) (f : α → CM β) : (x >>= f) c = (.error e, c') := by
  show CM.bind' x f c = _
  unfold CM.bind'; rw [h]

theorem Sim.bind {α β : Type} {P : LWorld → Prop} (hP : ∀ w w', P w → w.Old w' → P w') {x : CM α} {x' : LM α}
    {f : α → CM β} {f' : α → LM β} (hx : Sim P x x') (hf : ∀ a, Sim P (f a) (f' a)) :
    Sim P (x >>= f) (x' >>= f') := by
  intro w hw
  obtain ⟨w1, h1, h2, h3⟩ := hx w hw
  rcases hr : x (w.cir, w.log) with ⟨(e | a), c⟩
  · rw [hr] at h1 h2
    rw [cm_error hr]
    exact ⟨w1, LM.bind_error h1 _, h2, h3⟩
  · rw [hr] at h1 h2
    obtain ⟨w2, k1, k2, k3⟩ := hf a w1 (hP w w1 hw h3)
    rw [cm_ok hr]
    rw [h2] at k1 k2
    exact ⟨w2, by rw [LM.bind_ok h1, k1], k2, h3.trans k3⟩

theorem Sim.pure {α : Type} {P : LWorld → Prop} (a : α) : Sim P (pure a) (pure a) :=
  fun w _ => ⟨w, rfl, rfl, LWorld.Old.refl w⟩

theorem Sim.update {P : LWorld → Prop} (idx : ℕ) (p : List ℝ) :
    Sim P (CM.update idx p) (LM.onCircuit (CM.update idx p)) :=
  fun _ _ => ⟨_, rfl, rfl, le_rfl, fun _ _ => rfl⟩

theorem Sim.lift {α : Type} {P : LWorld → Prop} (x : Py α) : Sim P (CM.lift x) (LM.py x) :=
  fun w _ => ⟨w, rfl, rfl, LWorld.Old.refl w⟩

theorem Sim.reads {α : Type} {P : LWorld → Prop} {f : Circuit → Py α} {g : Circuit → TNM α}
    (h : ∀ c, g c = TNM.lift (f c)) : Sim P (CM.read g) (LM.reads f) := by
  rw [show g = fun c => TNM.lift (f c) from funext h]
  exact fun w _ => ⟨w, rfl, rfl, LWorld.Old.refl w⟩

/-- The lists the routine reads: the initial state and the saved ones. -/
def Sources (init' : LRef) (init : List (Tensor ℂ)) (d' : SavedL) (d : Saved) (w : LWorld) : Prop :=
  Dict w d' d ∧ init' < w.next ∧ w.lists init' = init

theorem sources_old {init' : LRef} {init : List (Tensor ℂ)} {d' : SavedL} {d : Saved} (w w' : LWorld)
    (h : Sources init' init d' d w) (ho : w.Old w') : Sources init' init d' d w' :=
  ⟨h.1.old ho, lt_of_lt_of_le h.2.1 ho.next, (ho.lists _ h.2.1).trans h.2.2⟩

theorem savedGet_sim {w : LWorld} {d' : SavedL} {d : Saved} (h : Dict w d' d) (k : ℤ) :
    (∃ x m, savedGetL d' k = .ok x ∧ savedGet d k = .ok m ∧ w.lists x = m ∧ x < w.next) ∨
    (savedGetL d' k = .error .keyError ∧ savedGet d k = .error .keyError) := by
  unfold savedGetL savedGet
  by_cases hk : k < 0
  · rw [if_pos hk, if_pos hk]; exact .inr ⟨rfl, rfl⟩
  · rw [if_neg hk, if_neg hk]
    obtain ⟨h1, h2⟩ := h k.toNat
    rw [h1]
    rcases hx : d' k.toNat with _ | x
    · exact .inr ⟨rfl, rfl⟩
    · exact .inl ⟨x, w.lists x, rfl, rfl, rfl, h2 x hx⟩

theorem overlap_sim (svd : SVDOracle) {init' : LRef} {init : List (Tensor ℂ)} {d' : SavedL} {d : Saved} (idx : ℕ) :
    Sim (Sources init' init d' d) (overlap svd init d idx) (overlapL svd init' d' idx) := by
  intro w hw
  unfold overlap overlapL CM.read
  dsimp only
  rw [LM.bind_ok (show LM.circuit w = (.ok w.cir, w) from rfl)]
  rcases pyGet w.cir.gate (idx : ℤ) with e | o
  · exact ⟨w, rfl, rfl, LWorld.Old.refl w⟩
  rw [TNM.lift_ok_bind, LM.py_ok_bind]
  have hsrc : (∃ x m, (if idx = 0 then .ok init' else savedGetL d' ((idx : ℤ) - 1) : Py LRef) = .ok x ∧
      (if idx = 0 then .ok init else savedGet d ((idx : ℤ) - 1) : Py (List (Tensor ℂ))) = .ok m ∧ w.lists x = m) ∨
      ((if idx = 0 then .ok init' else savedGetL d' ((idx : ℤ) - 1) : Py LRef) = .error .keyError ∧
      (if idx = 0 then .ok init else savedGet d ((idx : ℤ) - 1) : Py (List (Tensor ℂ))) = .error .keyError) := by
    by_cases h0 : idx = 0
    · rw [if_pos h0, if_pos h0]
      exact .inl ⟨init', init, rfl, rfl, hw.2.2⟩
    · rw [if_neg h0, if_neg h0]
      rcases savedGet_sim hw.1 ((idx : ℤ) - 1) with ⟨x, m, e1, e2, e3, -⟩ | h
      · exact .inl ⟨x, m, e1, e2, e3⟩
      · exact .inr h
  rcases hsrc with ⟨x, m, e1, e2, e3⟩ | ⟨e1, e2⟩
  swap
  · rw [e1, e2]
    exact ⟨w, rfl, rfl, LWorld.Old.refl w⟩
  rw [e1, e2, TNM.lift_ok_bind, LM.py_ok_bind, LM.bind_ok (LM.deepcopy_eq x w), e3]
  have hop := inPlace_op svd o w.next (w.grow m)
  rw [LWorld.grow_new, LWorld.grow_log] at hop
  rcases hop with ⟨m2, s2, k1, -, k2⟩ | ⟨e, m2, s2, k1, -, k2⟩
  swap
  · rw [TNM.bind_error k1, LM.bind_error k2]
    exact ⟨_, rfl, rfl, ((w.grow m).frame_put _ _ _).old_grow⟩
  have old2 : w.Old ((w.grow m).put w.next m2 s2) := ((w.grow m).frame_put _ _ _).old_grow
  rw [TNM.bind_ok k1, LM.bind_ok k2,
    LM.bind_ok (show LM.content w.next ((w.grow m).put w.next m2 s2) = (.ok m2, (w.grow m).put w.next m2 s2) by
      unfold LM.content; rw [LWorld.put_lists])]
  rcases MPS2StateVec m2 with e | psi1
  · exact ⟨_, rfl, rfl, old2⟩
  rw [TNM.lift_ok_bind, LM.py_ok_bind]
  rcases savedGet_sim (hw.1.old old2) (2 * (w.cir.gate.length : ℤ) - (idx : ℤ) - 2) with
    ⟨y, n, e4, e5, e6, -⟩ | ⟨e4, e5⟩
  swap
  · rw [e4, e5]
    exact ⟨_, rfl, rfl, old2⟩
  rw [e4, e5, TNM.lift_ok_bind, LM.py_ok_bind,
    LM.bind_ok (show LM.content y ((w.grow m).put w.next m2 s2) = (.ok n, (w.grow m).put w.next m2 s2) by
      unfold LM.content; rw [e6])]
  rcases MPS2StateVec n with e | psi2
  · exact ⟨_, rfl, rfl, old2⟩
  rw [TNM.lift_ok_bind, LM.py_ok_bind]
  rcases psi1.view [-1, 1] with e | v
  · exact ⟨_, rfl, rfl, old2⟩
  rw [TNM.lift_ok_bind, LM.py_ok_bind]
  rcases psi2.conj.matmul v with e | t
  · exact ⟨_, rfl, rfl, old2⟩
  exact ⟨_, rfl, rfl, old2⟩

theorem grad2Scalar_sim (svd : SVDOracle) {init' : LRef} {init : List (Tensor ℂ)} {d' : SavedL} {d : Saved}
    (idx : ℕ) (x : ℝ) :
    Sim (Sources init' init d' d) (grad2Scalar svd init d idx x) (grad2ScalarL svd init' d' idx x) := by
  unfold grad2Scalar grad2ScalarL
  exact Sim.bind sources_old (Sim.update _ _) fun _ => Sim.bind sources_old (overlap_sim svd idx) fun e =>
    Sim.bind sources_old (Sim.update _ _) fun _ => Sim.pure e

theorem grad2Vec_sim (svd : SVDOracle) {init' : LRef} {init : List (Tensor ℂ)} {d' : SavedL} {d : Saved}
    (idx : ℕ) : ∀ (is : List ℕ) (p : List ℝ),
    Sim (Sources init' init d' d) (grad2Vec svd init d idx is p) (grad2VecL svd init' d' idx is p)
  | [], p => Sim.pure _
  | i :: is, p => by
    unfold grad2Vec grad2VecL
    exact Sim.bind sources_old (Sim.update _ _) fun _ => Sim.bind sources_old (overlap_sim svd idx) fun e =>
      Sim.bind sources_old (Sim.update _ _) fun _ => Sim.bind sources_old (grad2Vec_sim svd idx is _) fun rest =>
        Sim.pure _

theorem grad2At_sim (svd : SVDOracle) {init' : LRef} {init : List (Tensor ℂ)} {d' : SavedL} {d : Saved}
    (idx : ℕ) :
    Sim (Sources init' init d' d) (grad2At svd init d idx) (grad2AtL svd init' d' idx) := by
  unfold grad2At grad2AtL
  refine Sim.bind sources_old (Sim.reads fun c => by cases c.gate[idx]? <;> rfl) fun o => ?_
  by_cases h0 : o.numParams = 0
  · rw [if_pos h0, if_pos h0]; exact Sim.pure _
  · rw [if_neg h0, if_neg h0]
    refine Sim.bind sources_old (Sim.reads fun c => rfl) fun p => ?_
    cases p with
    | scalar x => exact Sim.bind sources_old (grad2Scalar_sim svd idx x) fun e => Sim.pure _
    | vec p => exact grad2Vec_sim svd idx _ p
    | pylist p => exact Sim.lift _

theorem grad2Loop_sim (svd : SVDOracle) {init' : LRef} {init : List (Tensor ℂ)} {d' : SavedL} {d : Saved} :
    ∀ is : List ℕ, Sim (Sources init' init d' d) (grad2Loop svd init d is) (grad2LoopL svd init' d' is)
  | [] => Sim.pure _
  | i :: is => by
    unfold grad2Loop grad2LoopL
    exact Sim.bind sources_old (grad2At_sim svd i) fun g => Sim.bind sources_old (grad2Loop_sim svd is) fun gs =>
      Sim.pure _

/-- `cal_params_grad2` on list objects: same result as on values; no list handed out before has changed. -/
theorem grad2_run (svd : SVDOracle) (ps : PShift) {d' : SavedL} {d : Saved} (w : LWorld) (hd : Dict w d' d) :
    ∃ w', ps.cal_params_grad2L svd d' w = ((ps.cal_params_grad2 svd d (w.cir, w.log)).1, w') ∧
      (w'.cir, w'.log) = (ps.cal_params_grad2 svd d (w.cir, w.log)).2 ∧ w.Old w' := by
  have key : ∀ (x : CM (List ℝ)), x = ps.cal_params_grad2 svd d →
      ∃ w', ps.cal_params_grad2L svd d' w = ((x (w.cir, w.log)).1, w') ∧
      (w'.cir, w'.log) = (x (w.cir, w.log)).2 ∧ w.Old w' := by
    intro x hx
    unfold cal_params_grad2 at hx
    unfold cal_params_grad2L
    rw [LM.bind_ok (show LM.circuit w = (.ok w.cir, w) from rfl)]
    rcases hi : StateVec2MPS svd ps.init_state w.cir.nqubits w.log with ⟨(e | m0), s0⟩
    · have e1 : x (w.cir, w.log) = (.error e, (w.cir, s0)) := by
        rw [hx]
        refine (cm_ok (c' := (w.cir, w.log)) rfl _).trans (cm_error ?_ _)
        unfold CM.read; dsimp only; rw [hi]
      rw [e1]
      exact ⟨{ w with log := s0 }, LM.bind_error (by unfold LM.tn; rw [hi]) _, rfl, le_rfl, fun _ _ => rfl⟩
    · set w0 : LWorld := { w with log := s0 } with hw0
      have e1 : x (w.cir, w.log) = (grad2Loop svd m0 d (List.range w.cir.gate.length) >>= fun grads =>
          CM.read (fun c => TNM.lift (pyAssert (grads.length = c.cir_num_params))) >>= fun _ => pure grads)
            (w.cir, s0) := by
        rw [hx]
        refine (cm_ok (c' := (w.cir, w.log)) rfl _).trans (cm_ok ?_ _)
        unfold CM.read; dsimp only; rw [hi]
      rw [LM.bind_ok (show LM.tn _ w = (.ok m0, w0) by unfold LM.tn; rw [hi]), LM.bind_ok (LM.alloc_eq m0 _), e1]
      obtain ⟨w', h1, h2, h3⟩ := Sim.bind (sources_old (init' := w0.next) (init := m0) (d' := d') (d := d))
        (grad2Loop_sim svd (List.range w.cir.gate.length)) (fun grads =>
          Sim.bind sources_old (Sim.reads (f := fun c => pyAssert (grads.length = c.cir_num_params)) fun c => rfl)
            fun _ => Sim.pure grads) (w0.grow m0)
        ⟨hd.old (LWorld.old_grow w0 m0 |> fun h => ⟨h.next, h.lists⟩), Nat.lt_succ_self _, w0.grow_new m0⟩
      refine ⟨w', h1, h2, ?_⟩
      have := (LWorld.old_grow w0 m0).trans h3
      exact ⟨this.next, this.lists⟩
  exact key _ rfl

/-! ## cir_expectation -/

/-- `cir_expectation` on list objects: same result as on values; no list handed out before has changed. -/
theorem expectation_run (svd : SVDOracle) (c : Circuit) (init M : Tensor ℂ) (tn : Bool) (w : LWorld) :
    ∃ w', c.cir_expectationL svd init M tn w = ((c.cir_expectation svd init M tn w.log).1, w') ∧
      w'.log = (c.cir_expectation svd init M tn w.log).2 ∧ w'.cir = w.cir ∧ w.Old w' := by
  unfold Circuit.cir_expectation Circuit.cir_expectationL
  rcases pyGet init.shape 0 with e | i0
  · exact ⟨w, rfl, rfl, rfl, LWorld.Old.refl w⟩
  rw [TNM.lift_ok_bind, LM.py_ok_bind]
  rcases raiseIf (i0 ≠ 1) .valueError with e | _
  · exact ⟨w, rfl, rfl, rfl, LWorld.Old.refl w⟩
  rw [TNM.lift_ok_bind, LM.py_ok_bind]
  rcases pyGet init.shape 1 with e | i1
  · exact ⟨w, rfl, rfl, rfl, LWorld.Old.refl w⟩
  rw [TNM.lift_ok_bind, LM.py_ok_bind]
  rcases raiseIf (i1 ≠ 2 ^ c.nqubits) .valueError with e | _
  · exact ⟨w, rfl, rfl, rfl, LWorld.Old.refl w⟩
  rw [TNM.lift_ok_bind, LM.py_ok_bind]
  rcases pyGet M.shape 0 with e | m0
  · exact ⟨w, rfl, rfl, rfl, LWorld.Old.refl w⟩
  rw [TNM.lift_ok_bind, LM.py_ok_bind]
  rcases pyGet M.shape 1 with e | m1
  · exact ⟨w, rfl, rfl, rfl, LWorld.Old.refl w⟩
  rw [TNM.lift_ok_bind, LM.py_ok_bind]
  rcases raiseIf (m0 ≠ m1) .valueError with e | _
  · exact ⟨w, rfl, rfl, rfl, LWorld.Old.refl w⟩
  rw [TNM.lift_ok_bind, LM.py_ok_bind]
  by_cases ht : c.TN_check = true ∧ tn = true
  · rw [if_pos ht, if_pos ht]
    rcases init.view [1, -1] with e | v
    · exact ⟨w, rfl, rfl, rfl, LWorld.Old.refl w⟩
    rw [TNM.lift_ok_bind, LM.py_ok_bind]
    rcases hi : StateVec2MPS svd v c.nqubits w.log with ⟨(e | m0), s0⟩
    · rw [TNM.bind_error hi, LM.bind_error (show LM.tn _ w = (.error e, { w with log := s0 }) by
        unfold LM.tn; rw [hi])]
      exact ⟨_, rfl, rfl, rfl, le_rfl, fun _ _ => rfl⟩
    rw [TNM.bind_ok hi, LM.bind_ok (show LM.tn _ w = (.ok m0, { w with log := s0 }) by unfold LM.tn; rw [hi]),
      LM.bind_ok (LM.alloc_eq m0 _)]
    set w0 : LWorld := { w with log := s0 } with hw0
    have old0 : ∀ w' : LWorld, (w0.grow m0).Frame w0.next w' → w'.cir = w.cir ∧ w.Old w' := fun w' hf =>
      ⟨hf.cir, hf.old_grow.next, hf.old_grow.lists⟩
    have hev := inPlace_evolution svd c w0.next (w0.grow m0)
    rw [LWorld.grow_new] at hev
    rcases hev with ⟨m, s, h1, -, h2⟩ | ⟨e, m, s, h1, -, h2⟩
    · have h1' : c.TN_evolution svd m0 s0 = (.ok m, s) := h1
      rw [TNM.bind_ok h1', LM.bind_ok h2, LM.bind_ok (show LM.content w0.next ((w0.grow m0).put w0.next m s) =
        (.ok m, (w0.grow m0).put w0.next m s) by unfold LM.content; rw [LWorld.put_lists])]
      have o2 := old0 _ ((w0.grow m0).frame_put w0.next m s)
      rcases MPS2StateVec m with e | psi
      · exact ⟨_, rfl, rfl, o2⟩
      exact ⟨_, rfl, rfl, o2⟩
    · have h1' : c.TN_evolution svd m0 s0 = (.error e, s) := h1
      rw [TNM.bind_error h1', LM.bind_error h2]
      exact ⟨_, rfl, rfl, old0 _ ((w0.grow m0).frame_put w0.next m s)⟩
  · rw [if_neg ht, if_neg ht]
    rcases c.U with e | u
    · exact ⟨w, rfl, rfl, rfl, LWorld.Old.refl w⟩
    rw [TNM.lift_ok_bind, LM.py_ok_bind]
    rcases init.view [-1, 1] with e | v
    · exact ⟨w, rfl, rfl, rfl, LWorld.Old.refl w⟩
    rw [TNM.lift_ok_bind, LM.py_ok_bind]
    rcases u.matmul v with e | psi
    · exact ⟨w, rfl, rfl, rfl, LWorld.Old.refl w⟩
    exact ⟨w, rfl, rfl, rfl, LWorld.Old.refl w⟩

end PShift

end QTN
