import Verif.Lemmas.Objects
import Verif.Props.Grad2

/-! # Circuits in which an object occurs several times -/

namespace QTN

open Spec Matrix QTN.Props

variable {N : ℕ}

/-! ## The log only grows -/

/-- The computation only extends the list of decomposed matrices. -/
def OM.Grows {α : Type} (x : OM α) : Prop := ∀ w, w.log <+: (x w).2.log

theorem OM.Grows.pure {α : Type} (a : α) : OM.Grows (Pure.pure a : OM α) := fun _ => List.prefix_refl _

theorem OM.Grows.lift {α : Type} (a : Py α) : OM.Grows (OM.lift a) := fun _ => List.prefix_refl _

theorem OM.Grows.bind {α β : Type} {x : OM α} {f : α → OM β} (hx : x.Grows) (hf : ∀ a, (f a).Grows) :
    (x >>= f).Grows := by
  intro w
  rcases h : x w with ⟨e | a, w'⟩
  · rw [OM.bind_error h]; have := hx w; rwa [h] at this
  · rw [OM.bind_ok h]; have := hx w; rw [h] at this; exact this.trans (hf a w')

theorem OM.Grows.read {α : Type} {f : Heap → OCircuit → TNM α} (h : ∀ p c, (f p c).Mono) : (OM.read f).Grows :=
  fun w => h w.heap w.cir w.log

theorem OM.Grows.update (idx : ℕ) (p : List ℝ) : (OM.update idx p).Grows := by
  intro w
  unfold OM.update OM.touch
  split
  · exact List.prefix_refl _
  · split <;> exact List.prefix_refl _

theorem OM.logged {α β : Type} {x : OM α} {f : α → OM β} (hf : ∀ a, (f a).Grows) {w : World}
    {P : Tensor ℂ → Prop} (h : ∀ A ∈ ((x >>= f) w).2.log, P A) : ∀ A ∈ (x w).2.log, P A := by
  intro A hA
  rcases e : x w with ⟨e' | a, w'⟩
  · rw [OM.bind_error e] at h; rw [e] at hA; exact h A hA
  · rw [OM.bind_ok e] at h; rw [e] at hA; exact h A ((hf a w').subset hA)

theorem mono_obj (svd : SVDOracle) (o : Obj) (mps : List (Tensor ℂ)) : (o.TN_operation svd mps).Mono := by
  cases o with
  | op o => exact mono_op _ _ _
  | enc e => exact TNM.Mono.lift' _

theorem mono_oevolution (svd : SVDOracle) (h : Heap) (c : OCircuit) (mps : List (Tensor ℂ)) :
    (c.TN_evolution svd h mps).Mono := by
  unfold OCircuit.TN_evolution
  mono
  exact mono_obj _ _ _

theorem mono_oexpectation (svd : SVDOracle) (h : Heap) (c : OCircuit) (i M : Tensor ℂ) (tn : Bool) :
    (c.cir_expectation svd h i M tn).Mono := by
  unfold OCircuit.cir_expectation
  mono <;> with_reducible first | exact mono_sv2mps _ _ _ | exact mono_oevolution _ _ _ _

theorem grows_oexpec (svd : SVDOracle) (ps : PShift) : (ps.oexpec svd).Grows :=
  OM.Grows.read fun _ _ => mono_oexpectation _ _ _ _ _ _

theorem grows_oscalar (svd : SVDOracle) (ps : PShift) (idx : ℕ) (x : ℝ) : (ps.ogradScalar svd idx x).Grows :=
  (OM.Grows.update _ _).bind fun _ => (grows_oexpec svd ps).bind fun _ => (OM.Grows.update _ _).bind fun _ =>
    (grows_oexpec svd ps).bind fun _ => (OM.Grows.update _ _).bind fun _ => OM.Grows.pure _

theorem grows_ovec (svd : SVDOracle) (ps : PShift) (idx : ℕ) : ∀ (is : List ℕ) (p : List ℝ),
    (ps.ogradVec svd idx is p).Grows
  | [], _ => OM.Grows.pure _
  | _ :: is, _ => (OM.Grows.update _ _).bind fun _ => (grows_oexpec svd ps).bind fun _ =>
    (OM.Grows.update _ _).bind fun _ => (grows_oexpec svd ps).bind fun _ => (OM.Grows.update _ _).bind fun _ =>
      (grows_ovec svd ps idx is _).bind fun _ => OM.Grows.pure _

theorem grows_oget (idx : ℕ) : (PShift.oget idx).Grows := by
  refine OM.Grows.read fun h c => ?_
  split <;> exact TNM.Mono.lift' _

theorem grows_oat (svd : SVDOracle) (ps : PShift) (idx : ℕ) : (ps.ogradAt svd idx).Grows := by
  unfold PShift.ogradAt
  refine (grows_oget idx).bind fun o => (OM.Grows.lift _).bind fun n => ?_
  split
  · exact OM.Grows.pure _
  · refine (OM.Grows.read fun _ c => TNM.Mono.lift' _).bind fun p => ?_
    split
    · exact (grows_oscalar _ _ _ _).bind fun _ => OM.Grows.pure _
    · exact grows_ovec _ _ _ _ _
    · exact OM.Grows.lift _

theorem grows_oloop (svd : SVDOracle) (ps : PShift) : ∀ l, (ps.ogradLoop svd l).Grows
  | [] => OM.Grows.pure _
  | idx :: l => (grows_oat svd ps idx).bind fun _ => (grows_oloop svd ps l).bind fun _ => OM.Grows.pure _

/-! ## What a computation leaves alone -/

/-- The circuit object keeps its list, and objects outside the list keep their state. -/
def OM.Frames {α : Type} (x : OM α) : Prop :=
  ∀ w, (x w).2.cir = w.cir ∧ ∀ r, r ∉ w.cir.gate → (x w).2.heap r = w.heap r

theorem OM.Frames.pure {α : Type} (a : α) : OM.Frames (Pure.pure a : OM α) := fun _ => ⟨rfl, fun _ _ => rfl⟩

theorem OM.Frames.lift {α : Type} (a : Py α) : OM.Frames (OM.lift a) := fun _ => ⟨rfl, fun _ _ => rfl⟩

theorem OM.Frames.read {α : Type} (f : Heap → OCircuit → TNM α) : (OM.read f).Frames :=
  fun _ => ⟨rfl, fun _ _ => rfl⟩

theorem OM.Frames.bind {α β : Type} {x : OM α} {f : α → OM β} (hx : x.Frames) (hf : ∀ a, (f a).Frames) :
    (x >>= f).Frames := by
  intro w
  obtain ⟨h1, h2⟩ := hx w
  rcases e : x w with ⟨r, w'⟩
  rw [e] at h1 h2
  dsimp only at h1 h2
  cases r with
  | error e' => rw [OM.bind_error e]; exact ⟨h1, h2⟩
  | ok a =>
    rw [OM.bind_ok e]
    obtain ⟨h3, h4⟩ := hf a w'
    rw [h1] at h3 h4
    exact ⟨h3, fun r hr => (h4 r hr).trans (h2 r hr)⟩

theorem OM.Frames.update (idx : ℕ) (p : List ℝ) : (OM.update idx p).Frames := by
  intro w
  unfold OM.update OM.touch
  split
  · exact ⟨rfl, fun _ _ => rfl⟩
  · rename_i r hr
    split
    · exact ⟨rfl, fun _ _ => rfl⟩
    · refine ⟨rfl, fun r' h => Function.update_of_ne ?_ ..⟩
      rintro rfl
      exact h (List.mem_of_getElem? hr)

theorem frames_scalar (svd : SVDOracle) (ps : PShift) (idx : ℕ) (x : ℝ) : (ps.ogradScalar svd idx x).Frames :=
  (OM.Frames.update _ _).bind fun _ => (OM.Frames.read _).bind fun _ => (OM.Frames.update _ _).bind fun _ =>
    (OM.Frames.read _).bind fun _ => (OM.Frames.update _ _).bind fun _ => OM.Frames.pure _

theorem frames_vec (svd : SVDOracle) (ps : PShift) (idx : ℕ) : ∀ (is : List ℕ) (p : List ℝ),
    (ps.ogradVec svd idx is p).Frames
  | [], _ => OM.Frames.pure _
  | _ :: is, _ => (OM.Frames.update _ _).bind fun _ => (OM.Frames.read _).bind fun _ =>
    (OM.Frames.update _ _).bind fun _ => (OM.Frames.read _).bind fun _ => (OM.Frames.update _ _).bind fun _ =>
    (frames_vec svd ps idx is _).bind fun _ => OM.Frames.pure _

theorem frames_loop (svd : SVDOracle) (ps : PShift) : ∀ l, (ps.ogradLoop svd l).Frames
  | [] => OM.Frames.pure _
  | idx :: l => by
    refine OM.Frames.bind ?_ fun _ => (frames_loop svd ps l).bind fun _ => OM.Frames.pure _
    unfold PShift.ogradAt
    refine (OM.Frames.read _).bind fun o => (OM.Frames.lift _).bind fun n => ?_
    split
    · exact OM.Frames.pure _
    · refine (OM.Frames.read _).bind fun p => ?_
      split
      · exact (frames_scalar _ _ _ _).bind fun _ => OM.Frames.pure _
      · exact frames_vec _ _ _ _ _
      · exact OM.Frames.lift _

theorem frames_grad (svd : SVDOracle) (ps : PShift) : (ps.ocal_params_grad svd).Frames :=
  (OM.Frames.read _).bind fun _ => (frames_loop _ _ _).bind fun _ => (OM.Frames.read _).bind fun _ =>
    OM.Frames.pure _

theorem frames_vec2 (svd : SVDOracle) (m : List (Tensor ℂ)) (d : PShift.Saved) (idx : ℕ) :
    ∀ (is : List ℕ) (p : List ℝ), (PShift.ograd2Vec svd m d idx is p).Frames
  | [], _ => OM.Frames.pure _
  | _ :: is, _ => (OM.Frames.update _ _).bind fun _ => (OM.Frames.read _).bind fun _ =>
    (OM.Frames.update _ _).bind fun _ => (frames_vec2 svd m d idx is _).bind fun _ => OM.Frames.pure _

theorem frames_loop2 (svd : SVDOracle) (m : List (Tensor ℂ)) (d : PShift.Saved) :
    ∀ l, (PShift.ograd2Loop svd m d l).Frames
  | [] => OM.Frames.pure _
  | idx :: l => by
    refine OM.Frames.bind ?_ fun _ => (frames_loop2 svd m d l).bind fun _ => OM.Frames.pure _
    unfold PShift.ograd2At
    refine (OM.Frames.read _).bind fun o => (OM.Frames.lift _).bind fun n => ?_
    split
    · exact OM.Frames.pure _
    · refine (OM.Frames.read _).bind fun p => ?_
      split
      · refine OM.Frames.bind ?_ fun _ => OM.Frames.pure _
        exact (OM.Frames.update _ _).bind fun _ => (OM.Frames.read _).bind fun _ =>
          (OM.Frames.update _ _).bind fun _ => OM.Frames.pure _
      · exact frames_vec2 _ _ _ _ _ _
      · exact OM.Frames.lift _

theorem frames_grad2 (svd : SVDOracle) (ps : PShift) (d : PShift.Saved) : (ps.ocal_params_grad2 svd d).Frames :=
  (OM.Frames.read _).bind fun _ => (OM.Frames.read _).bind fun _ => (frames_loop2 _ _ _ _).bind fun _ =>
    (OM.Frames.read _).bind fun _ => OM.Frames.pure _

/-! ## Building a circuit from references -/

/-- `add` one reference after the other. -/
def addAll : List Ref → OM Unit
  | [] => pure ()
  | r :: rs => do OM.add r; addAll rs

theorem add_view' {w : World} {c : Circuit} (hv : View w.heap w.cir c) {r : Ref} {o : Op}
    (hr : w.heap r = .op o) :
    ∃ c1, OM.add r w = (.ok (), { w with cir := c1 }) ∧ View w.heap c1 (c.add o) ∧
      c1.gate = w.cir.gate ++ [r] := by
  have hg : (w.cir.gate ++ [r]).map w.heap = (c.gate ++ [o]).map Obj.op := by
    have := hv.gate
    unfold OCircuit.objs at this
    rw [List.map_append, List.map_append, this]
    simp [hr]
  have hl : (w.cir.gate ++ [r]).length - 1 = (c.gate ++ [o]).length - 1 := by
    simp [hv.length]
  unfold OM.add Circuit.add
  rw [hr]
  dsimp only [Obj.numParams, Obj.params]
  split_ifs with h0
  · exact ⟨_, rfl, ⟨hv.nqubits, hg, by dsimp only; rw [hl, hv.params], by dsimp only; rw [hv.num]⟩, rfl⟩
  · exact ⟨_, rfl, ⟨hv.nqubits, hg, by dsimp only; rw [hl, hv.params], hv.num⟩, rfl⟩

/-- The objects at the references are the given operations. -/
def AtRefs (h : Heap) (refs : List Ref) (ops : List Op) : Prop := refs.map h = ops.map .op

theorem addAll_view (h : Heap) : ∀ (refs : List Ref) (ops : List Op), AtRefs h refs ops →
    ∀ (c0 : OCircuit) (c : Circuit) (s : List (Tensor ℂ)), View h c0 c →
    ∃ c1, addAll refs ⟨h, c0, s⟩ = (.ok (), ⟨h, c1, s⟩) ∧ View h c1 (ops.foldl Circuit.add c) ∧
      c1.gate = c0.gate ++ refs := by
  intro refs
  induction refs with
  | nil =>
    intro ops ha c0 c s hv
    cases ops with
    | nil => exact ⟨c0, rfl, hv, by simp⟩
    | cons => cases ha
  | cons r refs ih =>
    intro ops ha c0 c s hv
    cases ops with
    | nil => cases ha
    | cons o ops =>
      unfold AtRefs at ha
      rw [List.map_cons, List.map_cons, List.cons.injEq] at ha
      obtain ⟨c1, e1, v1, g1⟩ := add_view' (w := ⟨h, c0, s⟩) hv ha.1
      obtain ⟨c2, e2, v2, g2⟩ := ih ops ha.2 c1 (c.add o) s v1
      refine ⟨c2, ?_, v2, by rw [g2, g1]; simp⟩
      show (OM.add r >>= fun _ => addAll refs) _ = _
      rw [OM.bind_ok e1]
      exact e2

/-! ## Objects and items -/

/-- The objects at the references are built from the items. -/
def Loaded (h : Heap) (refs : List Ref) (I : Ref → Item N) : Prop :=
  ∀ r ∈ refs, ∃ o, h r = .op o ∧ Built (I r) o

/-- The items after the object `r` got other parameters. -/
noncomputable def withI (I : Ref → Item N) (r : Ref) (p : List ℝ) : Ref → Item N :=
  Function.update I r ((I r).withParams p)

theorem withI_self (I : Ref → Item N) (r : Ref) : withI I r (I r).params = I := by
  unfold withI
  rw [withParams_self, Function.update_eq_self]

theorem withI_at (I : Ref → Item N) (r : Ref) (p : List ℝ) : withI I r p r = (I r).withParams p :=
  Function.update_self ..

theorem withI_ne (I : Ref → Item N) {r r' : Ref} (p : List ℝ) (h : r' ≠ r) : withI I r p r' = I r' :=
  Function.update_of_ne h ..

theorem Loaded.ops {h : Heap} {refs : List Ref} {I : Ref → Item N} (hl : Loaded h refs I) :
    ∃ ops, AtRefs h refs ops ∧ List.Forall₂ Built (refs.map I) ops := by
  induction refs with
  | nil => exact ⟨[], rfl, .nil⟩
  | cons r refs ih =>
    obtain ⟨o, h1, h2⟩ := hl r (by simp)
    obtain ⟨ops, h3, h4⟩ := ih fun r' hr => hl r' (by simp [hr])
    refine ⟨o :: ops, ?_, .cons h2 h4⟩
    unfold AtRefs at h3 ⊢
    rw [List.map_cons, List.map_cons, h1, h3]

theorem Loaded.of_ops {h : Heap} {refs : List Ref} {I : Ref → Item N} {ops : List Op} (ha : AtRefs h refs ops)
    (hb : List.Forall₂ Built (refs.map I) ops) : Loaded h refs I := by
  induction refs generalizing ops with
  | nil => intro r hr; cases hr
  | cons a refs ih =>
    cases hb with
    | @cons _ o _ ops h1 h2 =>
      unfold AtRefs at ha
      rw [List.map_cons, List.map_cons, List.cons.injEq] at ha
      intro r hr
      rcases List.mem_cons.1 hr with rfl | hr
      · exact ⟨o, ha.1, h1⟩
      · exact ih ha.2 h2 r hr

theorem Loaded.set {h : Heap} {refs : List Ref} {I : Ref → Item N} {r : Ref} {p0 p : List ℝ}
    (hl : Loaded h refs (withI I r p0)) {o : Op} (ho : Built ((I r).withParams p) o) :
    Loaded (Function.update h r (.op o)) refs (withI I r p) := by
  intro r' hr'
  by_cases hr : r' = r
  · subst hr
    exact ⟨o, Function.update_self .., by rw [withI_at]; exact ho⟩
  · obtain ⟨o', h1, h2⟩ := hl r' hr'
    rw [withI_ne _ _ hr] at h2
    exact ⟨o', by rw [Function.update_of_ne hr]; exact h1, by rw [withI_ne _ _ hr]; exact h2⟩

theorem Ready.withI {svd : SVDOracle} {v : QState N} {q : Prop} {refs : List Ref} {I : Ref → Item N}
    (h : Ready svd v q (refs.map I)) (r : Ref) {p : List ℝ} (hp : p.length = (I r).params.length) :
    Ready svd v q (refs.map (withI I r p)) := by
  obtain ⟨hw, hr⟩ := h
  have key : ∀ {P : Item N → Prop}, (P (I r) → P ((I r).withParams p)) → ∀ r', P (I r') → P (QTN.withI I r p r') := by
    intro P hP r' h
    by_cases hr : r' = r
    · subst hr; rw [withI_at]; exact hP h
    · rw [withI_ne _ _ hr]; exact h
  refine ⟨fun x hx => ?_, ?_⟩
  · obtain ⟨r', hr', rfl⟩ := List.mem_map.1 hx
    exact key (P := Item.WF) (fun h => wf_withParams h hp) r' (hw _ (List.mem_map_of_mem hr'))
  · rcases hr with ⟨x, hx, hu⟩ | ⟨h1, h2, h3, h4, h5⟩
    · obtain ⟨r', hr', rfl⟩ := List.mem_map.1 hx
      exact .inl ⟨_, List.mem_map_of_mem hr', key (P := Unflagged) (fun h => unflagged_withParams h p) r' hu⟩
    · refine .inr ⟨h1, h2, h3, h4, fun x hx => ?_⟩
      obtain ⟨r', hr', rfl⟩ := List.mem_map.1 hx
      exact key (P := HasTN) (fun h => hasTN_withParams h hp) r' (h5 _ (List.mem_map_of_mem hr'))

/-! ## `cal_params_grad` -/

/-- The value computed for parameter `i` of the object `r`: every position that refers to the object is shifted. -/
noncomputable def sharedShift (O : QOp N) (v : QState N) (refs : List Ref) (I : Ref → Item N) (r : Ref) (i : ℕ) : ℝ :=
  0.5 * (energy O v (refs.map (withI I r ((I r).params.set i ((I r).params.getD i 0 + 0.5 * Real.pi)))) -
    energy O v (refs.map (withI I r ((I r).params.set i ((I r).params.getD i 0 - 0.5 * Real.pi)))))

section
variable {svd : SVDOracle} {v : QState N} {q : Prop} {ps : PShift} {O : QOp N} {c : OCircuit} {I : Ref → Item N}

theorem oexpec_ok (hr : Ready svd v q (c.gate.map I)) (hn : c.nqubits = N) {h : Heap} (hb : Loaded h c.gate I)
    (hi : IsRow ps.init_state v) (hM : Represents ps.M O) {s : List (Tensor ℂ)}
    (hl : q → ∀ A ∈ (ps.oexpec svd ⟨h, c, s⟩).2.log, Lossless A) :
    ∃ s', ps.oexpec svd ⟨h, c, s⟩ = (.ok (energy O v (c.gate.map I)), ⟨h, c, s'⟩) := by
  obtain ⟨ops, h1, h2⟩ := hb.ops
  have hv : View h c ⟨c.nqubits, ops, c.cir_params, c.cir_num_params⟩ := ⟨rfl, h1, rfl, rfl⟩
  have e : (ps.oexpec svd ⟨h, c, s⟩).1 = (ps.expec svd (⟨c.nqubits, ops, c.cir_params, c.cir_num_params⟩, s)).1 ∧
      (ps.oexpec svd ⟨h, c, s⟩).2.log =
        (ps.expec svd (⟨c.nqubits, ops, c.cir_params, c.cir_num_params⟩, s)).2.2 := by
    unfold PShift.oexpec PShift.expec OM.read CM.read
    dsimp only
    rw [hv.cir_expectation]
    exact ⟨rfl, rfl⟩
  obtain ⟨s', e2⟩ := expec_ok (c := ⟨c.nqubits, ops, c.cir_params, c.cir_num_params⟩) hr hn h2 hi hM (s := s)
    (fun hq => by rw [← e.2]; exact hl hq)
  rw [e2] at e
  refine ⟨s', Prod.ext e.1 ?_⟩
  have : (ps.oexpec svd ⟨h, c, s⟩).2 = ⟨h, c, (ps.oexpec svd ⟨h, c, s⟩).2.log⟩ := rfl
  rw [this, e.2]

theorem oupdate_ok {h : Heap} {idx : ℕ} {r : Ref} (hidx : c.gate[idx]? = some r) (hw : (I r).WF)
    (hne : (I r).params ≠ []) {p0 p : List ℝ} (hp0 : p0.length = (I r).params.length)
    (hp : p.length = (I r).params.length) (hb : Loaded h c.gate (withI I r p0)) (s : List (Tensor ℂ)) :
    ∃ h', OM.update idx p ⟨h, c, s⟩ = (.ok (), ⟨h', c, s⟩) ∧ Loaded h' c.gate (withI I r p) ∧
      ∀ r', r' ≠ r → h' r' = h r' := by
  obtain ⟨o, ho, hbo⟩ := hb r (List.mem_of_getElem? hidx)
  rw [withI_at] at hbo
  obtain ⟨-, -, hup⟩ := built_facts (wf_withParams hw hp0) hbo
  rw [params_withParams _ p0 hp0] at hup
  obtain ⟨o', e1, hb'⟩ := hup p (by rw [hp, hp0]) (by
    intro h; rw [h] at hp0; exact hne (List.length_eq_zero_iff.1 hp0.symm))
  rw [withParams_twice _ p0 p hp0 hp] at hb'
  refine ⟨Function.update h r (.op o'), ?_, hb.set hb', fun r' hr => Function.update_of_ne hr ..⟩
  unfold OM.update OM.touch
  dsimp only
  rw [hidx]
  dsimp only
  rw [ho]
  unfold Obj.params_update
  dsimp only
  rw [e1]
  rfl

theorem oeval_pair (hn : c.nqubits = N) (hi : IsRow ps.init_state v) (hM : Represents ps.M O)
    (hr : Ready svd v q (c.gate.map I)) {h : Heap} {idx : ℕ} {r : Ref} (hidx : c.gate[idx]? = some r)
    {p0 : List ℝ} (hp0 : p0.length = (I r).params.length) (hb : Loaded h c.gate (withI I r p0))
    (x : List ℝ) (hx : x.length = (I r).params.length) (hne : (I r).params ≠ [])
    {β : Type} (f : ℝ → OM β) (hf : ∀ a, (f a).Grows) (s : List (Tensor ℂ))
    (hl : q → ∀ A ∈ ((do OM.update idx x; let e ← ps.oexpec svd; f e) ⟨h, c, s⟩ : Py β × World).2.log, Lossless A) :
    ∃ h' s', Loaded h' c.gate (withI I r x) ∧ (∀ r', r' ≠ r → h' r' = h r') ∧
      (do OM.update idx x; let e ← ps.oexpec svd; f e) ⟨h, c, s⟩ =
        f (energy O v (c.gate.map (withI I r x))) ⟨h', c, s'⟩ := by
  have hw := hr.1 (I r) (List.mem_map_of_mem (List.mem_of_getElem? hidx))
  obtain ⟨h', e1, hb', hh⟩ := oupdate_ok hidx hw hne hp0 hx hb s
  rw [OM.bind_ok e1] at hl ⊢
  obtain ⟨s', e2⟩ := oexpec_ok (hr.withI r hx) hn hb' hi hM (s := s) (fun hq => OM.logged hf (hl hq))
  exact ⟨h', s', hb', hh, OM.bind_ok e2⟩

theorem ogradVec_run (hn : c.nqubits = N) (hi : IsRow ps.init_state v) (hM : Represents ps.M O)
    (hr : Ready svd v q (c.gate.map I)) {idx : ℕ} {r : Ref} (hidx : c.gate[idx]? = some r)
    (hne : (I r).params ≠ []) :
    ∀ (is : List ℕ) (_ : ∀ i ∈ is, i < (I r).params.length) (h : Heap) (_ : Loaded h c.gate I)
      (s : List (Tensor ℂ)),
    (q → ∀ A ∈ (ps.ogradVec svd idx is (I r).params ⟨h, c, s⟩).2.log, Lossless A) →
    ∃ h' s', Loaded h' c.gate I ∧ (∀ r', r' ≠ r → h' r' = h r') ∧
      ps.ogradVec svd idx is (I r).params ⟨h, c, s⟩ =
        (.ok (is.map (sharedShift O v c.gate I r)), ⟨h', c, s'⟩) := by
  intro is
  have hw := hr.1 (I r) (List.mem_map_of_mem (List.mem_of_getElem? hidx))
  induction is with
  | nil => intro _ h hb s _; exact ⟨h, s, hb, fun _ _ => rfl, rfl⟩
  | cons i is ih =>
    intro his h hb s hl
    have hil := his i (by simp)
    set p := (I r).params with hp
    have hb1 : PShift.bump p i (0.5 * Real.pi) = p.set i (p.getD i 0 + 0.5 * Real.pi) := bump_eq _ _ _ hil
    have hb2 : PShift.bump (PShift.bump p i (0.5 * Real.pi)) i (-(1.0 * Real.pi)) =
        p.set i (p.getD i 0 - 0.5 * Real.pi) := by
      rw [hb1, bump_eq _ _ _ (by simpa using hil), List.set_set]
      congr 1
      rw [List.getD_eq_getElem?_getD, List.getElem?_set_self (by simpa using hil), Option.getD_some,
        show (0.5 : ℝ) = 1 / 2 by norm_num, show (1.0 : ℝ) = 1 by norm_num]
      ring
    have hb3 : PShift.bump (PShift.bump (PShift.bump p i (0.5 * Real.pi)) i (-(1.0 * Real.pi))) i
        (0.5 * Real.pi) = p := by
      rw [hb2, bump_eq _ _ _ (by simpa using hil), List.set_set]
      rw [List.getD_eq_getElem?_getD (l := p.set _ _), List.getElem?_set_self (by simpa using hil), Option.getD_some]
      rw [sub_add_cancel, List.getD_eq_getElem?_getD, List.getElem?_eq_getElem hil, Option.getD_some,
        List.set_getElem_self]
    unfold PShift.ogradVec at hl ⊢
    dsimp only at hl ⊢
    rw [hb3, hb2, hb1] at hl ⊢
    obtain ⟨h1, s1, l1, n1, e1⟩ := oeval_pair (O := O) hn hi hM hr hidx (p0 := p) rfl
      (by rw [hp, withI_self]; exact hb)
      (p.set i (p.getD i 0 + 0.5 * Real.pi)) (by simp [hp]) hne _ (fun e => (OM.Grows.update _ _).bind fun _ =>
        (grows_oexpec svd ps).bind fun _ => (OM.Grows.update _ _).bind fun _ =>
          (grows_ovec svd ps _ is _).bind fun _ => OM.Grows.pure _) s hl
    rw [e1] at hl ⊢
    obtain ⟨h2, s2, l2, n2, e2⟩ := oeval_pair (O := O) hn hi hM hr hidx (by simp [hp]) l1
      (p.set i (p.getD i 0 - 0.5 * Real.pi)) (by simp [hp]) hne _ (fun e => (OM.Grows.update _ _).bind fun _ =>
          (grows_ovec svd ps _ is _).bind fun _ => OM.Grows.pure _) s1 hl
    rw [e2] at hl ⊢
    obtain ⟨h3, e3, l3, n3⟩ := oupdate_ok hidx hw hne (p := p) (by simp [hp]) rfl l2 s2
    rw [OM.bind_ok e3] at hl ⊢
    rw [hp, withI_self] at l3
    obtain ⟨h4, s4, l4, n4, e4⟩ := ih (fun i h => his i (by simp [h])) h3 l3 s2
      (fun hq => OM.logged (fun _ => OM.Grows.pure _) (hl hq))
    rw [OM.bind_ok e4]
    exact ⟨h4, s4, l4, fun r' h => by rw [n4 r' h, n3 r' h, n2 r' h, n1 r' h], rfl⟩

theorem ogradScalar_run (hn : c.nqubits = N) (hi : IsRow ps.init_state v) (hM : Represents ps.M O)
    (hr : Ready svd v q (c.gate.map I)) {idx : ℕ} {r : Ref} (hidx : c.gate[idx]? = some r)
    {x : ℝ} (hp : (I r).params = [x]) {h : Heap} (hb : Loaded h c.gate I) (s : List (Tensor ℂ))
    (hl : q → ∀ A ∈ (ps.ogradScalar svd idx x ⟨h, c, s⟩).2.log, Lossless A) :
    ∃ h' s', Loaded h' c.gate I ∧ (∀ r', r' ≠ r → h' r' = h r') ∧
      ps.ogradScalar svd idx x ⟨h, c, s⟩ = (.ok (sharedShift O v c.gate I r 0), ⟨h', c, s'⟩) := by
  have hw := hr.1 (I r) (List.mem_map_of_mem (List.mem_of_getElem? hidx))
  have hne : (I r).params ≠ [] := by rw [hp]; simp
  unfold PShift.ogradScalar at hl ⊢
  obtain ⟨h1, s1, l1, n1, e1⟩ := oeval_pair (O := O) hn hi hM hr hidx (p0 := (I r).params) rfl
    (by rw [withI_self]; exact hb)
    [x + 0.5 * Real.pi] (by simp [hp]) hne _ (fun e => (OM.Grows.update _ _).bind fun _ =>
      (grows_oexpec svd ps).bind fun _ => (OM.Grows.update _ _).bind fun _ => OM.Grows.pure _) s hl
  rw [e1] at hl ⊢
  obtain ⟨h2, s2, l2, n2, e2⟩ := oeval_pair (O := O) hn hi hM hr hidx (by simp [hp]) l1
    [x - 0.5 * Real.pi] (by simp [hp]) hne _ (fun e => (OM.Grows.update _ _).bind fun _ => OM.Grows.pure _) s1 hl
  rw [e2] at hl ⊢
  obtain ⟨h3, e3, l3, n3⟩ := oupdate_ok hidx hw hne (p := [x]) (by simp [hp]) (by simp [hp]) l2 s2
  rw [OM.bind_ok e3]
  rw [← hp, withI_self] at l3
  refine ⟨h3, s2, l3, fun r' h => by rw [n3 r' h, n2 r' h, n1 r' h], ?_⟩
  unfold sharedShift
  rw [hp]
  rfl

/-- The entry `cir_params[k]` describes the object at position `k`. -/
def ORecorded (c : OCircuit) (I : Ref → Item N) : Prop :=
  ∀ k r, c.gate[k]? = some r → (I r).params ≠ [] →
    ∃ o, Built (I r) o ∧ c.cir_params k = some (some o.params)

theorem oget_ok {h : Heap} {idx : ℕ} {r : Ref} (hidx : c.gate[idx]? = some r) (s : List (Tensor ℂ)) :
    PShift.oget idx ⟨h, c, s⟩ = (.ok (h r), ⟨h, c, s⟩) := by
  unfold PShift.oget OM.read
  dsimp only
  rw [hidx]
  rfl

theorem ogradAt_run (hn : c.nqubits = N) (hi : IsRow ps.init_state v) (hM : Represents ps.M O)
    (hr : Ready svd v q (c.gate.map I)) {idx : ℕ} {r : Ref} (hidx : c.gate[idx]? = some r)
    (hrec : ORecorded c I) {h : Heap} (hb : Loaded h c.gate I) (s : List (Tensor ℂ))
    (hl : q → ∀ A ∈ (ps.ogradAt svd idx ⟨h, c, s⟩).2.log, Lossless A) :
    ∃ h' s', Loaded h' c.gate I ∧ (∀ r', r' ≠ r → h' r' = h r') ∧
      ps.ogradAt svd idx ⟨h, c, s⟩ =
        (.ok ((List.range (I r).params.length).map (sharedShift O v c.gate I r)), ⟨h', c, s'⟩) := by
  have hw := hr.1 (I r) (List.mem_map_of_mem (List.mem_of_getElem? hidx))
  obtain ⟨o, ho, hbo⟩ := hb r (List.mem_of_getElem? hidx)
  obtain ⟨hnum, -, -⟩ := built_facts hw hbo
  have eg := oget_ok (h := h) hidx s
  rw [ho] at eg
  have en : (OM.lift (Obj.op o).numParams : OM ℕ) ⟨h, c, s⟩ = (.ok (I r).params.length, ⟨h, c, s⟩) := by
    rw [← hnum]
    rfl
  unfold PShift.ogradAt at hl ⊢
  rw [OM.bind_ok eg, OM.bind_ok en] at hl ⊢
  by_cases hp : (I r).params = []
  · rw [hp] at hl ⊢
    exact ⟨h, s, hb, fun _ _ => rfl, rfl⟩
  · have h0 : (I r).params.length ≠ 0 := fun h => hp (List.length_eq_zero_iff.1 h)
    rw [if_neg h0] at hl ⊢
    obtain ⟨or, hor, hcp⟩ := hrec idx r hidx hp
    obtain ⟨-, hpv, -⟩ := built_facts hw hor
    rcases hpv hp with hv | ⟨x, hx, hv⟩
    · have e1 : (OM.read (fun _ c => TNM.lift (PShift.oreadParams c idx)) : OM PV) ⟨h, c, s⟩ =
          (.ok (.vec (I r).params), ⟨h, c, s⟩) := by
        unfold OM.read TNM.lift PShift.oreadParams
        dsimp only
        rw [hcp, hv]
      rw [OM.bind_ok e1] at hl ⊢
      exact ogradVec_run hn hi hM hr hidx hp _ (fun i h => List.mem_range.1 h) h hb s hl
    · have e1 : (OM.read (fun _ c => TNM.lift (PShift.oreadParams c idx)) : OM PV) ⟨h, c, s⟩ =
          (.ok (.scalar x), ⟨h, c, s⟩) := by
        unfold OM.read TNM.lift PShift.oreadParams
        dsimp only
        rw [hcp, hv]
      rw [OM.bind_ok e1] at hl ⊢
      obtain ⟨h', s', l', n', e2⟩ := ogradScalar_run hn hi hM hr hidx hx hb s
        (fun hq => OM.logged (fun _ => OM.Grows.pure _) (hl hq))
      refine ⟨h', s', l', n', ?_⟩
      rw [hx]
      exact OM.bind_ok e2

theorem ogradLoop_run (hn : c.nqubits = N) (hi : IsRow ps.init_state v) (hM : Represents ps.M O)
    (hr : Ready svd v q (c.gate.map I)) (hrec : ORecorded c I) :
    ∀ (rs : List Ref) (k : ℕ), c.gate.drop k = rs → ∀ (h : Heap), Loaded h c.gate I → ∀ (s : List (Tensor ℂ)),
    (q → ∀ A ∈ (ps.ogradLoop svd (List.range' k rs.length) ⟨h, c, s⟩).2.log, Lossless A) →
    ∃ h' s', Loaded h' c.gate I ∧ (∀ r', r' ∉ c.gate → h' r' = h r') ∧
      ps.ogradLoop svd (List.range' k rs.length) ⟨h, c, s⟩ =
        (.ok (rs.flatMap fun r => (List.range (I r).params.length).map (sharedShift O v c.gate I r)), ⟨h', c, s'⟩) := by
  intro rs
  induction rs with
  | nil => intro k _ h hb s _; exact ⟨h, s, hb, fun _ _ => rfl, rfl⟩
  | cons r rs ih =>
    intro k hk h hb s hl
    have hidx : c.gate[k]? = some r := by
      have := congrArg (fun l => l[0]?) hk
      simpa using this
    have hk' : c.gate.drop (k + 1) = rs := by
      rw [← List.tail_drop, hk]
      rfl
    rw [List.length_cons, List.range'_succ] at hl ⊢
    unfold PShift.ogradLoop at hl ⊢
    obtain ⟨h1, s1, l1, n1, e1⟩ := ogradAt_run hn hi hM hr hidx hrec hb s (fun hq => OM.logged (fun a =>
      (grows_oloop _ _ _).bind fun _ => OM.Grows.pure _) (hl hq))
    rw [OM.bind_ok e1] at hl ⊢
    obtain ⟨h2, s2, l2, n2, e2⟩ := ih (k + 1) hk' h1 l1 s1 (fun hq => OM.logged (fun _ => OM.Grows.pure _) (hl hq))
    rw [OM.bind_ok e2]
    refine ⟨h2, s2, l2, fun r' hr' => ?_, rfl⟩
    rw [n2 r' hr', n1 r' (by rintro rfl; exact hr' (List.mem_of_getElem? hidx))]

/-- The whole call. -/
theorem ocal_params_grad_run (hn : c.nqubits = N) (hi : IsRow ps.init_state v) (hM : Represents ps.M O)
    (hr : Ready svd v q (c.gate.map I)) (hrec : ORecorded c I)
    (hnum : (allParams (c.gate.map I)).length = c.cir_num_params) {h : Heap} (hb : Loaded h c.gate I)
    (s : List (Tensor ℂ)) (hl : q → ∀ A ∈ (ps.ocal_params_grad svd ⟨h, c, s⟩).2.log, Lossless A) :
    ∃ s', ps.ocal_params_grad svd ⟨h, c, s⟩ =
      (.ok (c.gate.flatMap fun r => (List.range (I r).params.length).map (sharedShift O v c.gate I r)), ⟨h, c, s'⟩) := by
  have e0 : (OM.read (fun _ c => TNM.lift (.ok c.gate.length)) : OM ℕ) ⟨h, c, s⟩ = (.ok c.gate.length, ⟨h, c, s⟩) := rfl
  unfold PShift.ocal_params_grad at hl ⊢
  rw [OM.bind_ok e0, List.range_eq_range'] at hl ⊢
  have g2 : ∀ grads : List ℝ, OM.Grows (do
      OM.read (fun _ c => TNM.lift (pyAssert (grads.length = c.cir_num_params)))
      pure grads) := fun _ => (OM.Grows.read fun _ _ => TNM.Mono.lift' _).bind fun _ => OM.Grows.pure _
  obtain ⟨h', s', l', n', e1⟩ := ogradLoop_run hn hi hM hr hrec c.gate 0 (by simp) h hb s
    (fun hq => OM.logged g2 (hl hq))
  have hh : h' = h := by
    funext r
    by_cases hrm : r ∈ c.gate
    · obtain ⟨o1, a1, b1⟩ := l' r hrm
      obtain ⟨o2, a2, b2⟩ := hb r hrm
      rw [a1, a2]
      unfold Built at b1 b2
      rw [b1] at b2
      cases b2
      rfl
    · exact n' r hrm
  subst hh
  rw [OM.bind_ok e1]
  have hm : (c.gate.flatMap fun r => (List.range (I r).params.length).map (sharedShift O v c.gate I r)).length =
      c.cir_num_params := by
    rw [← hnum]
    unfold allParams
    simp [List.length_flatMap, Function.comp_def]
  have e3 : (OM.read (fun _ c' => TNM.lift (pyAssert ((c.gate.flatMap fun r =>
      (List.range (I r).params.length).map (sharedShift O v c.gate I r)).length = c'.cir_num_params))) : OM Unit)
      ⟨h', c, s'⟩ = (.ok (), ⟨h', c, s'⟩) := by
    unfold OM.read TNM.lift
    dsimp only
    rw [hm]
    simp [pyAssert]
  rw [OM.bind_ok e3]
  exact ⟨s', rfl⟩

end

/-! ## `cal_params_grad2` -/

/-- The computation on the objects `h` of `c` and the one on the circuit `c'` of values give the same result and
decompose the same matrices; if they return, neither has changed the circuit. -/
def Agree {α : Type} (h : Heap) (c : OCircuit) (c' : Circuit) (x : OM α) (y : CM α) : Prop :=
  ∀ s, (x ⟨h, c, s⟩).1 = (y (c', s)).1 ∧ (x ⟨h, c, s⟩).2.log = (y (c', s)).2.2 ∧
    ∀ a, (x ⟨h, c, s⟩).1 = .ok a → (x ⟨h, c, s⟩).2.heap = h ∧ (x ⟨h, c, s⟩).2.cir = c ∧ (y (c', s)).2.1 = c'

section
variable {h : Heap} {c : OCircuit} {c' : Circuit} {I : Ref → Item N} {svd : SVDOracle}
  {m : List (Tensor ℂ)} {d : PShift.Saved}

theorem Agree.pure {α : Type} (a : α) : Agree h c c' (Pure.pure a) (Pure.pure a) :=
  fun _ => ⟨rfl, rfl, fun _ _ => ⟨rfl, rfl, rfl⟩⟩

theorem Agree.error {α : Type} (e : PyErr) : Agree (α := α) h c c' (OM.lift (.error e)) (CM.lift (.error e)) :=
  fun _ => ⟨rfl, rfl, fun _ _ => ⟨rfl, rfl, rfl⟩⟩

theorem Agree.read {α : Type} {f : Heap → OCircuit → TNM α} {g : Circuit → TNM α} (e : f h c = g c') :
    Agree h c c' (OM.read f) (CM.read g) := by
  intro s
  unfold OM.read CM.read
  dsimp only
  rw [e]
  exact ⟨rfl, rfl, fun _ _ => ⟨rfl, rfl, rfl⟩⟩

theorem Agree.bind {α β : Type} {x : OM α} {y : CM α} {f : α → OM β} {g : α → CM β} (hx : Agree h c c' x y)
    (hf : ∀ a, Agree h c c' (f a) (g a)) : Agree h c c' (x >>= f) (y >>= g) := by
  intro s
  obtain ⟨h1, h2, h3⟩ := hx s
  rcases ex : x ⟨h, c, s⟩ with ⟨r, hw, cw, sw⟩
  rcases ey : y (c', s) with ⟨r', cy, sy⟩
  rw [ex, ey] at h1 h2 h3
  dsimp only at h1 h2 h3
  subst h1 h2
  cases r with
  | error e => rw [OM.bind_error ex, CM.bind_error ey]; exact ⟨rfl, rfl, fun a ha => by cases ha⟩
  | ok a =>
    obtain ⟨rfl, rfl, rfl⟩ := h3 a rfl
    rw [OM.bind_ok ex, CM.bind_ok ey]
    exact hf a sw

theorem overlap_same {h1 : Heap} {c1 : Circuit} {idx : ℕ} {r : Ref} {o1 : Op} (hidx : c.gate[idx]? = some r)
    (hr : h1 r = .op o1) (hc : c1.gate[idx]? = some o1) (hl : c.gate.length = c1.gate.length) :
    Agree h1 c c1 (PShift.ooverlap svd m d idx) (PShift.overlap svd m d idx) := by
  refine Agree.read ?_
  have hlt : idx < c.gate.length := by
    by_contra hge
    rw [List.getElem?_eq_none (by omega)] at hidx
    cases hidx
  have e1 : pyGet (c.objs h1) (idx : ℤ) = .ok (.op o1) := by
    rw [pyGet_nat (by simpa [OCircuit.objs] using hlt)]
    have : (c.objs h1)[idx]? = some (.op o1) := by
      unfold OCircuit.objs
      rw [List.getElem?_map, hidx, Option.map_some, hr]
    rw [List.getElem?_eq_getElem (by simpa [OCircuit.objs] using hlt)] at this
    rw [Option.some.inj this]
  have e2 : pyGet c1.gate (idx : ℤ) = .ok o1 := by
    rw [pyGet_nat (by omega)]
    rw [List.getElem?_eq_getElem (by omega)] at hc
    cases hc
    rfl
  rw [e1, e2, hl]
  rfl

/-- Shift, evaluate, restore. -/
theorem Agree.step (v : View h c c') {idx : ℕ} {r : Ref} (hidx : c.gate[idx]? = some r) (hb : Loaded h c.gate I)
    (hw : (I r).WF) (hne : (I r).params ≠ []) {x : List ℝ} (hx : x.length = (I r).params.length)
    {β : Type} {f : ℝ → OM β} {g : ℝ → CM β} (hf : ∀ a, Agree h c c' (f a) (g a)) :
    Agree h c c' (do OM.update idx x; let e ← PShift.ooverlap svd m d idx; OM.update idx (I r).params; f e)
      (do CM.update idx x; let e ← PShift.overlap svd m d idx; CM.update idx (I r).params; g e) := by
  obtain ⟨o, ho, hbo⟩ := hb r (List.mem_of_getElem? hidx)
  have hlt : idx < c'.gate.length := by
    rw [← v.length]
    by_contra hge
    rw [List.getElem?_eq_none (by omega)] at hidx
    cases hidx
  have hc : c'.gate[idx]? = some o := by
    have := congrArg (fun l => l[idx]?) v.gate
    unfold OCircuit.objs at this
    rw [List.getElem?_map, hidx, Option.map_some, ho, List.getElem?_map] at this
    cases e : c'.gate[idx]? with
    | none => rw [e] at this; cases this
    | some o' => rw [e] at this; cases this; rfl
  obtain ⟨-, -, hup⟩ := built_facts hw hbo
  obtain ⟨o1, e1, hb1⟩ := hup x hx hne
  obtain ⟨-, -, hup1⟩ := built_facts (wf_withParams hw hx) hb1
  rw [params_withParams _ x hx] at hup1
  obtain ⟨o2, e2, hb2⟩ := hup1 (I r).params hx.symm (by
    intro h; rw [h] at hx; exact hne (List.length_eq_zero_iff.1 hx.symm))
  rw [withParams_twice _ x _ hx rfl, withParams_self] at hb2
  have : o2 = o := by
    unfold Built at hb2 hbo
    rw [hb2] at hbo
    cases hbo
    rfl
  subst this
  have u1 : ∀ s, OM.update idx x ⟨h, c, s⟩ = (.ok (), ⟨Function.update h r (.op o1), c, s⟩) := by
    intro s
    unfold OM.update OM.touch
    dsimp only
    rw [hidx]
    dsimp only
    rw [ho]
    unfold Obj.params_update
    dsimp only
    rw [e1]
    rfl
  have u2 : ∀ s, CM.update idx x (c', s) = (.ok (), ({ c' with gate := c'.gate.set idx o1 }, s)) := by
    intro s
    unfold CM.update
    dsimp only
    rw [hc]
    dsimp only
    rw [e1]
  have u3 : ∀ s, OM.update idx (I r).params ⟨Function.update h r (.op o1), c, s⟩ = (.ok (), ⟨h, c, s⟩) := by
    intro s
    unfold OM.update OM.touch
    dsimp only
    rw [hidx]
    dsimp only
    rw [Function.update_self]
    unfold Obj.params_update
    dsimp only
    rw [e2]
    show (Except.ok (), World.mk (Function.update (Function.update h r (.op o1)) r (.op o2)) c s) = _
    rw [Function.update_idem, ← ho, Function.update_eq_self]
  have u4 : ∀ s, CM.update idx (I r).params ({ c' with gate := c'.gate.set idx o1 }, s) = (.ok (), (c', s)) := by
    intro s
    unfold CM.update
    dsimp only
    rw [List.getElem?_set_self hlt]
    dsimp only
    rw [e2]
    dsimp only
    rw [List.set_set]
    have : c'.gate.set idx o2 = c'.gate := by
      rw [List.getElem?_eq_getElem hlt] at hc
      cases hc
      exact List.set_getElem_self hlt
    rw [this]
  have ho := overlap_same (h1 := Function.update h r (.op o1)) (c1 := { c' with gate := c'.gate.set idx o1 })
    (svd := svd) (m := m) (d := d) hidx (Function.update_self ..) (List.getElem?_set_self hlt)
    (by rw [v.length]; simp)
  intro s
  rw [OM.bind_ok (u1 s), CM.bind_ok (u2 s)]
  obtain ⟨h1, h2, h3⟩ := ho s
  rcases ex : PShift.ooverlap svd m d idx ⟨Function.update h r (.op o1), c, s⟩ with ⟨rx, hx, cx, sx⟩
  rcases ey : PShift.overlap svd m d idx ({ c' with gate := c'.gate.set idx o1 }, s) with ⟨ry, cy, sy⟩
  rw [ex, ey] at h1 h2 h3
  dsimp only at h1 h2 h3
  subst h1 h2
  cases rx with
  | error e => rw [OM.bind_error ex, CM.bind_error ey]; exact ⟨rfl, rfl, fun a ha => by cases ha⟩
  | ok a =>
    obtain ⟨rfl, rfl, rfl⟩ := h3 a rfl
    rw [OM.bind_ok ex, CM.bind_ok ey, OM.bind_ok (u3 sx), CM.bind_ok (u4 sx)]
    exact hf a sx

theorem bump_pi (p : List ℝ) (i : ℕ) : PShift.bump (PShift.bump p i (-Real.pi)) i Real.pi = p := by
  unfold PShift.bump
  apply List.ext_getElem (by simp)
  intro k h1 h2
  rw [List.getElem_modify, List.getElem_modify]
  split_ifs with hk
  · ring
  · rfl

theorem agree_grad2Vec (v : View h c c') {idx : ℕ} {r : Ref} (hidx : c.gate[idx]? = some r) (hb : Loaded h c.gate I)
    (hw : (I r).WF) (hne : (I r).params ≠ []) : ∀ is : List ℕ,
    Agree h c c' (PShift.ograd2Vec svd m d idx is (I r).params) (PShift.grad2Vec svd m d idx is (I r).params)
  | [] => Agree.pure _
  | i :: is => by
    unfold PShift.ograd2Vec PShift.grad2Vec
    dsimp only
    rw [bump_pi]
    exact Agree.step v hidx hb hw hne (by simp [PShift.bump]) fun a =>
      (agree_grad2Vec v hidx hb hw hne is).bind fun _ => Agree.pure _

theorem agree_grad2At (v : View h c c') {idx : ℕ} {r : Ref} (hidx : c.gate[idx]? = some r) (hb : Loaded h c.gate I)
    (hrec : ORecorded c I) (hw : (I r).WF) :
    Agree h c c' (PShift.ograd2At svd m d idx) (PShift.grad2At svd m d idx) := by
  obtain ⟨o, ho, hbo⟩ := hb r (List.mem_of_getElem? hidx)
  have hc : c'.gate[idx]? = some o := by
    have := congrArg (fun l => l[idx]?) v.gate
    unfold OCircuit.objs at this
    rw [List.getElem?_map, hidx, Option.map_some, ho, List.getElem?_map] at this
    cases e : c'.gate[idx]? with
    | none => rw [e] at this; cases this
    | some o' => rw [e] at this; cases this; rfl
  obtain ⟨hnum, -, -⟩ := built_facts hw hbo
  intro s
  have eg := oget_ok (h := h) hidx s
  rw [ho] at eg
  have en : (OM.lift (Obj.op o).numParams : OM ℕ) ⟨h, c, s⟩ = (.ok o.numParams, ⟨h, c, s⟩) := rfl
  have hlt : idx < c'.gate.length := by
    by_contra hge
    rw [List.getElem?_eq_none (by omega)] at hc
    cases hc
  by_cases h0 : o.numParams = 0
  · rw [grad2At_zero svd m d hc h0]
    unfold PShift.ograd2At
    rw [OM.bind_ok eg, OM.bind_ok en, if_pos h0]
    exact ⟨rfl, rfl, fun _ _ => ⟨rfl, rfl, rfl⟩⟩
  · have hp : (I r).params ≠ [] := by
      intro h; rw [h] at hnum; exact h0 hnum
    obtain ⟨or, hor, hcp⟩ := hrec idx r hidx hp
    obtain ⟨-, hpv, -⟩ := built_facts hw hor
    have er : (OM.read (fun _ c => TNM.lift (PShift.oreadParams c idx)) : OM PV) ⟨h, c, s⟩ =
        (PShift.oreadParams c idx, ⟨h, c, s⟩) := rfl
    have e1 : PShift.oreadParams c idx = match or.params with
        | .pylist _ => .error .attributeError
        | p => .ok p := by
      unfold PShift.oreadParams
      rw [hcp]
      rcases or.params with _ | _ | _ <;> rfl
    have hcp' := hcp
    rw [v.params] at hcp'
    rcases hpv hp with hv | ⟨x, hx, hv⟩
    · rw [hv] at e1 hcp'
      rw [grad2At_vec svd m d hc h0 (by unfold PShift.readParams; rw [hcp'])]
      unfold PShift.ograd2At
      rw [OM.bind_ok eg, OM.bind_ok en, if_neg h0, OM.bind_ok (er.trans (by rw [e1]))]
      exact agree_grad2Vec v hidx hb hw hp _ s
    · rw [hv] at e1 hcp'
      rw [grad2At_scalar svd m d hc h0 (by unfold PShift.readParams; rw [hcp'])]
      unfold PShift.ograd2At
      rw [OM.bind_ok eg, OM.bind_ok en, if_neg h0, OM.bind_ok (er.trans (by rw [e1]))]
      refine Agree.bind ?_ (fun _ => Agree.pure _) s
      unfold PShift.ograd2Scalar PShift.grad2Scalar
      rw [sub_add_cancel, ← hx]
      exact Agree.step v hidx hb hw hp (by simp [hx]) fun a => Agree.pure _

theorem agree_grad2Loop (v : View h c c') (hb : Loaded h c.gate I) (hrec : ORecorded c I)
    (hw : ∀ r ∈ c.gate, (I r).WF) : ∀ l : List ℕ, (∀ k ∈ l, k < c.gate.length) →
    Agree h c c' (PShift.ograd2Loop svd m d l) (PShift.grad2Loop svd m d l)
  | [], _ => Agree.pure _
  | k :: l, hl => by
    unfold PShift.ograd2Loop PShift.grad2Loop
    have hk := hl k (by simp)
    refine (agree_grad2At v (List.getElem?_eq_getElem hk) hb hrec (hw _ (List.getElem_mem hk))).bind fun _ => ?_
    exact (agree_grad2Loop v hb hrec hw l fun k h => hl k (by simp [h])).bind fun _ => Agree.pure _

/-- Whatever objects are shared, `cal_params_grad2` does what it does on the list of their values. -/
theorem agree_grad2 (v : View h c c') (hb : Loaded h c.gate I) (hrec : ORecorded c I) (hw : ∀ r ∈ c.gate, (I r).WF)
    (ps : PShift) : Agree h c c' (ps.ocal_params_grad2 svd d) (ps.cal_params_grad2 svd d) := by
  unfold PShift.ocal_params_grad2 PShift.cal_params_grad2
  intro s
  have e1 : (OM.read (fun _ c => TNM.lift (.ok c.gate.length)) : OM ℕ) ⟨h, c, s⟩ = (.ok c.gate.length, ⟨h, c, s⟩) := rfl
  have e2 : (CM.read (fun c => TNM.lift (.ok c.gate.length)) : CM ℕ) (c', s) = (.ok c.gate.length, (c', s)) := by
    rw [v.length]; rfl
  rw [OM.bind_ok e1, CM.bind_ok e2]
  refine Agree.bind (Agree.read (by rw [v.nqubits])) (fun m => ?_) s
  refine Agree.bind (agree_grad2Loop v hb hrec hw _ fun k h => List.mem_range.1 h) fun grads => ?_
  exact Agree.bind (Agree.read (by rw [v.num])) fun _ => Agree.pure _

end

end QTN
