import Verif.Lemmas.Grad2
import Verif.Lemmas.GradEx

/-! # Circuits that decompose nothing, for the examples about saved-state gradients -/

namespace QTN

open Spec Matrix QTN.Props

/-- An x rotation or a phase gate. -/
def QuietOp (o : Op) : Prop := ∃ g : Gate, o = .gate g ∧ (g.cls = .rx ∨ g.cls = .u1)

theorem QuietOp.silent {o : Op} (h : QuietOp o) (svd : SVDOracle) (mps : List (Tensor ℂ)) :
    (o.TN_operation svd mps).Silent := by
  obtain ⟨⟨cls, n, w, p, m, u⟩, rfl, h⟩ := h
  dsimp only at h
  obtain rfl | rfl := h
  · exact TNM.Silent.lift' _
  · exact TNM.Silent.lift' _

theorem QuietOp.dagger {o : Op} (h : QuietOp o) {od : Option Op} (hd : o.operation_dagger = .ok od) :
    ∃ o', od = some o' ∧ QuietOp o' := by
  obtain ⟨⟨cls, n, w, p, m, u⟩, rfl, h⟩ := h
  dsimp only at h
  obtain rfl | rfl := h
  all_goals
    obtain ⟨g', hg, hd⟩ := py_bind_ok hd
    obtain ⟨θ, -, hg⟩ := py_bind_ok hg
    cases hg
    cases hd
  · exact ⟨_, rfl, _, rfl, .inl rfl⟩
  · exact ⟨_, rfl, _, rfl, .inr rfl⟩

theorem QuietOp.update {o o' : Op} (h : QuietOp o) {p : List ℝ} (hu : o.params_update p = .ok o') : QuietOp o' := by
  obtain ⟨⟨cls, n, w, p', m, u⟩, rfl, h⟩ := h
  dsimp only at h
  obtain rfl | rfl := h
  · match p, hu with
    | [a], hu => cases hu; exact ⟨_, rfl, .inl rfl⟩
  · match p, hu with
    | [a], hu => cases hu; exact ⟨_, rfl, .inr rfl⟩

/-- The computation keeps the circuit among the quiet ones and decomposes nothing. -/
def CM.Quiet {α : Type} (x : CM α) : Prop := ∀ st, (∀ o ∈ st.1.gate, QuietOp o) →
  (∀ o ∈ (x st).2.1.gate, QuietOp o) ∧ (x st).2.2 = st.2

theorem CM.Quiet.bind {α β : Type} {x : CM α} {f : α → CM β} (hx : x.Quiet) (hf : ∀ a, (f a).Quiet) :
    (x >>= f).Quiet := by
  intro st h1
  obtain ⟨a1, a2⟩ := hx st h1
  rcases h : x st with ⟨e | a, st'⟩
  · rw [CM.bind_error h]; rw [h] at a1 a2; exact ⟨a1, a2⟩
  · rw [CM.bind_ok h]; rw [h] at a1 a2
    obtain ⟨b1, b2⟩ := hf a st' a1
    exact ⟨b1, b2.trans a2⟩

theorem CM.Quiet.pure {α : Type} (a : α) : CM.Quiet (Pure.pure a : CM α) := fun _ h1 => ⟨h1, rfl⟩

theorem CM.Quiet.lift {α : Type} (a : Py α) : CM.Quiet (CM.lift a) := fun _ h1 => ⟨h1, rfl⟩

theorem CM.Quiet.read {α : Type} {f : Circuit → TNM α} (h : ∀ c, (∀ o ∈ c.gate, QuietOp o) → (f c).Silent) :
    (CM.read f).Quiet := fun st h1 => ⟨h1, h st.1 h1 st.2⟩

theorem CM.Quiet.update (idx : ℕ) (p : List ℝ) : (CM.update idx p).Quiet := by
  intro st h1
  unfold CM.update
  split
  · exact ⟨h1, rfl⟩
  · next o ho =>
    split
    · exact ⟨h1, rfl⟩
    · next o' ho' =>
      refine ⟨fun x hx => ?_, rfl⟩
      rcases List.mem_or_eq_of_mem_set hx with hx | rfl
      · exact h1 x hx
      · exact (h1 o (List.mem_of_getElem? ho)).update ho'

theorem pyGet_mem {α : Type} {l : List α} {k : ℤ} {a : α} (h : pyGet l k = .ok a) : a ∈ l := by
  unfold pyGet at h
  obtain ⟨i, -, h⟩ := py_bind_ok h
  split at h
  · next x hx => cases h; exact List.mem_of_getElem? hx
  · cases h

theorem quiet_overlap (svd : SVDOracle) (m : List (Tensor ℂ)) (d : PShift.Saved) (idx : ℕ) :
    (PShift.overlap svd m d idx).Quiet := by
  refine CM.Quiet.read fun c hc => ?_
  rcases h : pyGet c.gate (idx : ℤ) with e | o
  · exact fun s => rfl
  · intro s
    rw [TNM.lift_ok_bind]
    exact ((TNM.Silent.lift _).bind fun _ => ((hc o (pyGet_mem h)).silent svd _).bind fun _ =>
      (TNM.Silent.lift _).bind fun _ => (TNM.Silent.lift _).bind fun _ => (TNM.Silent.lift _).bind fun _ =>
        (TNM.Silent.lift _).bind fun _ => (TNM.Silent.lift _).bind fun _ => TNM.Silent.lift' _) s

theorem quiet_loop2 (svd : SVDOracle) (m : List (Tensor ℂ)) (d : PShift.Saved) :
    ∀ l, (PShift.grad2Loop svd m d l).Quiet := by
  have hvec : ∀ idx is p, (PShift.grad2Vec svd m d idx is p).Quiet := by
    intro idx is
    induction is with
    | nil => intro p; exact CM.Quiet.pure _
    | cons i is ih =>
      intro p
      exact (CM.Quiet.update _ _).bind fun _ => (quiet_overlap _ _ _ _).bind fun _ =>
        (CM.Quiet.update _ _).bind fun _ => (ih _).bind fun _ => CM.Quiet.pure _
  have hat : ∀ idx, (PShift.grad2At svd m d idx).Quiet := by
    intro idx
    unfold PShift.grad2At
    refine (CM.Quiet.read fun c _ => ?_).bind fun o => ?_
    · split <;> exact TNM.Silent.lift' _
    · split
      · exact CM.Quiet.pure _
      · refine (CM.Quiet.read fun c _ => TNM.Silent.lift' _).bind fun p => ?_
        split
        · exact ((CM.Quiet.update _ _).bind fun _ => (quiet_overlap _ _ _ _).bind fun _ =>
            (CM.Quiet.update _ _).bind fun _ => CM.Quiet.pure _).bind fun _ => CM.Quiet.pure _
        · exact hvec _ _ _
        · exact CM.Quiet.lift _
  intro l
  induction l with
  | nil => exact CM.Quiet.pure _
  | cons i l ih => exact (hat i).bind fun _ => ih.bind fun _ => CM.Quiet.pure _

/-- On a quiet circuit only the input state is decomposed. -/
theorem grad2_log (svd : SVDOracle) (ps : PShift) (d : PShift.Saved) (c : Circuit) (hc : ∀ o ∈ c.gate, QuietOp o)
    (s : List (Tensor ℂ)) :
    (ps.cal_params_grad2 svd d (c, s)).2.2 = (StateVec2MPS svd ps.init_state c.nqubits s).2 := by
  have e0 : (CM.read (fun c => TNM.lift (.ok c.gate.length)) : CM ℕ) (c, s) = (.ok c.gate.length, (c, s)) := rfl
  unfold PShift.cal_params_grad2
  rw [CM.bind_ok e0]
  rcases h : StateVec2MPS svd ps.init_state c.nqubits s with ⟨e | m, s1⟩
  · have e1 : (CM.read (fun c => StateVec2MPS svd ps.init_state c.nqubits) : CM _) (c, s) = (.error e, (c, s1)) := by
      unfold CM.read
      dsimp only
      rw [h]
    rw [CM.bind_error e1]
  · have e1 : (CM.read (fun c => StateVec2MPS svd ps.init_state c.nqubits) : CM _) (c, s) = (.ok m, (c, s1)) := by
      unfold CM.read
      dsimp only
      rw [h]
    rw [CM.bind_ok e1]
    exact (((quiet_loop2 svd m d _).bind fun _ => (CM.Quiet.read fun _ _ => TNM.Silent.lift' _).bind fun _ =>
      CM.Quiet.pure _) (c, s1) hc).2

theorem silent_saveForward (svd : SVDOracle) (gates : List Op) : ∀ (ops : List Op), (∀ o ∈ ops, QuietOp o) →
    ∀ (idx : ℕ) (mps : List (Tensor ℂ)) (d : PShift.Saved), (PShift.saveForward svd gates idx ops mps d).Silent
  | [], _, _, _, _ => TNM.Silent.pure _
  | o :: ops, h, idx, mps, d => by
    unfold PShift.saveForward
    split
    · exact ((h o (by simp)).silent svd mps).bind fun _ =>
        silent_saveForward svd gates ops (fun o ho => h o (by simp [ho])) _ _ _
    · exact TNM.Silent.lift' _

theorem silent_saveBackward (svd : SVDOracle) (gates : List Op) (h : ∀ o ∈ gates, QuietOp o) :
    ∀ (k : ℕ) (mps : List (Tensor ℂ)) (d : PShift.Saved), (PShift.saveBackward svd gates k mps d).Silent
  | 0, _, _ => TNM.Silent.pure _
  | k + 1, mps, d => by
    unfold PShift.saveBackward
    rcases hg : pyGet gates (k : ℤ) with e | o
    · exact fun s => rfl
    · intro s
      rw [TNM.lift_ok_bind]
      rcases hd : o.operation_dagger with e | od
      · rfl
      obtain ⟨o', rfl, q⟩ := (h o (pyGet_mem hg)).dagger hd
      rw [TNM.lift_ok_bind]
      dsimp only
      split
      · exact ((q.silent svd mps).bind fun _ => silent_saveBackward svd gates h k _ _) s
      · rfl

/-- On a quiet circuit with a silent observable only the input state is decomposed. -/
theorem save_log (svd : SVDOracle) (ps : PShift) (c : Circuit) (hc : ∀ o ∈ c.gate, QuietOp o) (mo : Op)
    (hm : ∀ mps, (mo.TN_operation svd mps).Silent) (s : List (Tensor ℂ)) :
    (ps.save_mid_MPS svd c mo s).2 = (StateVec2MPS svd ps.init_state c.nqubits s).2 := by
  unfold PShift.save_mid_MPS
  rw [TNM.Silent.bind_log]
  intro m
  exact (TNM.Silent.lift _).bind fun _ => (silent_saveForward svd _ _ hc _ _ _).bind fun _ =>
    (TNM.Silent.lift _).bind fun _ => (hm _).bind fun _ => (TNM.Silent.lift _).bind fun _ =>
      (silent_saveBackward svd _ hc _ _ _).bind fun _ => TNM.Silent.pure _

/-- One qubit: nothing to decompose. -/
theorem sv2mps_one (svd : SVDOracle) {t : Tensor ℂ} (h : t.shape = [1, 2]) (s : List (Tensor ℂ)) :
    (StateVec2MPS svd t 1 s).2 = s := by
  rw [sv2mps_unfold svd (N := 1) h]
  obtain ⟨t', e, -⟩ := loop_last svd (c := t) (D := 1) (by rw [h]) s
  rw [e]

end QTN
