import Verif.Lemmas.Shared
import Verif.Props.Embedding

/-! # Property C65: a `PauliEncoding` in a circuit -/

namespace QTN.Props

open QTN QTN.Spec Matrix

variable {N : ℕ}

/-- Adding objects one after the other, catching exceptions. -/
noncomputable def addCatching (refs : List Ref) (w : World) : World := refs.foldl (fun w r => (OM.add r w).2) w

theorem add_gate (r : Ref) (w : World) : (OM.add r w).2.cir.gate = w.cir.gate ++ [r] ∧
    (OM.add r w).2.heap = w.heap ∧ (OM.add r w).2.log = w.log ∧ (OM.add r w).2.cir.nqubits = w.cir.nqubits := by
  unfold OM.add
  dsimp only
  split
  · exact ⟨rfl, rfl, rfl, rfl⟩
  · split
    · split
      · exact ⟨rfl, rfl, rfl, rfl⟩
      · exact ⟨rfl, rfl, rfl, rfl⟩
    · exact ⟨rfl, rfl, rfl, rfl⟩

/-- C65, adding: `add` of a `PauliEncoding` raises AttributeError, and the object is in the list nevertheless; the
recorded parameters and their number are unchanged. -/
theorem C65_add_raises (w : World) (r : Ref) (e : PauliEnc) (h : w.heap r = .enc e) :
    OM.add r w = (.error .attributeError, { w with cir := { w.cir with gate := w.cir.gate ++ [r] } }) := by
  unfold OM.add
  rw [h]
  rfl

/-- C65, adding: whatever is added, if exceptions are caught all objects are in the list, in order. -/
theorem C65_all_added (N : ℕ) (h : Heap) (refs : List Ref) (s : List (Tensor ℂ)) :
    ∃ c, addCatching refs ⟨h, OCircuit.new N, s⟩ = ⟨h, c, s⟩ ∧ c.gate = refs ∧ c.nqubits = N := by
  have key : ∀ (refs : List Ref) (w : World), (addCatching refs w).cir.gate = w.cir.gate ++ refs ∧
      (addCatching refs w).heap = w.heap ∧ (addCatching refs w).log = w.log ∧
      (addCatching refs w).cir.nqubits = w.cir.nqubits := by
    intro refs
    induction refs with
    | nil => intro w; exact ⟨by simp [addCatching], rfl, rfl, rfl⟩
    | cons r refs ih =>
      intro w
      obtain ⟨a1, a2, a3, a4⟩ := add_gate r w
      obtain ⟨b1, b2, b3, b4⟩ := ih (OM.add r w).2
      have : addCatching (r :: refs) w = addCatching refs (OM.add r w).2 := rfl
      rw [this]
      refine ⟨by rw [b1, a1]; simp, b2.trans a2, b3.trans a3, b4.trans a4⟩
  obtain ⟨k1, k2, k3, k4⟩ := key refs ⟨h, OCircuit.new N, s⟩
  refine ⟨(addCatching refs ⟨h, OCircuit.new N, s⟩).cir, ?_, by rw [k1]; rfl, k4⟩
  rcases e : addCatching refs ⟨h, OCircuit.new N, s⟩ with ⟨h', c', s'⟩
  rw [e] at k2 k3
  cases k2
  cases k3
  rfl

theorem objs_U (objs : List Obj) (Ms : List (QOp N))
    (h : List.Forall₂ (fun o M => Computes (Obj.U_expand o) M) objs Ms) : ∀ acc A, Represents acc A →
    (∃ r, objs.foldlM (fun acc o => do let u ← Obj.U_expand o; u.matmul acc) acc = .ok r ∧
      Represents r (timeOrdered Ms * A)) ∧
    ∃ r, objs.foldlM (fun acc o => do let u ← Obj.U_expand o; acc.matmul u) acc = .ok r ∧
      Represents r (A * timeOrdered Ms.reverse) := by
  induction h with
  | nil => intro acc A hA; exact ⟨⟨acc, rfl, by simpa using hA⟩, acc, rfl, by simpa using hA⟩
  | cons h0 _ ih =>
    intro acc A hA
    obtain ⟨u, hu, ru⟩ := h0
    constructor
    · obtain ⟨v, hv, rv⟩ := ru.matmul hA
      obtain ⟨r, hr, rr⟩ := (ih v _ rv).1
      refine ⟨r, ?_, ?_⟩
      · rw [List.foldlM_cons, hu, Py.ok_bind, hv, Py.ok_bind, hr]
      · rw [timeOrdered_cons, Matrix.mul_assoc]; exact rr
    · obtain ⟨v, hv, rv⟩ := hA.matmul ru
      obtain ⟨r, hr, rr⟩ := (ih v _ rv).2
      refine ⟨r, ?_, ?_⟩
      · rw [List.foldlM_cons, hu, Py.ok_bind, hv, Py.ok_bind, hr]
      · rw [List.reverse_cons, timeOrdered_append, timeOrdered_singleton, ← Matrix.mul_assoc]
        exact rr

/-- C65, the matrix of the circuit: `U()` is the time-ordered product of the matrices of all objects in the list,
encodings included, and `U(left_to_right=False)` the product in the other order. -/
theorem C65_matrix (h : Heap) (c : OCircuit) (hn : c.nqubits = N) (Ms : List (QOp N))
    (hM : List.Forall₂ (fun r M => Computes (h r).U_expand M) c.gate Ms) :
    Computes (c.U h) (timeOrdered Ms) ∧ Computes (c.U h false) (timeOrdered Ms.reverse) := by
  have hM' : List.Forall₂ (fun o M => Computes (Obj.U_expand o) M) (c.objs h) Ms := by
    unfold OCircuit.objs
    rw [List.forall₂_map_left_iff]
    exact hM
  obtain ⟨⟨r, e, hr⟩, r', e', hr'⟩ := objs_U _ Ms hM' _ _ (represents_eye (N := N))
  unfold OCircuit.U
  rw [hn]
  exact ⟨⟨r, e, by simpa using hr⟩, r', e', by simpa using hr'⟩

/-- An encoding of two inputs between two gates: the hypothesis of `C65_matrix` holds. -/
example : ∃ (h : Heap) (Ms : List (QOp 3)),
    List.Forall₂ (fun r M => Computes (h r).U_expand M) [0, 1, 2] Ms ∧ Ms.length = 3 ∧ ∃ e, h 1 = .enc e := by
  obtain ⟨o0, e0, hU0⟩ := item_ok (it := (.gate (.h 0) : Item 3)) trivial
  obtain ⟨o2, e2, hU2⟩ := item_ok (it := (.gate (.x 1) : Item 3)) trivial
  obtain ⟨e, -, hU, -⟩ := C44_encoding (N := 3) (by omega) [0.1, 0.2] (by simp) (by simp) [2, 0] (by decide) "Y" Y rfl
  exact ⟨fun r => if r = 0 then .op o0 else if r = 1 then .enc e else .op o2, _,
    .cons hU0 (.cons hU (.cons hU2 .nil)), rfl, e, rfl⟩

theorem check_enc : ∀ (pre : List Obj) (e : PauliEnc) (post : List Obj),
    (∀ o ∈ pre, o.supportTN = .ok true) → OCircuit.tnCheck (pre ++ .enc e :: post) = .error .attributeError
  | [], _, _, _ => rfl
  | o :: pre, e, post, h => by
    rw [List.cons_append, OCircuit.tnCheck, h o (by simp)]
    exact check_enc pre e post fun o ho => h o (by simp [ho])

theorem check_blocked : ∀ (pre : List Obj) (o : Obj) (post : List Obj),
    (∀ o ∈ pre, o.supportTN = .ok true) → o.supportTN = .ok false →
    OCircuit.tnCheck (pre ++ o :: post) = .ok false
  | [], o, _, _, h => by rw [List.nil_append, OCircuit.tnCheck, h]; rfl
  | o :: pre, o', post, h, h' => by
    rw [List.cons_append, OCircuit.tnCheck, h o (by simp)]
    exact check_blocked pre o' post (fun o ho => h o (by simp [ho])) h'

theorem oexpectation_checks (svd : SVDOracle) (h : Heap) (c : OCircuit) {init M : Tensor ℂ}
    (hi : init.shape = [1, 2 ^ c.nqubits]) {k : ℕ} (hM : M.shape = [k, k]) (tn : Bool) :
    c.cir_expectation svd h init M tn = (do
      let ok ← (c.TN_check h : Py _)
      if ok = true ∧ tn = true then do
        let v ← (init.view [1, -1] : Py _)
        let mps ← StateVec2MPS svd v c.nqubits
        let mps ← c.TN_evolution svd h mps
        let psi ← (MPS2StateVec mps : Py _)
        TNM.lift (Circuit.quadForm psi M)
      else do
        let u ← (c.U h : Py _)
        let v ← (init.view [-1, 1] : Py _)
        let psi ← (u.matmul v : Py _)
        TNM.lift (Circuit.quadForm psi M)) := by
  unfold OCircuit.cir_expectation
  rw [show pyGet init.shape 0 = .ok 1 by rw [hi]; rfl, TNM.lift_ok_bind, raiseIf_false (by simp),
    TNM.lift_ok_bind, show pyGet init.shape 1 = .ok (2 ^ c.nqubits) by rw [hi]; rfl, TNM.lift_ok_bind,
    raiseIf_false (by simp), TNM.lift_ok_bind, show pyGet M.shape 0 = .ok k by rw [hM]; rfl,
    TNM.lift_ok_bind, show pyGet M.shape 1 = .ok k by rw [hM]; rfl, TNM.lift_ok_bind,
    raiseIf_false (by simp), TNM.lift_ok_bind]

/-- C65, expectation values: if every object before the first encoding is flagged `supportTN=True`, `TN_check()`
raises AttributeError, and so does `cir_expectation` for every input row and observable, on both settings of `TN`,
also on the matrix path, which would not need the flag. -/
theorem C65_expectation_raises (svd : SVDOracle) (h : Heap) (c : OCircuit) (hn : c.nqubits = N) (pre post : List Ref)
    (r : Ref) (hg : c.gate = pre ++ r :: post) (e : PauliEnc) (he : h r = .enc e)
    (hp : ∀ r ∈ pre, (h r).supportTN = .ok true) (init M : Tensor ℂ) (v : QState N) (hi : IsRow init v)
    (O : QOp N) (hM : Represents M O) (tn : Bool) (s : List (Tensor ℂ)) :
    c.TN_check h = .error .attributeError ∧
    c.cir_expectation svd h init M tn s = (.error .attributeError, s) := by
  have hc : c.TN_check h = .error .attributeError := by
    unfold OCircuit.TN_check OCircuit.objs
    rw [hg, List.map_append, List.map_cons, he]
    exact check_enc _ e _ (by
      intro o ho
      obtain ⟨r', hr', rfl⟩ := List.mem_map.1 ho
      exact hp r' hr')
  refine ⟨hc, ?_⟩
  rw [oexpectation_checks svd h c (by rw [hi.1, hn]) hM.1, hc]
  rfl

/-- C65, expectation values: if an operation flagged `supportTN=False` stands before the first encoding,
`TN_check()` stops there and `cir_expectation` returns the right value, on both settings of `TN`. -/
theorem C65_expectation_blocked (svd : SVDOracle) (h : Heap) (c : OCircuit) (hn : c.nqubits = N) (pre post : List Ref)
    (r : Ref) (hg : c.gate = pre ++ r :: post) (hr : (h r).supportTN = .ok false)
    (hp : ∀ r ∈ pre, (h r).supportTN = .ok true) (Ms : List (QOp N))
    (hMs : List.Forall₂ (fun r M => Computes (h r).U_expand M) c.gate Ms) (init M : Tensor ℂ) (v : QState N)
    (hi : IsRow init v) (O : QOp N) (hM : Represents M O) (tn : Bool) (s : List (Tensor ℂ)) :
    c.TN_check h = .ok false ∧
    c.cir_expectation svd h init M tn s = (.ok (braket O (timeOrdered Ms *ᵥ v)).re, s) := by
  have hc : c.TN_check h = .ok false := by
    unfold OCircuit.TN_check OCircuit.objs
    rw [hg, List.map_append, List.map_cons]
    exact check_blocked _ _ _ (by
      intro o ho
      obtain ⟨r', hr', rfl⟩ := List.mem_map.1 ho
      exact hp r' hr') hr
  refine ⟨hc, ?_⟩
  rw [oexpectation_checks svd h c (by rw [hi.1, hn]) hM.1, hc, TNM.lift_ok_bind, if_neg (by simp)]
  obtain ⟨u, hu, ru⟩ := (C65_matrix h c hn Ms hMs).1
  obtain ⟨w, hw, rw'⟩ := row_view_col hi
  obtain ⟨p, hp, rp⟩ := ru.mulCol rw'
  rw [hu, TNM.lift_ok_bind, hw, TNM.lift_ok_bind, hp, TNM.lift_ok_bind, quadForm_col rp hM]
  rfl

theorem foldlM_raises_tnm {α β : Type} (f : β → α → TNM β) (l : List α) (x : α) (hx : x ∈ l)
    (h : ∀ b s, Raises (f b x s).1) (b : β) (s : List (Tensor ℂ)) : Raises (l.foldlM f b s).1 := by
  induction l generalizing b s with
  | nil => simp at hx
  | cons y l ih =>
    rw [List.foldlM_cons]
    rcases hy : f b y s with ⟨e | b', s'⟩
    · rw [TNM.bind_error hy]; exact ⟨e, rfl⟩
    · rw [TNM.bind_ok hy]
      rcases List.mem_cons.1 hx with rfl | hx
      · obtain ⟨e, he⟩ := h b s; rw [hy] at he; cases he
      · exact ih hx b' s'

/-- C65, tensor network paths: with an encoding in the list, `TN_evolution` and `TN_contract_evolution` raise for
every state, although `PauliEncoding` has both `TN_operation` and `TN_contract`. -/
theorem C65_evolution_raises (svd : SVDOracle) (h : Heap) (c : OCircuit) (r : Ref) (hr : r ∈ c.gate) (e : PauliEnc)
    (he : h r = .enc e) :
    (∀ mps s, Raises (c.TN_evolution svd h mps s).1) ∧ ∀ T b, Raises (c.TN_contract_evolution h T b) := by
  have hm : Obj.enc e ∈ c.objs h := by
    unfold OCircuit.objs
    rw [← he]
    exact List.mem_map_of_mem hr
  constructor
  · intro mps s
    unfold OCircuit.TN_evolution
    by_cases hl : mps.length ≠ c.nqubits
    · rw [raiseIf_true hl]; exact ⟨_, rfl⟩
    · rw [raiseIf_false hl, TNM.lift_ok_bind]
      exact foldlM_raises_tnm _ _ _ hm (fun b s => ⟨_, rfl⟩) _ _
  · intro T b
    unfold OCircuit.TN_contract_evolution
    have : ∀ T, Raises ((c.objs h).foldlM (fun T o => do
        if (← o.supportTN) = true then o.TN_contract T b else .error .valueError) T) :=
      fun T => foldlM_raises _ _ _ hm (fun b => ⟨_, rfl⟩) T
    obtain ⟨er, her⟩ := this T
    cases b <;> simp only [pyAssert, reduceIte, reduceCtorEq] <;> split_ifs
    · exact ⟨er, her⟩
    · exact ⟨_, rfl⟩
    · exact ⟨er, her⟩
    · exact ⟨_, rfl⟩

/-- The object at position `k` is an encoding. -/
def EncAt (k : ℕ) (w : World) : Prop := ∃ r e, w.cir.gate[k]? = some r ∧ w.heap r = .enc e

/-- The computation leaves the encoding at position `k` in place. -/
def LeavesEnc {α : Type} (k : ℕ) (x : OM α) : Prop := ∀ w, EncAt k w → EncAt k (x w).2

theorem LeavesEnc.bind {α β : Type} {k : ℕ} {x : OM α} {f : α → OM β} (hx : LeavesEnc k x)
    (hf : ∀ a, LeavesEnc k (f a)) : LeavesEnc k (x >>= f) := by
  intro w hw
  have h1 := hx w hw
  rcases e : x w with ⟨e' | a, w'⟩
  · rw [OM.bind_error e]; rw [e] at h1; exact h1
  · rw [OM.bind_ok e]; rw [e] at h1; exact hf a w' h1

theorem LeavesEnc.pure {α : Type} (k : ℕ) (a : α) : LeavesEnc k (Pure.pure a : OM α) := fun _ h => h

theorem LeavesEnc.lift {α : Type} (k : ℕ) (a : Py α) : LeavesEnc k (OM.lift a) := fun _ h => h

theorem LeavesEnc.read {α : Type} (k : ℕ) (f : Heap → OCircuit → TNM α) : LeavesEnc k (OM.read f) := fun _ h => h

theorem LeavesEnc.update (k idx : ℕ) (p : List ℝ) : LeavesEnc k (OM.update idx p) := by
  rintro w ⟨r, e, h1, h2⟩
  unfold OM.update OM.touch
  split
  · exact ⟨r, e, h1, h2⟩
  · rename_i r' hr'
    split
    · exact ⟨r, e, h1, h2⟩
    · rename_i o ho
      refine ⟨r, e, h1, ?_⟩
      show Function.update w.heap r' o r = _
      by_cases hrr : r = r'
      · subst hrr
        rw [h2] at ho
        cases ho
      · rw [Function.update_of_ne hrr]; exact h2

theorem leaves_scalar (k : ℕ) (svd : SVDOracle) (ps : PShift) (idx : ℕ) (x : ℝ) :
    LeavesEnc k (ps.ogradScalar svd idx x) :=
  (LeavesEnc.update _ _ _).bind fun _ => (LeavesEnc.read _ _).bind fun _ => (LeavesEnc.update _ _ _).bind fun _ =>
    (LeavesEnc.read _ _).bind fun _ => (LeavesEnc.update _ _ _).bind fun _ => LeavesEnc.pure _ _

theorem leaves_vec (k : ℕ) (svd : SVDOracle) (ps : PShift) (idx : ℕ) : ∀ (is : List ℕ) (p : List ℝ),
    LeavesEnc k (ps.ogradVec svd idx is p)
  | [], _ => LeavesEnc.pure _ _
  | _ :: is, _ => (LeavesEnc.update _ _ _).bind fun _ => (LeavesEnc.read _ _).bind fun _ =>
    (LeavesEnc.update _ _ _).bind fun _ => (LeavesEnc.read _ _).bind fun _ => (LeavesEnc.update _ _ _).bind fun _ =>
    (leaves_vec k svd ps idx is _).bind fun _ => LeavesEnc.pure _ _

theorem leaves_at (k : ℕ) (svd : SVDOracle) (ps : PShift) (idx : ℕ) : LeavesEnc k (ps.ogradAt svd idx) := by
  unfold PShift.ogradAt
  refine (LeavesEnc.read _ _).bind fun o => (LeavesEnc.lift _ _).bind fun n => ?_
  split
  · exact LeavesEnc.pure _ _
  · refine (LeavesEnc.read _ _).bind fun p => ?_
    split
    · exact (leaves_scalar _ _ _ _ _).bind fun _ => LeavesEnc.pure _ _
    · exact leaves_vec _ _ _ _ _ _
    · exact LeavesEnc.lift _ _

theorem gradAt_enc (svd : SVDOracle) (ps : PShift) (k : ℕ) (w : World) (h : EncAt k w) :
    (ps.ogradAt svd k w) = (.error .attributeError, w) := by
  obtain ⟨r, e, h1, h2⟩ := h
  unfold PShift.ogradAt
  have e1 : PShift.oget k w = (.ok (.enc e), w) := by
    rw [← h2]
    exact oget_ok (h := w.heap) (c := w.cir) h1 w.log
  rw [OM.bind_ok e1]
  rfl

theorem gradLoop_enc (svd : SVDOracle) (ps : PShift) (k : ℕ) : ∀ (l : List ℕ), k ∈ l → ∀ w, EncAt k w →
    Raises (ps.ogradLoop svd l w).1
  | [], hk, _, _ => by simp at hk
  | i :: l, hk, w, hw => by
    unfold PShift.ogradLoop
    by_cases hi : i = k
    · subst hi
      rw [OM.bind_error (gradAt_enc svd ps i w hw)]
      exact ⟨_, rfl⟩
    · have hl := leaves_at k svd ps i w hw
      rcases e : ps.ogradAt svd i w with ⟨e' | g, w'⟩
      · rw [OM.bind_error e]; exact ⟨_, rfl⟩
      · rw [OM.bind_ok e]
        rw [e] at hl
        obtain ⟨er, her⟩ := gradLoop_enc svd ps k l (by
          rcases List.mem_cons.1 hk with h | h
          · exact absurd h.symm hi
          · exact h) w' hl
        rcases e2 : ps.ogradLoop svd l w' with ⟨x, w''⟩
        rw [e2] at her
        cases her
        rw [OM.bind_error e2]
        exact ⟨_, rfl⟩

/-- C65, gradients: with an encoding in the list `cal_params_grad()` raises, whatever the other objects, the
observable and the input are. -/
theorem C65_gradient_raises (svd : SVDOracle) (ps : PShift) (w : World) (r : Ref) (hr : r ∈ w.cir.gate) (e : PauliEnc)
    (he : w.heap r = .enc e) : Raises (ps.ocal_params_grad svd w).1 := by
  obtain ⟨k, hk, hkr⟩ := List.mem_iff_getElem.1 hr
  have hE : EncAt k w := ⟨r, e, by rw [List.getElem?_eq_getElem hk, hkr], he⟩
  unfold PShift.ocal_params_grad
  have e1 : (OM.read (fun _ c => TNM.lift (.ok c.gate.length)) : OM ℕ) w = (.ok w.cir.gate.length, w) := rfl
  rw [OM.bind_ok e1]
  obtain ⟨er, her⟩ := gradLoop_enc svd ps k _ (List.mem_range.2 hk) w hE
  rcases e2 : ps.ogradLoop svd (List.range w.cir.gate.length) w with ⟨x, w''⟩
  rw [e2] at her
  cases her
  rw [OM.bind_error e2]
  exact ⟨_, rfl⟩

/-- A circuit with an encoding after a gate, as the theorems about exceptions require. -/
example : ∃ (h : Heap) (c : OCircuit) (e : PauliEnc), addCatching [0, 1] ⟨h, OCircuit.new 2, []⟩ = ⟨h, c, []⟩ ∧
    c.gate = [0] ++ 1 :: [] ∧ h 1 = .enc e ∧ (∀ r ∈ [0], (h r).supportTN = .ok true) ∧
    ∃ o, h 0 = .op o ∧ buildItem (.gate (.rx 0.3 (0 : Fin 2))) = .ok o := by
  obtain ⟨c, h1, h2, -⟩ := C65_all_added 2 (fun r => if r = 0 then .op (.gate (mkRx 0.3 2 (.int 0))) else
    .enc ⟨2, [0.1], [0, 1], "X"⟩) [0, 1] []
  refine ⟨_, c, _, h1, h2, rfl, ?_, _, rfl, rfl⟩
  intro r hr
  obtain rfl := List.mem_singleton.1 hr
  rfl

end QTN.Props
