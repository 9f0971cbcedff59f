import Verif.Model.InPlace
import Verif.Lemmas.MpsGates

/-! # The functions on list objects against the functions on values -/

namespace QTN

/-! ## The monad -/

theorem LM.bind_eq {α β : Type} (x : LM α) (f : α → LM β) (w : LWorld) :
    (x >>= f) w = match x w with
      | (.ok a, w') => f a w'
      | (.error e, w') => (.error e, w') := rfl

theorem LM.bind_ok {α β : Type} {x : LM α} {w w' : LWorld} {a : α} (h : x w = (.ok a, w'))
    (f : α → LM β) : (x >>= f) w = f a w' := by rw [LM.bind_eq, h]

theorem LM.bind_error {α β : Type} {x : LM α} {w w' : LWorld} {e : PyErr}
    (h : x w = (.error e, w')) (f : α → LM β) : (x >>= f) w = (.error e, w') := by
  rw [LM.bind_eq, h]

theorem LM.py_ok_bind {α β : Type} (a : α) (f : α → LM β) : (LM.py (.ok a) >>= f) = f a := rfl

/-- The world after list `r` has got the content `m`, and with record `s`. -/
def LWorld.put (w : LWorld) (r : LRef) (m s : List (Tensor ℂ)) : LWorld :=
  { w with lists := Function.update w.lists r m, log := s }

@[simp] theorem LWorld.put_self (w : LWorld) (r : LRef) : w.put r (w.lists r) w.log = w := by
  simp [LWorld.put]

@[simp] theorem LWorld.put_put (w : LWorld) (r : LRef) (m s m' s' : List (Tensor ℂ)) :
    (w.put r m s).put r m' s' = w.put r m' s' := by simp [LWorld.put]

@[simp] theorem LWorld.put_lists (w : LWorld) (r : LRef) (m s : List (Tensor ℂ)) :
    (w.put r m s).lists r = m := by simp [LWorld.put]

@[simp] theorem LWorld.put_log (w : LWorld) (r : LRef) (m s : List (Tensor ℂ)) :
    (w.put r m s).log = s := rfl

@[simp] theorem LWorld.put_next (w : LWorld) (r : LRef) (m s : List (Tensor ℂ)) :
    (w.put r m s).next = w.next := rfl

@[simp] theorem LWorld.put_cir (w : LWorld) (r : LRef) (m s : List (Tensor ℂ)) :
    (w.put r m s).cir = w.cir := rfl

theorem LWorld.put_other (w : LWorld) {r r' : LRef} (h : r' ≠ r) (m s : List (Tensor ℂ)) :
    (w.put r m s).lists r' = w.lists r' := by simp [LWorld.put, h]

/-! ## Working in place -/

/-- `F'` does to the list object `r` what `F` does to its content: it returns `r` itself, changes no other
list, and on an exception leaves some list of the same length. -/
def InPlace (F : List (Tensor ℂ) → TNM (List (Tensor ℂ))) (F' : LRef → LM LRef) : Prop :=
  ∀ r w,
    (∃ m s, F (w.lists r) w.log = (.ok m, s) ∧ m.length = (w.lists r).length ∧ F' r w = (.ok r, w.put r m s)) ∨
    (∃ e m s, F (w.lists r) w.log = (.error e, s) ∧ m.length = (w.lists r).length ∧
      F' r w = (.error e, w.put r m s))

theorem inPlace_pure : InPlace (fun m => pure m) (fun r => pure r) :=
  fun r w => .inl ⟨w.lists r, w.log, rfl, rfl, by rw [LWorld.put_self]; rfl⟩

theorem inPlace_fail (e : PyErr) : InPlace (fun _ => TNM.lift (.error e)) (fun _ => LM.py (.error e)) :=
  fun r w => .inr ⟨e, w.lists r, w.log, rfl, rfl, by rw [LWorld.put_self]; rfl⟩

theorem inPlace_seq {F G : List (Tensor ℂ) → TNM (List (Tensor ℂ))} {F' G' : LRef → LM LRef}
    (hF : InPlace F F') (hG : InPlace G G') :
    InPlace (fun m => F m >>= fun m => G m) (fun r => F' r >>= fun r => G' r) := by
  intro r w
  beta_reduce
  rcases hF r w with ⟨m, s, h1, hl, h2⟩ | ⟨e, m, s, h1, hl, h2⟩
  · rcases hG r (w.put r m s) with ⟨m', s', h3, hl', h4⟩ | ⟨e, m', s', h3, hl', h4⟩
    · refine .inl ⟨m', s', ?_, ?_, ?_⟩
      · rw [TNM.bind_ok h1]; simpa using h3
      · rw [hl', LWorld.put_lists, hl]
      · rw [LM.bind_ok h2, h4, LWorld.put_put]
    · refine .inr ⟨e, m', s', ?_, ?_, ?_⟩
      · rw [TNM.bind_ok h1]; simpa using h3
      · rw [hl', LWorld.put_lists, hl]
      · rw [LM.bind_ok h2, h4, LWorld.put_put]
  · exact .inr ⟨e, m, s, TNM.bind_error h1 _, hl, LM.bind_error h2 _⟩

theorem inPlace_foldlM {α : Type} {f : List (Tensor ℂ) → α → TNM (List (Tensor ℂ))} {f' : LRef → α → LM LRef}
    (h : ∀ a, InPlace (fun m => f m a) (fun r => f' r a)) :
    ∀ l : List α, InPlace (fun m => l.foldlM f m) (fun r => l.foldlM f' r)
  | [] => inPlace_pure
  | a :: l => by
    simp only [List.foldlM_cons]
    exact inPlace_seq (h a) (inPlace_foldlM h l)

theorem inPlace_py {α : Type} (x : Py α) {K : α → List (Tensor ℂ) → TNM (List (Tensor ℂ))}
    {K' : α → LRef → LM LRef} (h : ∀ a, InPlace (K a) (K' a)) :
    InPlace (fun m => (liftM x : TNM α) >>= fun a => K a m) (fun r => LM.py x >>= fun a => K' a r) := by
  cases x with
  | ok a => exact h a
  | error e => exact inPlace_fail e

theorem inPlace_tn {α : Type} (x : TNM α) {K : α → List (Tensor ℂ) → TNM (List (Tensor ℂ))}
    {K' : α → LRef → LM LRef} (h : ∀ a, InPlace (K a) (K' a)) :
    InPlace (fun m => x >>= fun a => K a m) (fun r => LM.tn x >>= fun a => K' a r) := by
  intro r w
  beta_reduce
  rcases hx : x w.log with ⟨y, s⟩
  have e' : LM.tn x w = (y, { w with log := s }) := by unfold LM.tn; rw [hx]
  cases y with
  | ok a =>
    rw [TNM.bind_ok hx, LM.bind_ok e']
    exact h a r { w with log := s }
  | error e =>
    refine .inr ⟨e, w.lists r, s, TNM.bind_error hx _, rfl, ?_⟩
    rw [LM.bind_error e']
    simp [LWorld.put]

theorem inPlace_item {i : ℤ} {K : Tensor ℂ → List (Tensor ℂ) → TNM (List (Tensor ℂ))}
    {K' : Tensor ℂ → LRef → LM LRef} (h : ∀ a, InPlace (K a) (K' a)) :
    InPlace (fun m => (liftM (pyGet m i) : TNM _) >>= fun a => K a m)
      (fun r => LM.item r i >>= fun a => K' a r) := by
  intro r w
  beta_reduce
  rcases hx : pyGet (w.lists r) i with e | a
  · refine .inr ⟨e, w.lists r, w.log, rfl, rfl, ?_⟩
    rw [LWorld.put_self]
    exact LM.bind_error (w' := w) (by unfold LM.item; rw [hx]) _
  · have : LM.item r i w = (.ok a, w) := by unfold LM.item; rw [hx]
    rw [LM.bind_ok this]
    exact h a r w

theorem pySet_length {α : Type} {l l' : List α} {i : ℤ} {v : α} (h : pySet l i v = .ok l') :
    l'.length = l.length := by
  unfold pySet at h
  rcases hk : wrapIdx l.length i with e | k
  · rw [hk] at h; cases h
  · rw [hk] at h; cases h; simp

theorem inPlace_set {i : ℤ} {t : Tensor ℂ} {K : List (Tensor ℂ) → TNM (List (Tensor ℂ))}
    {K' : LRef → LM LRef} (h : InPlace K K') :
    InPlace (fun m => (liftM (pySet m i t) : TNM _) >>= fun m => K m)
      (fun r => LM.setItem r i t >>= fun _ => K' r) := by
  have k : InPlace (fun m => (liftM (pySet m i t) : TNM _)) (fun r => LM.setItem r i t >>= fun _ => pure r) := by
    intro r w
    beta_reduce
    rcases hx : pySet (w.lists r) i t with e | l
    · refine .inr ⟨e, w.lists r, w.log, rfl, rfl, ?_⟩
      rw [LWorld.put_self]
      exact LM.bind_error (w' := w) (by unfold LM.setItem; rw [hx]) _
    · refine .inl ⟨l, w.log, rfl, pySet_length hx, ?_⟩
      exact LM.bind_ok (w' := w.put r l w.log) (by unfold LM.setItem; rw [hx]; rfl) _
  intro r w
  have := inPlace_seq k h r w
  have e : ((LM.setItem r i t >>= fun _ => (pure r : LM LRef)) >>= fun r => K' r) w =
      (LM.setItem r i t >>= fun _ => K' r) w := by
    rw [LM.bind_eq, LM.bind_eq, LM.bind_eq]
    rcases LM.setItem r i t w with ⟨(e | _), w'⟩ <;> rfl
  beta_reduce at this ⊢
  rw [e] at this
  exact this

theorem inPlace_set_last {i : ℤ} {t : Tensor ℂ} :
    InPlace (fun m => (liftM (pySet m i t) : TNM _)) (fun r => LM.setItem r i t >>= fun _ => pure r) := by
  have := inPlace_set (i := i) (t := t) inPlace_pure
  simpa only [TNM.bind_pure] using this

theorem inPlace_ite {c : Prop} [Decidable c] {F G : List (Tensor ℂ) → TNM (List (Tensor ℂ))}
    {F' G' : LRef → LM LRef} (hF : InPlace F F') (hG : InPlace G G') :
    InPlace (fun m => if c then F m else G m) (fun r => if c then F' r else G' r) := by
  by_cases h : c
  · simpa only [if_pos h] using hF
  · simpa only [if_neg h] using hG

/-! ## Gates -/

theorem inPlace_two (svd : SVDOracle) (G : Tensor ℂ) (i : ℤ) :
    InPlace (fun m => Gate.applyTwo svd G m i) (fun r => Gate.applyTwoL svd G r i) := by
  unfold Gate.applyTwo Gate.applyTwoL
  refine inPlace_item fun A => inPlace_item fun B => inPlace_py _ fun t => ?_
  refine inPlace_tn _ fun ab => ?_
  exact inPlace_set inPlace_set_last

theorem inPlace_three (svd : SVDOracle) (G : Tensor ℂ) (i : ℤ) :
    InPlace (fun m => Gate.applyThree svd G m i) (fun r => Gate.applyThreeL svd G r i) := by
  unfold Gate.applyThree Gate.applyThreeL
  refine inPlace_item fun A => inPlace_item fun B => inPlace_item fun C => inPlace_py _ fun t => ?_
  refine inPlace_tn _ fun abc => ?_
  exact inPlace_set (inPlace_set inPlace_set_last)

theorem inPlace_swapTN (svd : SVDOracle) (M : Tensor ℂ) (w : List ℤ) :
    InPlace (fun m => Gate.swapTN svd M w m) (fun r => Gate.swapTNL svd M w r) := by
  unfold Gate.swapTN Gate.swapTNL
  refine inPlace_py _ fun _ => inPlace_py _ fun up => inPlace_py _ fun down => ?_
  exact inPlace_seq (inPlace_foldlM (fun i => inPlace_two svd M i) _)
    (inPlace_foldlM (fun i => inPlace_two svd M (i - 1)) _)

theorem inPlace_swap (svd : SVDOracle) (g : Gate) :
    InPlace (fun m => g.swap_TN_operation svd m) (fun r => g.swap_TN_operationL svd r) := by
  unfold Gate.swap_TN_operation Gate.swap_TN_operationL
  exact inPlace_py _ fun _ => inPlace_py _ fun w => inPlace_swapTN svd g.matrix w

theorem inPlace_swapCall (svd : SVDOracle) (N i j : ℤ) :
    InPlace (fun m => Gate.swapCall svd N i j m) (fun r => Gate.swapCallL svd N i j r) :=
  inPlace_swap svd _

theorem inPlace_cnot (svd : SVDOracle) (g : Gate) :
    InPlace (fun m => g.cnot_TN_operation svd m) (fun r => g.cnot_TN_operationL svd r) := by
  unfold Gate.cnot_TN_operation Gate.cnot_TN_operationL
  refine inPlace_py _ fun _ => inPlace_py _ fun w => inPlace_py _ fun up => inPlace_py _ fun down =>
    inPlace_py _ fun w0 => inPlace_ite ?_ ?_
  · exact inPlace_py _ fun G => inPlace_two svd G up
  · refine inPlace_seq (inPlace_foldlM (fun i => inPlace_swapCall svd _ _ _) _) ?_
    refine inPlace_py _ fun G => inPlace_seq (inPlace_two svd G _) ?_
    exact inPlace_foldlM (fun i => inPlace_swapCall svd _ _ _) _

theorem inPlace_ctrl (svd : SVDOracle) (g : Gate) (Grev : Py (Tensor ℂ)) :
    InPlace (fun m => g.ctrl_TN_operation svd Grev m) (fun r => g.ctrl_TN_operationL svd Grev r) := by
  unfold Gate.ctrl_TN_operation Gate.ctrl_TN_operationL
  refine inPlace_py _ fun _ => inPlace_py _ fun w => inPlace_py _ fun _ => inPlace_py _ fun up =>
    inPlace_py _ fun down => inPlace_py _ fun w0 => ?_
  refine inPlace_seq (inPlace_foldlM (fun i => inPlace_swapCall svd _ _ _) _) ?_
  refine inPlace_py _ fun G => inPlace_seq (inPlace_two svd G _) ?_
  exact inPlace_foldlM (fun i => inPlace_swapCall svd _ _ _) _

theorem inPlace_toffoli (svd : SVDOracle) (g : Gate) :
    InPlace (fun m => g.toffoli_TN_operation svd m) (fun r => g.toffoli_TN_operationL svd r) := by
  unfold Gate.toffoli_TN_operation Gate.toffoli_TN_operationL
  refine inPlace_py _ fun _ => inPlace_py _ fun w => inPlace_py _ fun up => inPlace_py _ fun mid =>
    inPlace_py _ fun down => ?_
  refine inPlace_seq (inPlace_foldlM (fun i => inPlace_swapCall svd _ _ _) _) ?_
  refine inPlace_seq (inPlace_foldlM (fun i => inPlace_swapCall svd _ _ _) _) ?_
  refine inPlace_py _ fun w2 => inPlace_py _ fun G => inPlace_seq (inPlace_three svd G _) ?_
  refine inPlace_seq (inPlace_foldlM (fun i => inPlace_swapCall svd _ _ _) _) ?_
  exact inPlace_foldlM (fun i => inPlace_swapCall svd _ _ _) _

theorem inPlace_congr {F G : List (Tensor ℂ) → TNM (List (Tensor ℂ))} {F' : LRef → LM LRef}
    (h : InPlace F F') (e : ∀ m, G m = F m) : InPlace G F' := by
  rw [show G = F from funext e]; exact h

theorem inPlace_single (g : Gate) :
    InPlace (fun m => TNM.lift (g.single_TN_operation m)) (fun r => g.single_TN_operationL r) := by
  refine inPlace_congr (F := fun m => do
    (g.guard : Py _)
    let i ← (g.wires.asInt : Py _)
    let t ← (pyGet m i : Py _)
    let t' ← (Tensor.einsum_ab_bcd g.matrix t : Py _)
    (pySet m i t' : Py _)) ?_ fun m => ?_
  · unfold Gate.single_TN_operationL
    exact inPlace_py _ fun _ => inPlace_py _ fun i => inPlace_item fun t => inPlace_py _ fun t' => inPlace_set_last
  · unfold Gate.single_TN_operation
    simp only [TNM.lift_bind]
    rfl

theorem inPlace_gate (svd : SVDOracle) (g : Gate) :
    InPlace (fun m => g.TN_operation svd m) (fun r => g.TN_operationL svd r) := by
  unfold Gate.TN_operation Gate.TN_operationL
  rcases g with ⟨c, N, w, p, M, U⟩
  cases c
  case rxx | ryy | rzz | mcnot => exact inPlace_fail _
  case cnot => exact inPlace_cnot svd _
  case cz | cphase | cu3 => exact inPlace_ctrl svd _ _
  case swap => exact inPlace_swap svd _
  case toffoli => exact inPlace_toffoli svd _
  all_goals exact inPlace_single _

/-! ## Layers -/

theorem inPlace_singleLayer (gates : Py (List (Tensor ℂ))) (wires : List ℤ) :
    InPlace (fun m => TNM.lift (SingleLayer.TN_operation gates wires m))
      (fun r => SingleLayer.TN_operationL gates wires r) := by
  refine inPlace_congr (F := fun m => do
    let lst ← (gates : Py _)
    wires.foldlM (fun m q => do
      let a ← (pyGet lst q : Py _)
      let t ← (pyGet m q : Py _)
      let t' ← (Tensor.einsum_ab_bcd a t : Py _)
      (pySet m q t' : Py _)) m) ?_ fun m => ?_
  · unfold SingleLayer.TN_operationL
    refine inPlace_py _ fun lst => inPlace_foldlM (fun q => ?_) _
    exact inPlace_py _ fun a => inPlace_item fun t => inPlace_py _ fun t' => inPlace_set_last
  · unfold SingleLayer.TN_operation
    simp only [TNM.lift_bind, TNM.lift_foldlM]
    rfl

theorem inPlace_wrap (svd : SVDOracle) (N L : ℤ) :
    InPlace (fun m => Ring.wrapCnot svd N L m) (fun r => Ring.wrapCnotL svd N L r) := by
  unfold Ring.wrapCnot Ring.wrapCnotL
  refine inPlace_seq (inPlace_foldlM (fun i => inPlace_ite ?_ ?_) _) (inPlace_foldlM (fun i => ?_) _)
  all_goals exact inPlace_gate svd _

theorem inPlace_ring (svd : SVDOracle) (g : Ring) :
    InPlace (fun m => g.TN_operation svd m) (fun r => g.TN_operationL svd r) := by
  unfold Ring.TN_operation Ring.TN_operationL
  rcases g with ⟨k, N, ws⟩
  cases k
  case ring2 => exact inPlace_fail _
  case ring =>
    refine inPlace_py _ fun _ => inPlace_seq (inPlace_foldlM (fun i => inPlace_gate svd _) _) ?_
    exact inPlace_ite inPlace_pure (inPlace_wrap svd _ _)
  case dagger =>
    refine inPlace_py _ fun _ => inPlace_ite (inPlace_gate svd _) ?_
    exact inPlace_seq (inPlace_wrap svd _ _) (inPlace_foldlM (fun i => inPlace_gate svd _) _)

theorem inPlace_op (svd : SVDOracle) (o : Op) :
    InPlace (fun m => o.TN_operation svd m) (fun r => o.TN_operationL svd r) := by
  cases o with
  | gate g => exact inPlace_gate svd g
  | single l => exact inPlace_singleLayer _ _
  | ring g => exact inPlace_ring svd g
  | basic b => exact inPlace_fail _

theorem inPlace_enc (e : PauliEnc) :
    InPlace (fun m => TNM.lift (e.TN_operation m)) (fun r => e.TN_operationL r) :=
  inPlace_singleLayer _ _

/-! ## Circuits -/

theorem inPlace_gates (svd : SVDOracle) (l : List Op) :
    InPlace (fun m => l.foldlM (fun mps o => if o.supportTN = true then o.TN_operation svd mps
        else TNM.lift (.error .valueError)) m)
      (fun r => l.foldlM (fun r o => if o.supportTN = true then o.TN_operationL svd r
        else LM.py (.error .valueError)) r) :=
  inPlace_foldlM (fun o => inPlace_ite (inPlace_op svd o) (inPlace_fail _)) l

theorem inPlace_evolution (svd : SVDOracle) (c : Circuit) :
    InPlace (fun m => c.TN_evolution svd m) (fun r => c.TN_evolutionL svd r) := by
  intro r w
  unfold Circuit.TN_evolution Circuit.TN_evolutionL
  beta_reduce
  rw [LM.bind_ok (show LM.content r w = (.ok (w.lists r), w) from rfl)]
  exact inPlace_py (raiseIf ((w.lists r).length ≠ c.nqubits) .valueError)
    (fun _ => inPlace_gates svd c.gate) r w

end QTN
