import Verif.Lemmas.Items

/-! # Circuits: matrices and bookkeeping -/

namespace QTN

open Finset Spec Complex

variable {N : ℕ}

theorem add_gate (c : Circuit) (o : Op) : (c.add o).gate = c.gate ++ [o] := by
  unfold Circuit.add; dsimp only; split_ifs <;> rfl

theorem add_nqubits (c : Circuit) (o : Op) : (c.add o).nqubits = c.nqubits := by
  unfold Circuit.add; dsimp only; split_ifs <;> rfl

theorem adds_gate (c : Circuit) (ops : List Op) : (ops.foldl Circuit.add c).gate = c.gate ++ ops := by
  induction ops generalizing c with
  | nil => simp
  | cons o ops ih => rw [List.foldl_cons, ih, add_gate]; simp

theorem adds_nqubits (c : Circuit) (ops : List Op) :
    (ops.foldl Circuit.add c).nqubits = c.nqubits := by
  induction ops generalizing c with
  | nil => simp
  | cons o ops ih => rw [List.foldl_cons, ih, add_nqubits]

theorem foldlM_raises {α β : Type} (f : β → α → Py β) (l : List α) (x : α) (hx : x ∈ l)
    (h : ∀ b, Raises (f b x)) (b : β) : Raises (l.foldlM f b) := by
  induction l generalizing b with
  | nil => simp at hx
  | cons y l ih =>
    rw [List.foldlM_cons]
    cases hy : f b y with
    | error e => exact ⟨e, rfl⟩
    | ok b' =>
      rw [Py.ok_bind]
      rcases List.mem_cons.1 hx with rfl | hx
      · obtain ⟨e, he⟩ := h b; rw [hy] at he; cases he
      · exact ih hx b'

theorem U_rep (c : Circuit) (hn : c.nqubits = N) (M : Op → QOp N)
    (h : ∀ o ∈ c.gate, Computes o.U_expand (M o)) :
    Computes c.U (timeOrdered (c.gate.map M)) := by
  obtain ⟨r, hr, rr⟩ := foldlM_left c.gate (fun o => o.U_expand) M h _ _ (represents_eye (N := N))
  rw [foldl_left_timeOrdered] at rr
  refine ⟨r, ?_, rr⟩
  unfold Circuit.U
  rw [hn, ← hr]
  rfl

theorem U_rep_false (c : Circuit) (hn : c.nqubits = N) (M : Op → QOp N)
    (h : ∀ o ∈ c.gate, Computes o.U_expand (M o)) :
    Computes (c.U false) (timeOrdered (c.gate.map M).reverse) := by
  obtain ⟨r, hr, rr⟩ := foldlM_right c.gate (fun o => o.U_expand) M h _ _ (represents_eye (N := N))
  rw [foldl_right_timeOrdered] at rr
  refine ⟨r, ?_, rr⟩
  unfold Circuit.U
  rw [hn, ← hr]
  rfl

/-- operators attached to operations position by position -/
theorem U_rep_forall₂ (c : Circuit) (hn : c.nqubits = N) (Ms : List (QOp N))
    (h : List.Forall₂ (fun o M => Computes (Op.U_expand o) M) c.gate Ms) :
    Computes c.U (timeOrdered Ms) ∧ Computes (c.U false) (timeOrdered Ms.reverse) := by
  have left : ∀ (l : List Op) (Ms : List (QOp N)),
      List.Forall₂ (fun o M => Computes (Op.U_expand o) M) l Ms → ∀ acc A, Represents acc A →
      ∃ r, l.foldlM (fun acc o => do let u ← Op.U_expand o; u.matmul acc) acc = .ok r ∧
        Represents r (timeOrdered Ms * A) := by
    intro l Ms h
    induction h with
    | nil => intro acc A hA; exact ⟨acc, rfl, by simpa using hA⟩
    | cons h0 _ ih =>
      intro acc A hA
      obtain ⟨u, hu, ru⟩ := h0
      obtain ⟨v, hv, rv⟩ := ru.matmul hA
      obtain ⟨r, hr, rr⟩ := ih v _ rv
      refine ⟨r, ?_, ?_⟩
      · rw [List.foldlM_cons, hu, Py.ok_bind, hv, Py.ok_bind, hr]
      · rw [timeOrdered_cons, Matrix.mul_assoc]; exact rr
  have right : ∀ (l : List Op) (Ms : List (QOp N)),
      List.Forall₂ (fun o M => Computes (Op.U_expand o) M) l Ms → ∀ acc A, Represents acc A →
      ∃ r, l.foldlM (fun acc o => do let u ← Op.U_expand o; acc.matmul u) acc = .ok r ∧
        Represents r (A * timeOrdered Ms.reverse) := by
    intro l Ms h
    induction h with
    | nil => intro acc A hA; exact ⟨acc, rfl, by simpa using hA⟩
    | cons h0 _ ih =>
      intro acc A hA
      obtain ⟨u, hu, ru⟩ := h0
      obtain ⟨v, hv, rv⟩ := hA.matmul ru
      obtain ⟨r, hr, rr⟩ := ih v _ rv
      refine ⟨r, ?_, ?_⟩
      · rw [List.foldlM_cons, hu, Py.ok_bind, hv, Py.ok_bind, hr]
      · rw [List.reverse_cons, timeOrdered_append, timeOrdered_singleton, ← Matrix.mul_assoc]
        exact rr
  constructor
  · obtain ⟨r, hr, rr⟩ := left _ _ h _ _ (represents_eye (N := N))
    refine ⟨r, ?_, by simpa using rr⟩
    unfold Circuit.U
    rw [hn, ← hr]; rfl
  · obtain ⟨r, hr, rr⟩ := right _ _ h _ _ (represents_eye (N := N))
    refine ⟨r, ?_, by simpa using rr⟩
    unfold Circuit.U
    rw [hn, ← hr]; rfl

/-- the operations of a list of well-formed items -/
theorem items_built (l : List (Item N)) (h : ∀ it ∈ l, it.WF) :
    ∃ ops, l.mapM buildItem = .ok ops ∧
      List.Forall₂ (fun o M => Computes (Op.U_expand o) M) ops (l.map Item.op) := by
  induction l with
  | nil => exact ⟨[], rfl, .nil⟩
  | cons it l ih =>
    obtain ⟨o, ho, hc⟩ := item_ok it (h it (by simp))
    obtain ⟨ops, hops, hf⟩ := ih (fun j hj => h j (by simp [hj]))
    refine ⟨o :: ops, ?_, .cons hc hf⟩
    rw [List.mapM_cons, ho, hops]; rfl

open Matrix in
theorem items_dagger (l : List (Item N)) (h : ∀ it ∈ l, it.WF)
    (hd : ∀ it ∈ l, Spec.Item.hasDagger it) :
    ∃ ops dops, l.mapM buildItem = .ok ops ∧
      List.Forall₂ (fun o d => Op.operation_dagger o = .ok (some d)) ops dops ∧
      List.Forall₂ (fun o M => Computes (Op.U_expand o) M) ops (l.map Item.op) ∧
      List.Forall₂ (fun o M => Computes (Op.U_expand o) M) dops (l.map (fun it => (it.op)ᴴ)) := by
  induction l with
  | nil => exact ⟨[], [], rfl, .nil, .nil, .nil⟩
  | cons it l ih =>
    obtain ⟨o, it', ho, hw', -, hop, o', ho', hdag⟩ :=
      item_dagger it (h it (by simp)) (hd it (by simp))
    obtain ⟨o2, ho2, hc⟩ := item_ok it (h it (by simp))
    rw [ho] at ho2; cases ho2
    obtain ⟨o3, ho3, hc'⟩ := item_ok it' hw'
    rw [ho'] at ho3; cases ho3
    obtain ⟨ops, dops, hops, h1, h2, h3⟩ := ih (fun j hj => h j (by simp [hj]))
      (fun j hj => hd j (by simp [hj]))
    rw [hop] at hc'
    refine ⟨o :: ops, o' :: dops, ?_, .cons hdag h1, .cons hc h2, .cons hc' h3⟩
    rw [List.mapM_cons, ho, hops]; rfl

/-! ## Column vectors -/

open Matrix in
theorem Spec.Represents.mulCol {U : Tensor ℂ} {M : QOp N} (h : Represents U M) {t : Tensor ℂ}
    {v : QState N} (ht : IsCol t v) : ∃ w, U.matmul t = .ok w ∧ IsCol w (M *ᵥ v) := by
  refine ⟨_, Tensor.matmul2 h.1 ht.1, rfl, fun a => ?_⟩
  rw [Tensor.matmul2_get h.1 ht.1 (Tensor.matmul2 h.1 ht.1) (enc_lt a) (by omega), sum_enc]
  simp only [h.2, ht.2]
  rfl

open Matrix in
theorem unitary_norm {M : QOp N} (h : IsUnitaryOp M) (v : QState N) :
    ∑ a, Complex.normSq ((M *ᵥ v) a) = ∑ a, Complex.normSq (v a) := by
  have key : ∀ w : QState N, ((∑ a, Complex.normSq (w a) : ℝ) : ℂ) = star w ⬝ᵥ w := by
    intro w
    simp only [dotProduct, Pi.star_apply, Complex.ofReal_sum]
    apply Finset.sum_congr rfl
    intro a _
    rw [Complex.normSq_eq_conj_mul_self]; rfl
  have : ((∑ a, Complex.normSq ((M *ᵥ v) a) : ℝ) : ℂ) = ((∑ a, Complex.normSq (v a) : ℝ) : ℂ) := by
    rw [key, key, star_mulVec, dotProduct_mulVec, vecMul_vecMul, h.2, vecMul_one]
  exact_mod_cast this

end QTN
