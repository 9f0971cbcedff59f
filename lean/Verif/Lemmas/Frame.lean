import Verif.SpecSpan
import Verif.Lemmas.Bonds

/-! # Sites that an operation leaves alone -/

namespace QTN

open Spec

variable {N : ℕ}

/-- Whenever the computation returns, its result has the property. -/
def TNM.Post {α : Type} (x : TNM α) (p : α → Prop) : Prop := ∀ s a s', x s = (.ok a, s') → p a

theorem pyBind_ok {α β : Type} {x : Py α} {f : α → Py β} {b : β} (h : (x >>= f) = .ok b) :
    ∃ a, x = .ok a ∧ f a = .ok b := by
  cases x with
  | error e => cases h
  | ok a => exact ⟨a, rfl, h⟩

theorem pyFold_inv {α β : Type} {p : α → Prop} (f : α → β → Py α) (l : List β)
    (h : ∀ b ∈ l, ∀ a a', p a → f a b = .ok a' → p a') : ∀ a a', p a → l.foldlM f a = .ok a' → p a' := by
  induction l with
  | nil =>
    intro a a' ha e
    have e' : (Except.ok a : Py α) = .ok a' := e
    injection e' with e'
    exact e' ▸ ha
  | cons b l ih =>
    intro a a' ha e
    rw [List.foldlM_cons] at e
    obtain ⟨a1, e1, e2⟩ := pyBind_ok e
    exact ih (fun b hb => h b (by simp [hb])) a1 a' (h b (by simp) a a1 ha e1) e2

namespace TNM.Post

variable {α β : Type}

theorem bind {x : TNM α} {f : α → TNM β} {p : α → Prop} {q : β → Prop} (hx : TNM.Post x p)
    (hf : ∀ a, p a → TNM.Post (f a) q) : TNM.Post (x >>= f) q := by
  intro s b s' h
  rcases e : x s with ⟨r | a, s1⟩
  · rw [TNM.bind_error e] at h; simp at h
  · rw [TNM.bind_ok e] at h
    exact hf a (hx s a s1 e) s1 b s' h

theorem lift (x : Py α) : TNM.Post (liftM x : TNM α) (fun a => x = .ok a) := by
  intro s a s' h
  have : (x, s) = ((.ok a : Py α), s') := h
  exact (Prod.mk.inj this).1

theorem triv (x : TNM α) : TNM.Post x (fun _ => True) := fun _ _ _ _ => trivial

theorem pure {a : α} {p : α → Prop} (h : p a) : TNM.Post (Pure.pure a : TNM α) p := by
  intro s b s' e
  have : ((.ok a : Py α), s) = (.ok b, s') := e
  simp at this
  rwa [← this.1]

theorem mono {x : TNM α} {p q : α → Prop} (h : TNM.Post x p) (hpq : ∀ a, p a → q a) : TNM.Post x q :=
  fun s a s' e => hpq a (h s a s' e)

theorem foldlM {p : α → Prop} (f : α → β → TNM α) (l : List β)
    (h : ∀ b ∈ l, ∀ a, p a → TNM.Post (f a b) p) : ∀ a, p a → TNM.Post (l.foldlM f a) p := by
  induction l with
  | nil => intro a ha; exact .pure ha
  | cons b l ih =>
    intro a ha
    rw [List.foldlM_cons]
    exact (h b (by simp) a ha).bind (fun a ha => ih (fun b hb => h b (by simp [hb])) a ha)

end TNM.Post

/-- The two lists agree outside positions `lo … hi`. -/
def Frame (lo hi : ℤ) (m0 m : List (Tensor ℂ)) : Prop :=
  m.length = m0.length ∧ ∀ j : ℕ, (j : ℤ) < lo ∨ hi < j → m[j]? = m0[j]?

theorem Frame.refl (lo hi : ℤ) (m : List (Tensor ℂ)) : Frame lo hi m m := ⟨rfl, fun _ _ => rfl⟩

theorem Frame.trans {lo hi : ℤ} {a b c : List (Tensor ℂ)} (h : Frame lo hi a b) (h' : Frame lo hi b c) :
    Frame lo hi a c := ⟨h'.1.trans h.1, fun j hj => (h'.2 j hj).trans (h.2 j hj)⟩

theorem Frame.wider {lo hi lo' hi' : ℤ} {a b : List (Tensor ℂ)} (h : Frame lo hi a b) (h1 : lo' ≤ lo)
    (h2 : hi ≤ hi') : Frame lo' hi' a b := ⟨h.1, fun j hj => h.2 j (by omega)⟩

theorem pySet_frame {lo hi : ℤ} {m m' : List (Tensor ℂ)} {i : ℤ} {t : Tensor ℂ} (h0 : 0 ≤ i) (h1 : lo ≤ i)
    (h2 : i ≤ hi) (h : pySet m i t = .ok m') : Frame lo hi m m' := by
  unfold pySet wrapIdx at h
  rw [if_pos h0] at h
  split at h
  · have : m.set i.toNat t = m' := by
      have h' : (Except.ok (m.set i.toNat t) : Py _) = .ok m' := h
      injection h'
    subst this
    refine ⟨by simp, fun j hj => ?_⟩
    rw [List.getElem?_set_ne (by omega)]
  · cases h

/-- Frame rule for a sequence of steps. -/
def Stays (lo hi : ℤ) (f : List (Tensor ℂ) → TNM (List (Tensor ℂ))) : Prop :=
  ∀ m, TNM.Post (f m) (Frame lo hi m)

theorem Stays.step {lo hi : ℤ} {f : List (Tensor ℂ) → TNM (List (Tensor ℂ))} (h : Stays lo hi f)
    {m0 m : List (Tensor ℂ)} (hm : Frame lo hi m0 m) : TNM.Post (f m) (Frame lo hi m0) :=
  (h m).mono fun _ => hm.trans

theorem Stays.wider {lo hi lo' hi' : ℤ} {f : List (Tensor ℂ) → TNM (List (Tensor ℂ))} (h : Stays lo hi f)
    (h1 : lo' ≤ lo) (h2 : hi ≤ hi') : Stays lo' hi' f := fun m => (h m).mono fun _ hf => hf.wider h1 h2

theorem Stays.fold {lo hi : ℤ} {β : Type} (f : List (Tensor ℂ) → β → TNM (List (Tensor ℂ))) (l : List β)
    (h : ∀ b ∈ l, Stays lo hi (fun m => f m b)) : Stays lo hi (fun m => l.foldlM f m) := fun m0 =>
  TNM.Post.foldlM f l (fun b hb _ ha => (h b hb).step ha) m0 (.refl _ _ _)

theorem applyTwo_stays {svd : SVDOracle} (G : Tensor ℂ) {i lo hi : ℤ} (h0 : 0 ≤ i) (h1 : lo ≤ i)
    (h2 : i + 1 ≤ hi) : Stays lo hi (fun m => Gate.applyTwo svd G m i) := by
  intro m
  unfold Gate.applyTwo
  refine (TNM.Post.triv _).bind fun _ _ => (TNM.Post.triv _).bind fun _ _ => (TNM.Post.triv _).bind fun _ _ =>
    (TNM.Post.triv _).bind fun ab _ => ?_
  obtain ⟨a, b⟩ := ab
  refine (TNM.Post.lift _).bind fun m1 e1 => (TNM.Post.lift _).mono fun m2 e2 => ?_
  exact (pySet_frame h0 h1 (by omega) e1).trans (pySet_frame (by omega) (by omega) h2 e2)

theorem applyThree_stays {svd : SVDOracle} (G : Tensor ℂ) {i lo hi : ℤ} (h0 : 1 ≤ i) (h1 : lo ≤ i - 1)
    (h2 : i + 1 ≤ hi) : Stays lo hi (fun m => Gate.applyThree svd G m i) := by
  intro m
  unfold Gate.applyThree
  refine (TNM.Post.triv _).bind fun _ _ => (TNM.Post.triv _).bind fun _ _ => (TNM.Post.triv _).bind fun _ _ =>
    (TNM.Post.triv _).bind fun _ _ => (TNM.Post.triv _).bind fun abc _ => ?_
  obtain ⟨a, b, c⟩ := abc
  refine (TNM.Post.lift _).bind fun m1 e1 => (TNM.Post.lift _).bind fun m2 e2 =>
    (TNM.Post.lift _).mono fun m3 e3 => ?_
  exact ((pySet_frame (by omega) h1 (by omega) e1).trans (pySet_frame (by omega) (by omega) (by omega) e2)).trans
    (pySet_frame (by omega) (by omega) h2 e3)

theorem pyMin_two (p q : ℤ) : pyMin [p, q] = .ok (min p q) := rfl
theorem pyMax_two (p q : ℤ) : pyMax [p, q] = .ok (max p q) := rfl

theorem swap_stays {svd : SVDOracle} {g : Gate} {p q : ℤ} (hw : g.wires = .list [p, q]) (hp : 0 ≤ p)
    (hq : 0 ≤ q) : Stays (min p q) (max p q) (g.swap_TN_operation svd) := by
  intro m
  unfold Gate.swap_TN_operation
  refine (TNM.Post.triv _).bind fun _ _ => ?_
  rw [hw, asList_list, TNM.lift_ok_bind]
  unfold Gate.swapTN
  refine (TNM.Post.triv _).bind fun _ _ => ?_
  rw [pyMin_two, TNM.lift_ok_bind, pyMax_two, TNM.lift_ok_bind]
  refine (Stays.fold _ _ (fun i hi => ?_) m).bind fun m1 h1 => (Stays.fold _ _ (fun i hi => ?_)).step h1
  · have := mem_pyRange2.1 hi
    exact applyTwo_stays _ (by omega) (by omega) (by omega)
  · have := mem_pyRangeDown.1 hi
    exact applyTwo_stays _ (by omega) (by omega) (by omega)

theorem swapCall_stays {svd : SVDOracle} {n p q lo hi : ℤ} (hp : 0 ≤ p) (hq : 0 ≤ q) (h1 : lo ≤ p) (h2 : lo ≤ q)
    (h3 : p ≤ hi) (h4 : q ≤ hi) : Stays lo hi (Gate.swapCall svd n p q) :=
  (swap_stays (g := mkSwap n (.list [p, q])) rfl hp hq).wider (by omega) (by omega)

theorem chain_stays {svd : SVDOracle} (n : ℤ) (G : Py (Tensor ℂ)) {lo hi : ℤ} (h0 : 0 ≤ lo) (h1 : lo < hi) :
    Stays lo hi (fun mps => do
      let mps ← (pyRange2 lo (hi - 1)).foldlM (fun mps i => Gate.swapCall svd n i (i + 1) mps) mps
      let G ← (G : Py _)
      let mps ← Gate.applyTwo svd G mps (hi - 1)
      (pyRangeDown (hi - 1) lo).foldlM (fun mps i => Gate.swapCall svd n (i - 1) i mps) mps) := by
  intro m
  refine (Stays.fold _ _ (fun i hi => ?_) m).bind fun m1 h1 => (TNM.Post.triv _).bind fun G _ =>
    ((applyTwo_stays G (by omega) (by omega) (by omega)).step h1).bind fun m2 h2 =>
    (Stays.fold _ _ (fun i hi => ?_)).step h2
  · have := mem_pyRange2.1 hi
    exact swapCall_stays (by omega) (by omega) (by omega) (by omega) (by omega) (by omega)
  · have := mem_pyRangeDown.1 hi
    exact swapCall_stays (by omega) (by omega) (by omega) (by omega) (by omega) (by omega)

theorem cnot_stays {svd : SVDOracle} {g : Gate} {p q : ℤ} (hw : g.wires = .list [p, q]) (hp : 0 ≤ p)
    (hq : 0 ≤ q) (h : p ≠ q) : Stays (min p q) (max p q) (g.cnot_TN_operation svd) := by
  intro m
  unfold Gate.cnot_TN_operation
  refine (TNM.Post.triv _).bind fun _ _ => ?_
  rw [hw, asList_list, TNM.lift_ok_bind, pyMin_two, TNM.lift_ok_bind, pyMax_two, TNM.lift_ok_bind]
  refine (TNM.Post.triv _).bind fun w0 _ => ?_
  split
  · exact (TNM.Post.triv _).bind fun G _ => applyTwo_stays G (by omega) (by omega) (by omega) m
  · exact chain_stays g.nqubits _ (by omega) (by omega) m

theorem ctrl_stays {svd : SVDOracle} {g : Gate} {p q : ℤ} (hw : g.wires = .list [p, q]) (hp : 0 ≤ p)
    (hq : 0 ≤ q) (h : p ≠ q) (Grev : Py (Tensor ℂ)) :
    Stays (min p q) (max p q) (g.ctrl_TN_operation svd Grev) := by
  intro m
  unfold Gate.ctrl_TN_operation
  refine (TNM.Post.triv _).bind fun _ _ => ?_
  rw [hw, asList_list, TNM.lift_ok_bind]
  refine (TNM.Post.triv _).bind fun _ _ => ?_
  rw [pyMin_two, TNM.lift_ok_bind, pyMax_two, TNM.lift_ok_bind]
  refine (TNM.Post.triv _).bind fun w0 _ => ?_
  exact chain_stays g.nqubits _ (by omega) (by omega) m

theorem toffoli_stays {svd : SVDOracle} {g : Gate} {w : List ℤ} {x y z : ℤ} (hw : g.wires = .list w)
    (hs : w.mergeSort (· ≤ ·) = [x, y, z]) (hx : 0 ≤ x) (hxy : x < y) (hyz : y < z) :
    Stays x z (g.toffoli_TN_operation svd) := by
  intro m
  unfold Gate.toffoli_TN_operation
  refine (TNM.Post.triv _).bind fun _ _ => ?_
  have s0 : pyGet [x, y, z] 0 = .ok x := rfl
  have s1 : pyGet [x, y, z] 1 = .ok y := rfl
  have s2 : pyGet [x, y, z] 2 = .ok z := rfl
  rw [hw, asList_list, TNM.lift_ok_bind, hs]
  show TNM.Post ((liftM (pyGet [x, y, z] 0) : TNM ℤ) >>= _) _
  rw [s0, TNM.lift_ok_bind, s1, TNM.lift_ok_bind, s2, TNM.lift_ok_bind]
  refine (Stays.fold _ _ (fun i hi => ?_) m).bind fun m1 h1 => ((Stays.fold _ _ (fun i hi => ?_)).step h1).bind
    fun m2 h2 => (TNM.Post.triv _).bind fun _ _ => (TNM.Post.triv _).bind fun G _ =>
    ((applyThree_stays G (by omega) (by omega) (by omega)).step h2).bind fun m3 h3 =>
    ((Stays.fold _ _ (fun i hi => ?_)).step h3).bind fun m4 h4 => (Stays.fold _ _ (fun i hi => ?_)).step h4
  · have := mem_pyRange2.1 hi
    exact swapCall_stays (by omega) (by omega) (by omega) (by omega) (by omega) (by omega)
  · have := mem_pyRangeDown.1 hi
    exact swapCall_stays (by omega) (by omega) (by omega) (by omega) (by omega) (by omega)
  · have := mem_pyRangeDown.1 hi
    exact swapCall_stays (by omega) (by omega) (by omega) (by omega) (by omega) (by omega)
  · have := mem_pyRange2.1 hi
    exact swapCall_stays (by omega) (by omega) (by omega) (by omega) (by omega) (by omega)

theorem single_stays {svd : SVDOracle} {g : Gate} {i : ℤ} (hw : g.wires = .int i) (h0 : 0 ≤ i)
    (hc : ∀ mps, g.TN_operation svd mps = TNM.lift (g.single_TN_operation mps)) :
    Stays i i (g.TN_operation svd) := by
  intro m
  rw [hc]
  refine (TNM.Post.lift (g.single_TN_operation m)).mono fun m' e => ?_
  unfold Gate.single_TN_operation at e
  obtain ⟨_, -, e⟩ := pyBind_ok e
  rw [hw] at e
  obtain ⟨j, ej, e⟩ := pyBind_ok e
  obtain rfl : i = j := by
    have : (Except.ok i : Py ℤ) = .ok j := ej
    injection this
  obtain ⟨t, -, e⟩ := pyBind_ok e
  obtain ⟨t', -, e⟩ := pyBind_ok e
  exact pySet_frame h0 le_rfl le_rfl e

theorem mapM_src {α β : Type} {f : α → Py β} {l : List α} {r : List β} (h : l.mapM f = .ok r) {b : β} (hb : b ∈ r) :
    ∃ a ∈ l, f a = .ok b := by
  induction l generalizing r with
  | nil => rw [List.mapM_nil] at h; cases h; simp at hb
  | cons x l ih =>
    rw [List.mapM_cons] at h
    obtain ⟨y, hy, h⟩ := pyBind_ok h
    obtain ⟨ys, hys, h⟩ := pyBind_ok h
    cases h
    rcases List.mem_cons.1 hb with rfl | hb
    · exact ⟨x, by simp, hy⟩
    · obtain ⟨a, ha, e⟩ := ih hys hb
      exact ⟨a, by simp [ha], e⟩

/-! ## Gates -/

abbrev FrameOn := SameOutside

theorem Spec.SameOutside.refl (S : ℕ → Prop) (m : List (Tensor ℂ)) : FrameOn S m m := ⟨rfl, fun _ _ => rfl⟩

theorem Spec.SameOutside.trans {S : ℕ → Prop} {a b c : List (Tensor ℂ)} (h : FrameOn S a b) (h' : FrameOn S b c) :
    FrameOn S a c := ⟨h'.1.trans h.1, fun j hj => (h'.2 j hj).trans (h.2 j hj)⟩

theorem Spec.SameOutside.mono {S T : ℕ → Prop} {a b : List (Tensor ℂ)} (h : FrameOn S a b) (hST : ∀ j, S j → T j) :
    FrameOn T a b := ⟨h.1, fun j hj => h.2 j (fun hs => hj (hST j hs))⟩

theorem Frame.on {lo hi : ℤ} {a b : List (Tensor ℂ)} (h : Frame lo hi a b) {S : ℕ → Prop}
    (hS : ∀ j : ℕ, lo ≤ j → (j : ℤ) ≤ hi → S j) : FrameOn S a b :=
  ⟨h.1, fun j hj => h.2 j (by
    by_contra hc
    push Not at hc
    exact hj (hS j hc.1 hc.2))⟩

theorem sort_wires {p q r : Fin N} (h1 : p ≠ q) (h2 : p ≠ r) (h3 : q ≠ r) : ∃ x y z : Fin N,
    x < y ∧ y < z ∧ x ∈ [p, q, r] ∧ z ∈ [p, q, r] ∧
      [wire p, wire q, wire r].mergeSort (· ≤ ·) = [wire x, wire y, wire z] := by
  have sw : ∀ (a b c : Fin N), [a, b, c].Perm [b, a, c] := fun a b c => List.Perm.swap _ _ _
  have sw2 : ∀ (a b c : Fin N), [a, b, c].Perm [a, c, b] := fun a b c => (List.Perm.swap _ _ _).cons _
  have hw : ∀ {a b : Fin N}, a < b → wire a < wire b := fun h => by
    have : (_ : ℕ) < _ := h
    unfold wire; omega
  have fin : ∀ {x y z : Fin N}, x < y → y < z → [p, q, r].Perm [x, y, z] → ∃ x y z : Fin N,
      x < y ∧ y < z ∧ x ∈ [p, q, r] ∧ z ∈ [p, q, r] ∧
        [wire p, wire q, wire r].mergeSort (· ≤ ·) = [wire x, wire y, wire z] := fun {x y z} a b hper =>
    ⟨x, y, z, a, b, hper.symm.subset (by simp), hper.symm.subset (by simp),
      sort3 (hw a) (hw b) (hper.map (fun i : Fin N => wire i))⟩
  rcases lt_or_gt_of_ne h1 with a | a
  · rcases lt_or_gt_of_ne h3 with b | b
    · exact fin a b (List.Perm.refl _)
    · rcases lt_or_gt_of_ne h2 with c | c
      · exact fin c b (sw2 _ _ _)
      · exact fin c a ((sw2 _ _ _).trans (sw _ _ _))
  · rcases lt_or_gt_of_ne h2 with b | b
    · exact fin a b (sw _ _ _)
    · rcases lt_or_gt_of_ne h3 with c | c
      · exact fin c b ((sw _ _ _).trans (sw2 _ _ _))
      · exact fin c a (((sw _ _ _).trans (sw2 _ _ _)).trans (sw _ _ _))

theorem between_one {i : Fin N} {ins : Instr N} (hq : ins.qubits = [i]) {j : ℕ} (h1 : wire i ≤ j)
    (h2 : (j : ℤ) ≤ wire i) : (Item.gate ins).spans j :=
  ⟨i, by simp [Item.qubits, hq], i, by simp [Item.qubits, hq], by unfold wire at h1; omega,
    by unfold wire at h2; omega, fun h => h.elim⟩

theorem between_two {p q : Fin N} {ins : Instr N} (hq : ins.qubits = [p, q]) {j : ℕ}
    (h1 : min (wire p) (wire q) ≤ j) (h2 : (j : ℤ) ≤ max (wire p) (wire q)) : (Item.gate ins).spans j := by
  unfold wire at h1 h2
  rcases le_total (p : ℕ) (q : ℕ) with h | h
  · exact ⟨p, by simp [Item.qubits, hq], q, by simp [Item.qubits, hq], by omega, by omega, fun h => h.elim⟩
  · exact ⟨q, by simp [Item.qubits, hq], p, by simp [Item.qubits, hq], by omega, by omega, fun h => h.elim⟩

theorem post_error {α : Type} {e : PyErr} {p : α → Prop} : TNM.Post (TNM.lift (.error e) : TNM α) p := by
  intro s a s' h
  have : ((Except.error e : Py α), s) = (.ok a, s') := h
  simp at this

theorem gate_frame {svd : SVDOracle} (ins : Instr N) (h : ins.WF) {g : Gate} (hg : build ins = .ok g)
    (m : List (Tensor ℂ)) : TNM.Post (g.TN_operation svd m) (FrameOn (Item.gate ins).spans m) := by
  have one : ∀ {i : Fin N} {g : Gate}, ins.qubits = [i] → g.wires = .int (wire i) →
      (∀ mps, g.TN_operation svd mps = TNM.lift (g.single_TN_operation mps)) →
      TNM.Post (g.TN_operation svd m) (FrameOn (Item.gate ins).spans m) := fun hq hw hc =>
    (single_stays hw (by unfold wire; omega) hc m).mono fun _ hf => hf.on fun j => between_one hq
  have two : ∀ {p q : Fin N} {f : List (Tensor ℂ) → TNM (List (Tensor ℂ))}, ins.qubits = [p, q] →
      Stays (min (wire p) (wire q)) (max (wire p) (wire q)) f →
      TNM.Post (f m) (FrameOn (Item.gate ins).spans m) := fun hq hs =>
    (hs m).mono fun _ hf => hf.on fun j => between_two hq
  have hne : ∀ {p q : Fin N}, p ≠ q → wire p ≠ wire q := fun h => by
    unfold wire; intro h'; exact h (Fin.ext (by omega))
  have h0 : ∀ p : Fin N, 0 ≤ wire p := fun p => by unfold wire; omega
  cases ins with
  | h i => cases hg; exact one rfl rfl (fun _ => rfl)
  | x i => cases hg; exact one rfl rfl (fun _ => rfl)
  | y i => cases hg; exact one rfl rfl (fun _ => rfl)
  | z i => cases hg; exact one rfl rfl (fun _ => rfl)
  | rx θ i => cases hg; exact one rfl rfl (fun _ => rfl)
  | ry θ i => cases hg; exact one rfl rfl (fun _ => rfl)
  | rz θ i => cases hg; exact one rfl rfl (fun _ => rfl)
  | u1 θ i => cases hg; exact one rfl rfl (fun _ => rfl)
  | u3 θ φ l i =>
    obtain ⟨u, -, e⟩ := pyBind_ok hg
    cases e
    exact one rfl rfl (fun _ => rfl)
  | rxx θ p q => cases hg; exact post_error
  | ryy θ p q => cases hg; exact post_error
  | rzz θ p q => cases hg; exact post_error
  | cnot c t => cases hg; exact two rfl (cnot_stays rfl (h0 c) (h0 t) (hne h))
  | cz c t => cases hg; exact two rfl (ctrl_stays rfl (h0 c) (h0 t) (hne h) _)
  | cphase θ c t => cases hg; exact two rfl (ctrl_stays rfl (h0 c) (h0 t) (hne h) _)
  | cu3 θ φ l c t =>
    obtain ⟨u, -, e⟩ := pyBind_ok hg
    obtain ⟨v, -, e⟩ := pyBind_ok e
    cases e
    exact two rfl (ctrl_stays rfl (h0 c) (h0 t) (hne h) _)
  | swap p q => cases hg; exact two rfl (swap_stays rfl (h0 p) (h0 q))
  | toffoli a b t =>
    obtain ⟨x, y, z, hxy, hyz, mx, mz, hs⟩ := sort_wires h.1 h.2.1 h.2.2
    obtain ⟨g', hg', hn, hw, hm, hcls⟩ : ∃ g', build (.toffoli a b t) = .ok g' ∧ True ∧
        g'.wires = .list [wire a, wire b, wire t] ∧ True ∧ g'.cls = .toffoli := by
      exact ⟨g, hg, trivial, by
        simp only [build, mkToffoli] at hg
        obtain ⟨_, -, hg⟩ := pyBind_ok hg
        obtain ⟨_, -, hg⟩ := pyBind_ok hg
        cases hg; rfl, trivial, by
        simp only [build, mkToffoli] at hg
        obtain ⟨_, -, hg⟩ := pyBind_ok hg
        obtain ⟨_, -, hg⟩ := pyBind_ok hg
        cases hg; rfl⟩
    rw [hg] at hg'
    cases hg'
    have e : g.TN_operation svd m = g.toffoli_TN_operation svd m := by
      unfold Gate.TN_operation; rw [hcls]
    rw [e]
    have hx' : (x : ℕ) < y := hxy
    have hy' : (y : ℕ) < z := hyz
    refine (toffoli_stays hw hs (h0 x) (by unfold wire; omega) (by unfold wire; omega) m).mono fun _ hf => hf.on fun j h1 h2 => ?_
    exact ⟨x, mx, z, mz, by unfold wire at h1; omega, by unfold wire at h2; omega, fun h => h.elim⟩
  | mcnot cs t =>
    have hcls : g.cls = .mcnot := by
      simp only [build, mkMcnot] at hg
      obtain ⟨_, -, hg⟩ := pyBind_ok hg
      obtain ⟨_, -, hg⟩ := pyBind_ok hg
      cases hg; rfl
    have e : g.TN_operation svd m = TNM.lift (.error .attributeError) := by
      unfold Gate.TN_operation; rw [hcls]
    rw [e]
    exact post_error

/-! ## Layers -/

theorem sLayer_frame (l : SLayer) (ws : List (Fin N)) (hl : l.wires = wires ws) (m : List (Tensor ℂ)) :
    TNM.Post (TNM.lift (l.TN_operation m)) (FrameOn (fun j => ∃ p ∈ ws, (p : ℕ) = j) m) := by
  refine (TNM.Post.lift (l.TN_operation m)).mono fun m' e => ?_
  unfold SLayer.TN_operation SingleLayer.TN_operation at e
  obtain ⟨lst, -, e⟩ := pyBind_ok e
  rw [hl] at e
  refine pyFold_inv (p := FrameOn (fun j => ∃ p ∈ ws, (p : ℕ) = j) m) _ _ (fun q hq a a' ha e => ?_) m m' (.refl _ _) e
  obtain ⟨p, hp, rfl⟩ := List.mem_map.1 hq
  obtain ⟨t, -, e⟩ := pyBind_ok e
  obtain ⟨t1, -, e⟩ := pyBind_ok e
  obtain ⟨t2, -, e⟩ := pyBind_ok e
  have h0 : 0 ≤ wire p := by unfold wire; omega
  exact ha.trans ((pySet_frame h0 le_rfl le_rfl e).on fun j h1 h2 => ⟨p, hp, by unfold wire at h1 h2; omega⟩)

theorem cnotCall_stays {svd : SVDOracle} {n p q lo hi : ℤ} (hp : 0 ≤ p) (hq : 0 ≤ q) (h : p ≠ q) (h1 : lo ≤ p)
    (h2 : lo ≤ q) (h3 : p ≤ hi) (h4 : q ≤ hi) : Stays lo hi (Ring.cnotCall svd n p q) :=
  (cnot_stays (g := mkCnot n (.list [p, q])) rfl hp hq h).wider (by omega) (by omega)

theorem swapCall'_stays {svd : SVDOracle} {n p q lo hi : ℤ} (hp : 0 ≤ p) (hq : 0 ≤ q) (h1 : lo ≤ p)
    (h2 : lo ≤ q) (h3 : p ≤ hi) (h4 : q ≤ hi) : Stays lo hi (Ring.swapCall' svd n p q) :=
  (swap_stays (g := mkSwap n (.list [p, q])) rfl hp hq).wider (by omega) (by omega)

theorem wrap_stays {svd : SVDOracle} (n L : ℤ) : Stays 0 (L - 1) (Ring.wrapCnot svd n L) := by
  intro m
  unfold Ring.wrapCnot
  refine (Stays.fold _ _ (fun i hi => ?_) m).bind fun m1 h1 => (Stays.fold _ _ (fun i hi => ?_)).step h1
  · have := mem_pyRange_iff.1 hi
    split
    · exact swapCall'_stays (by omega) (by omega) (by omega) (by omega) (by omega) (by omega)
    · exact cnotCall_stays (by omega) (by omega) (by omega) (by omega) (by omega) (by omega) (by omega)
  · have := mem_pyRangeDown.1 hi
    exact swapCall'_stays (by omega) (by omega) (by omega) (by omega) (by omega) (by omega)

theorem ring_stays {svd : SVDOracle} (r : Ring) (h2 : 2 ≤ r.wires.length) :
    Stays 0 (r.wires.length - 1) (r.TN_operation svd) := by
  intro m
  unfold Ring.TN_operation
  dsimp only
  split
  · refine (TNM.Post.triv _).bind fun _ _ => ?_
    refine (Stays.fold (lo := 0) (hi := r.wires.length - 1) _ _ (fun i hi => ?_) m).bind fun m1 h1 => ?_
    · have := mem_pyRange_iff.1 hi
      exact cnotCall_stays (by omega) (by omega) (by omega) (by omega) (by omega) (by omega) (by omega)
    · split
      · exact .pure h1
      · exact (wrap_stays _ _).step h1
  · refine (TNM.Post.triv _).bind fun _ _ => ?_
    split
    · exact cnotCall_stays (by omega) (by omega) (by omega) (by omega) (by omega) (by omega) (by omega) m
    · refine (wrap_stays _ _ m).bind fun m1 h1 => (Stays.fold _ _ (fun i hi => ?_)).step h1
      have := mem_pyRangeDown.1 hi
      exact cnotCall_stays (by omega) (by omega) (by omega) (by omega) (by omega) (by omega) (by omega)
  · exact post_error

theorem ring_wires {svd : SVDOracle} (r : Ring) (m : List (Tensor ℂ)) :
    TNM.Post (r.TN_operation svd m) (fun _ => r.wires = pyRange r.nqubits) := by
  unfold Ring.TN_operation
  dsimp only
  split
  · refine (TNM.Post.lift _).bind fun _ e => (TNM.Post.triv _).mono fun _ _ => ?_
    by_contra hc
    rw [raiseIf_true hc] at e
    cases e
  · refine (TNM.Post.lift _).bind fun _ e => (TNM.Post.triv _).mono fun _ _ => ?_
    by_contra hc
    rw [raiseIf_true hc] at e
    cases e
  · exact post_error

/-- An operation changes only the sites between its outermost qubits. -/
theorem item_frame {svd : SVDOracle} (it : Item N) (h : it.WF) {o : Op} (ho : buildItem it = .ok o)
    (m : List (Tensor ℂ)) : TNM.Post (o.TN_operation svd m) (FrameOn it.spans m) := by
  have ringCase : ∀ (k : RingKind) (ws : List (Fin N)) (it : Item N), it.qubits = ws → ¬ it.separate → 2 ≤ ws.length →
      TNM.Post ((⟨k, N, wires ws⟩ : Ring).TN_operation svd m) (FrameOn it.spans m) := by
    intro k ws it hq hs h2 s a s' e
    have hw : wires ws = pyRange (N : ℤ) := ring_wires (⟨k, N, wires ws⟩ : Ring) m s a s' e
    have hf := ring_stays (⟨k, N, wires ws⟩ : Ring) (by simpa [wires] using h2) m s a s' e
    refine hf.on fun j h0 h1 => ?_
    have hlen : (ws.length : ℤ) ≤ N := by
      have := congrArg List.length hw
      simp [wires, pyRange] at this
      omega
    have h1' : (j : ℤ) ≤ (ws.length : ℤ) - 1 := by simpa [wires] using h1
    have hj : (j : ℤ) ∈ wires ws := by rw [hw, mem_pyRange_iff]; omega
    obtain ⟨p, hp, hpj⟩ := List.mem_map.1 hj
    have hpj' : (p : ℕ) = j := by unfold wire at hpj; omega
    exact ⟨p, by rw [hq]; exact hp, p, by rw [hq]; exact hp, by omega, by omega, fun _ => rfl⟩
  cases it with
  | gate ins =>
    obtain ⟨g, hg, e⟩ := pyBind_ok ho
    cases e
    exact gate_frame ins h hg m
  | layer k ws p =>
    simp only [buildItem] at ho
    rw [mkSLayer_ok h.2.1 (by rw [layerCls_arity]; exact h.2.2.symm)] at ho
    cases ho
    exact (sLayer_frame _ ws rfl m).mono fun _ hf => hf.mono fun j ⟨p, hp, e⟩ =>
      ⟨p, hp, p, hp, e.le, e.ge, fun _ => rfl⟩
  | hlayer ws =>
    simp only [buildItem] at ho
    rw [mkSLayer_ok h.2 (by simp [LayerCls.arity])] at ho
    cases ho
    exact (sLayer_frame _ ws rfl m).mono fun _ hf => hf.mono fun j ⟨p, hp, e⟩ =>
      ⟨p, hp, p, hp, e.le, e.ge, fun _ => rfl⟩
  | ring ws =>
    simp only [buildItem] at ho
    rw [mkRing_ok h.1 h.2] at ho
    cases ho
    exact ringCase .ring ws _ rfl (fun h => h) h.2
  | ringDag ws =>
    simp only [buildItem] at ho
    rw [mkRing_ok h.1 h.2] at ho
    cases ho
    exact ringCase .dagger ws _ rfl (fun h => h) h.2
  | ring2 ws =>
    simp only [buildItem] at ho
    rw [mkRing_ok h.1 h.2] at ho
    cases ho
    exact post_error
  | basic ws p reps =>
    obtain ⟨b, hb, e⟩ := pyBind_ok ho
    cases e
    exact post_error

/-! ## Circuits -/

theorem circuit_frame {svd : SVDOracle} (l : List (Item N)) (h : ∀ it ∈ l, it.WF) {ops : List Op}
    (hops : l.mapM buildItem = .ok ops) {c : Circuit} (hg : c.gate = ops) (m : List (Tensor ℂ)) :
    TNM.Post (c.TN_evolution svd m) (FrameOn (fun j => ∃ it ∈ l, it.spans j) m) := by
  unfold Circuit.TN_evolution
  refine (TNM.Post.triv _).bind fun _ _ => ?_
  rw [hg]
  refine TNM.Post.foldlM _ _ (fun o ho a ha => ?_) m (.refl _ _)
  split
  · obtain ⟨it, hit, e⟩ := mapM_src hops ho
    exact (item_frame it (h it hit) e a).mono fun _ hf => ha.trans (hf.mono fun j hj => ⟨it, hit, hj⟩)
  · exact post_error

theorem uncrossed {it : Item N} {k : ℕ} (hs : ¬ it.separate) (hk : ¬ it.crosses k) (h0 : 0 < k) :
    ¬ it.spans k ∨ ¬ it.spans (k - 1) := by
  by_contra hc
  push Not at hc
  obtain ⟨⟨p, hp, q, hq, h1, h2, -⟩, p', hp', q', hq', h3, h4, -⟩ := hc
  exact hk ⟨p', hp', q, hq, by omega, h2, hs⟩

theorem bonds_eq {D : ℕ → ℕ} {mps : List (Tensor ℂ)} :
    Bonds N (fun i d => d = D i) mps → ∃ D', HasBonds N D' mps ∧ ∀ i ≤ N, D' i = D i :=
  fun ⟨hl, D', h0, hN, hp, he, hs⟩ => ⟨D', ⟨hl, h0, hN, hp, hs⟩, he⟩

/-- An operation keeps the dimension of the bonds it does not cross. -/
theorem item_bonds {svd : SVDOracle} (hv : ValidSVD svd) (it : Item N) (h : it.WF) (hc : Spec.Item.mpsOp it)
    {o : Op} (ho : buildItem it = .ok o) {D : ℕ → ℕ} (m : List (Tensor ℂ)) (hm : HasBonds N D m) :
    ReturnsOr (fun m' => ∃ D', HasBonds N D' m' ∧ ∀ k ≤ N, ¬ it.crosses k → D' k = D k)
      (o.TN_operation svd m) := by
  obtain ⟨hl, h0, hN, hp, hs⟩ := hm
  have hb : Bonds N (fun i d => d = D i) m := ⟨hl, D, h0, hN, hp, fun _ _ => rfl, hs⟩
  by_cases hsep : it.separate
  · have key : Keeps N (fun i d => d = D i) (o.TN_operation svd) := by
      cases it with
      | layer k ws p =>
        obtain ⟨hN, hw, hp⟩ := h
        simp only [buildItem] at ho
        rw [mkSLayer_ok hw (by rw [layerCls_arity]; exact hp.symm)] at ho
        cases ho
        exact sLayer_keeps _ rfl ws hw rfl (fun i => seqRot k.axes (p.drop (k.axes.length * i)))
          (fun _ hi => wireMat_rep k hi hp)
      | hlayer ws =>
        obtain ⟨hN, hw⟩ := h
        simp only [buildItem] at ho
        rw [mkSLayer_ok hw (by simp [LayerCls.arity])] at ho
        cases ho
        exact sLayer_keeps _ rfl ws hw rfl (fun _ => H) (fun _ _ => ⟨_, rfl, hadamardMat_rep⟩)
      | _ => exact hsep.elim
    refine (key m hb).mono fun m' hb' => ?_
    obtain ⟨D', hD', he⟩ := bonds_eq hb'
    exact ⟨D', hD', fun k hk _ => he k hk⟩
  · obtain ⟨o', ho', -, hk⟩ := item_keeps (P := fun _ d => 0 < d) bondClosed_pos hv it h hc
    rw [ho] at ho'
    cases ho'
    intro s
    rcases hk m ⟨hl, D, h0, hN, hp, fun i _ => hp i, hs⟩ s with ⟨m', s', e, hb'⟩ | he
    · obtain ⟨hl', D', h0', hN', hp', -, hs'⟩ := hb'
      obtain ⟨-, hf⟩ := item_frame it h ho m s m' s' e
      refine .inl ⟨m', s', e, D', ⟨hl', h0', hN', hp', hs'⟩, fun k hk hcr => ?_⟩
      rcases Nat.eq_zero_or_pos k with rfl | hk0
      · rw [h0, h0']
      · rcases hk.lt_or_eq with hkN | rfl
        · rcases uncrossed hsep hcr hk0 with hsp | hsp
          · have e1 := hf k hsp
            rw [List.getElem?_eq_getElem (by omega), List.getElem?_eq_getElem (by omega)] at e1
            have e2 := congrArg Tensor.shape (Option.some.inj e1)
            rw [hs' k (by omega), hs k (by omega)] at e2
            simp only [List.cons.injEq] at e2
            exact e2.2.1
          · have e1 := hf (k - 1) hsp
            rw [List.getElem?_eq_getElem (by omega), List.getElem?_eq_getElem (by omega)] at e1
            have e2 := congrArg Tensor.shape (Option.some.inj e1)
            rw [hs' (k - 1) (by omega), hs (k - 1) (by omega)] at e2
            simp only [List.cons.injEq, Nat.sub_add_cancel hk0] at e2
            exact e2.2.2.1
        · rw [hN, hN']
    · exact .inr he

theorem circuit_bonds {svd : SVDOracle} (hv : ValidSVD svd) (l : List (Item N)) (h : ∀ it ∈ l, it.WF)
    (hc : ∀ it ∈ l, Spec.Item.mpsOp it) {ops : List Op} (hops : l.mapM buildItem = .ok ops) {c : Circuit}
    (hn : c.nqubits = N) (hg : c.gate = ops) {D : ℕ → ℕ} (m : List (Tensor ℂ)) (hm : HasBonds N D m) :
    ReturnsOr (fun m' => ∃ D', HasBonds N D' m' ∧ ∀ k ≤ N, (∀ it ∈ l, ¬ it.crosses k) → D' k = D k)
      (c.TN_evolution svd m) := by
  unfold Circuit.TN_evolution
  rw [raiseIf_false (by simp [hm.1, hn]), TNM.lift_ok_bind, hg]
  refine Spec.ReturnsOr.foldlM _ _ (fun o ho a ha => ?_) m ⟨D, hm, fun _ _ _ => rfl⟩
  obtain ⟨it, hit, e⟩ := mapM_src hops ho
  obtain ⟨o', ho', hsup, -⟩ := item_keeps (P := fun _ d => 0 < d) bondClosed_pos hv it (h it hit) (hc it hit)
  rw [e] at ho'
  cases ho'
  rw [if_pos hsup]
  obtain ⟨D1, hD1, he1⟩ := ha
  refine (item_bonds hv it (h it hit) (hc it hit) e a hD1).mono fun m' => ?_
  rintro ⟨D2, hD2, he2⟩
  exact ⟨D2, hD2, fun k hk hcr => (he2 k hk (hcr it hit)).trans (he1 k hk hcr)⟩

end QTN
