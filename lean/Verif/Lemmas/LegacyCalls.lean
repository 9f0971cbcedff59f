import Verif.Lemmas.Legacy
import Verif.Lemmas.Reject
import Verif.Lemmas.Circ

/-! # Calls of the older circuit class -/

namespace QTN.Legacy

open QTN Finset Spec Complex

variable {N : ℕ}

theorem multi_control_raises (u : Tensor ℂ) (N : ℤ) (cs : List ℤ) (t : ℤ)
    (h : t ∈ cs ∨ cs = [] ∨ (∃ w ∈ t :: cs, w < 0 ∨ N ≤ w)) :
    multi_control_gate u N cs t = .error .valueError := by
  unfold multi_control_gate
  by_cases h1 : N < 1
  · rw [raiseIf_true h1]; rfl
  rw [raiseIf_false h1, Py.ok_bind]
  cases cs with
  | nil => rfl
  | cons c cs =>
    simp only [pyMax, pyMin, Py.ok_bind]
    have hM := foldl_max_ge cs c
    have hm := foldl_min_le cs c
    by_cases h2 : max (cs.foldl max c) t > N - 1
    · rw [raiseIf_true h2]; rfl
    rw [raiseIf_false h2, Py.ok_bind]
    by_cases h3 : min (cs.foldl min c) t < 0
    · rw [raiseIf_true h3]; rfl
    rw [raiseIf_false h3, Py.ok_bind, raiseIf_true]
    · rfl
    rcases h with h | h | ⟨w, hw, h⟩
    · exact ⟨t, h, rfl⟩
    · cases h
    · exfalso
      simp only [List.mem_cons] at hw
      rcases hw with rfl | rfl | hw
      · omega
      · have := hM.1; have := hm.1; omega
      · have := hM.2 w hw; have := hm.2 w hw; omega

theorem addU_n (c : Circ) (p : Py (Tensor ℂ)) : (c.addU p).2.n = c.n := by
  unfold Circ.addU; split <;> rfl

theorem call_n (c : Circ) (k : Call) : (c.call k).2.n = c.n := by
  cases k <;> simp only [Circ.call, Circ.single, Circ.ctrl, Circ.rot2, Circ.addU] <;>
    (repeat' split) <;> rfl

theorem calls_n (c : Circ) (l : List Call) : (c.calls l).n = c.n := by
  induction l generalizing c with
  | nil => rfl
  | cons k l ih => show ((c.call k).2.calls l).n = _; rw [ih, call_n]

theorem forall₂_concat {α β : Type} {R : α → β → Prop} {l : List α} {r : List β}
    (h : List.Forall₂ R l r) (a : α) (b : β) : List.Forall₂ R (l ++ [a]) (r ++ [b]) ↔ R a b := by
  induction h with
  | nil => simp
  | cons h _ ih => simp [h, ih]

/-- Recording a gate and then adding its matrix keeps the lists in step exactly if the matrix could
be formed and is the one of the recorded gate. -/
theorem inStep_add {c : Circ} (h : InStep N c) (g : Name) (w : Wires) (θ : Option ℝ) (p : Py (Tensor ℂ)) :
    InStep N ((c.addGate g w θ).addU p).2 ↔
      ∃ m ins, p = .ok m ∧ entryInstr N ⟨g, θ, w⟩ = some ins ∧ Represents m ins.op := by
  unfold Circ.addU
  cases p with
  | ok m =>
    show List.Forall₂ _ (c.gateList ++ [_]) (c.u ++ [m]) ↔ _
    rw [forall₂_concat h]
    constructor
    · rintro ⟨ins, h1, h2⟩; exact ⟨m, ins, rfl, h1, h2⟩
    · rintro ⟨m', ins, e, h1, h2⟩; cases e; exact ⟨ins, h1, h2⟩
  | error e =>
    constructor
    · intro h'
      have h1 := List.Forall₂.length_eq h
      have h2 := List.Forall₂.length_eq h'
      simp only [Circ.addGate, List.length_append, List.length_singleton] at h2
      omega
    · rintro ⟨m, ins, h, -⟩; cases h

theorem single_step {c : Circ} (hn : c.n = N) (h : InStep N c) {g : Name} {m : Tensor ℂ} {θ : Option ℝ}
    {M : Mat2} (hm : Represents2 m M) (t : ℤ)
    (hi : ∀ i : Fin N, ∃ ins, entryInstr N ⟨g, θ, .int (wire i)⟩ = some ins ∧ ins.op = onQubit i M) :
    InStep N (c.single g m θ t).2 := by
  unfold Circ.single
  split_ifs with ht
  · rw [hn] at ht
    obtain ⟨i, rfl⟩ := qubitAt_range ht
    rw [inStep_add h]
    obtain ⟨U, hU, rU⟩ := gate_expand_rep i hm
    obtain ⟨ins, h1, h2⟩ := hi i
    exact ⟨U, ins, by rw [hn]; exact hU, h1, by rw [h2]; exact rU⟩
  · exact h

theorem qubitAt_bounds {k : ℤ} {q : Fin N} (h : qubitAt N k = some q) :
    -(N : ℤ) ≤ k ∧ k < N ∧ (((q : ℕ) : ℤ) = k ∨ ((q : ℕ) : ℤ) = k + N) := by
  unfold qubitAt at h
  split_ifs at h with h1 h2
  · cases h; simp only; omega
  · cases h; simp only; omega

theorem ctrl_step {c : Circ} (hn : c.n = N) (h : InStep N c) {g : Name} {m : Tensor ℂ}
    {M : Mat2} (hm : Represents2 m M) (k t : ℤ)
    (hi : ∀ p q : Fin N, p ≠ q → ∀ k, qubitAt N k = some p →
      ∃ ins, entryInstr N ⟨g, none, .list [k, wire q]⟩ = some ins ∧ ins.op = controlled [p] q M)  :
    InStep N (c.ctrl g m k t).2 ↔
      (k ≤ N → 0 ≤ t → t < N → -(N : ℤ) ≤ k ∧ k < N ∧ k ≠ t ∧ k + N ≠ t) := by
  unfold Circ.ctrl
  split_ifs with ha
  · rw [hn] at ha
    obtain ⟨q, rfl⟩ := qubitAt_range ha.2
    rw [inStep_add h, hn]
    constructor
    · rintro ⟨m', ins, h1, h2, -⟩ - - -
      unfold entryInstr at h2
      simp only [Option.bind_eq_some_iff] at h2
      obtain ⟨p, hp, q', hq, h2⟩ := h2
      rw [qubitAt_wire] at hq
      cases hq
      split_ifs at h2 with hpq
      have := qubitAt_bounds hp
      have hne : (p : ℕ) ≠ (q : ℕ) := fun e => hpq (Fin.ext e)
      have := p.2
      simp only [wire] at ha ⊢
      omega
    · intro hg
      obtain ⟨g1, g2, g3, g4⟩ := hg ha.1 ha.2.1 ha.2.2
      obtain ⟨p, hp⟩ : ∃ p, qubitAt N k = some p := by
        unfold qubitAt
        by_cases h0 : 0 ≤ k
        · rw [dif_pos ⟨h0, g2⟩]; exact ⟨_, rfl⟩
        · rw [dif_neg (by omega), dif_pos ⟨g1, by omega⟩]; exact ⟨_, rfl⟩
      have hpq : p ≠ q := by
        rintro rfl
        have := qubitAt_bounds hp
        simp only [wire] at g3 g4
        omega
      obtain ⟨U, hU, rU⟩ := two_control_rep hp hpq hm
      obtain ⟨ins, i1, i2⟩ := hi p q hpq k hp
      exact ⟨U, ins, hU, i1, by rw [i2]; exact rU⟩
  · rw [hn] at ha
    exact ⟨fun _ a b c => absurd ⟨a, b, c⟩ ha, fun _ => h⟩

theorem rot2_step {c : Circ} (hn : c.n = N) (h : InStep N c) {g : Name} {P : Tensor ℂ}
    {M : Mat2} (hm : Represents2 P M) (d : Bool) (a b : ℤ) (φ : ℝ)
    (hi : ∀ p q : Fin N, p ≠ q → ∃ ins, entryInstr N ⟨g, some φ, .list [wire p, wire q]⟩ = some ins ∧
      ins.op = Spec.rot2 M φ p q)  :
    InStep N (c.rot2 g P d a b φ).2 ↔ (a ≤ N → second a b ≤ N → (d = true → a ≠ second a b) →
      0 ≤ a ∧ a < N ∧ 0 ≤ second a b ∧ second a b < N ∧ a ≠ second a b) := by
  have e : c.rot2 g P d a b φ = (if a ≤ c.n ∧ second a b ≤ c.n ∧ (d = true → a ≠ second a b) then
      (c.addGate g (.list [a, second a b]) (some φ)).addU (two_qubit_rotation_gate φ c.n a (second a b) P)
    else (.error .assertionError, c)) := rfl
  rw [e]
  generalize second a b = b'
  split_ifs with ha
  · rw [hn] at ha
    rw [inStep_add h, hn]
    constructor
    · rintro ⟨m', ins, h1, h2, -⟩ - - -
      by_contra hc
      rw [rotation_error hc] at h1
      cases h1
    · intro hg
      obtain ⟨h1, h2, h3, h4, h5⟩ := hg ha.1 ha.2.1 ha.2.2
      obtain ⟨p, rfl⟩ := qubitAt_range ⟨h1, h2⟩
      obtain ⟨q, rfl⟩ := qubitAt_range ⟨h3, h4⟩
      have hpq : p ≠ q := by rintro rfl; exact h5 rfl
      obtain ⟨U, hU, rU⟩ := rotation_rep hpq hm φ
      obtain ⟨ins, i1, i2⟩ := hi p q hpq
      exact ⟨U, ins, hU, i1, by rw [i2]; exact rU⟩
  · rw [hn] at ha
    exact ⟨fun _ x y z => absurd ⟨x, y, z⟩ ha, fun _ => h⟩

theorem list_wires (cs : List ℤ) (h : ∀ c ∈ cs, 0 ≤ c ∧ c < N) : ∃ l : List (Fin N), cs = wireList l := by
  induction cs with
  | nil => exact ⟨[], rfl⟩
  | cons c cs ih =>
    obtain ⟨l, rfl⟩ := ih (fun x hx => h x (by simp [hx]))
    obtain ⟨q, rfl⟩ := qubitAt_range (h c (by simp))
    exact ⟨q :: l, rfl⟩

/-- `multi_control_cnot` succeeds exactly on valid arguments. -/
theorem mcnot_ok_iff (cs : List ℤ) (t : ℤ) :
    (∃ m, multi_control_gate xMat N cs t = .ok m) ↔
      (cs ≠ [] ∧ (∀ c ∈ t :: cs, 0 ≤ c ∧ c < N) ∧ t ∉ cs) := by
  constructor
  · rintro ⟨m, hm⟩
    by_contra hc
    have := multi_control_raises xMat N cs t (by
      by_contra hno
      apply hc
      push Not at hno
      exact ⟨hno.2.1, fun c hcm => hno.2.2 c hcm, hno.1⟩)
    rw [hm] at this; cases this
  · rintro ⟨h1, h2, h3⟩
    obtain ⟨l, rfl⟩ := list_wires cs (fun c hc => h2 c (by simp [hc]))
    obtain ⟨q, rfl⟩ := qubitAt_range (h2 t (by simp))
    obtain ⟨U, hU, -⟩ := multi_control_rep (cs := l) (t := q) (by rintro rfl; exact h1 rfl)
      (fun hm => h3 (List.mem_map.2 ⟨q, hm, rfl⟩)) xMat_rep
    exact ⟨U, hU⟩

theorem mcnot_step {c : Circ} (hn : c.n = N) (h : InStep N c) (cs : List ℤ) (t : ℤ) :
    InStep N (c.call (.mcnot cs t)).2 ↔ Good N (.mcnot cs t) := by
  show _ ↔ ¬ _
  rw [← mcnot_ok_iff]
  show InStep N (c.addU (multi_control_gate xMat c.n cs t)).2 ↔ _
  rw [hn]
  cases hp : multi_control_gate xMat N cs t with
  | error e => simpa [Circ.addU] using h
  | ok m =>
    constructor
    · intro h'
      have h1 := List.Forall₂.length_eq h
      have h2 := List.Forall₂.length_eq h'
      simp only [Circ.addU, List.length_append, List.length_singleton] at h2
      omega
    · intro h'; exact absurd ⟨m, rfl⟩ h'

theorem step_iff {c : Circ} (hn : c.n = N) (h : InStep N c) (k : Call) :
    InStep N (c.call k).2 ↔ Good N k := by
  have e1 : ∀ (i : Fin N) (g : Name) (θ : Option ℝ), entryInstr N ⟨g, θ, .int (wire i)⟩ =
      (match g, θ with
        | .rx, some φ => some (.rx φ i)
        | .ry, some φ => some (.ry φ i)
        | .rz, some φ => some (.rz φ i)
        | .X, none => some (.x i)
        | .Y, none => some (.y i)
        | .Z, none => some (.z i)
        | .H, none => some (.h i)
        | _, _ => none) := fun i g θ => by
    unfold entryInstr; simp only [qubitAt_wire, Option.bind_some]; cases g <;> cases θ <;> rfl
  have e2 : ∀ (k : ℤ) (p q : Fin N) (g : Name) (θ : Option ℝ), qubitAt N k = some p → p ≠ q →
      entryInstr N ⟨g, θ, .list [k, wire q]⟩ =
      (match g, θ with
        | .cnot, none => some (.cnot p q)
        | .cz, none => some (.cz p q)
        | .rxx, some φ => some (.rxx φ p q)
        | .ryy, some φ => some (.ryy φ p q)
        | .rzz, some φ => some (.rzz φ p q)
        | _, _ => none) := fun k p q g θ hk hpq => by
    unfold entryInstr; simp only [qubitAt_wire, hk, Option.bind_some, if_neg hpq]; cases g <;> cases θ <;> rfl
  cases k with
  | rx t φ => exact iff_of_true (single_step hn h (rxMat_rep φ) t (fun i => ⟨.rx φ i, e1 i _ _, rfl⟩)) trivial
  | ry t φ => exact iff_of_true (single_step hn h (ryMat_rep φ) t (fun i => ⟨.ry φ i, e1 i _ _, rfl⟩)) trivial
  | rz t φ => exact iff_of_true (single_step hn h (rzMat_rep φ) t (fun i => ⟨.rz φ i, e1 i _ _, rfl⟩)) trivial
  | x t => exact iff_of_true (single_step hn h xMat_rep t (fun i => ⟨.x i, e1 i _ _, rfl⟩)) trivial
  | y t => exact iff_of_true (single_step hn h yMat_rep t (fun i => ⟨.y i, e1 i _ _, rfl⟩)) trivial
  | z t => exact iff_of_true (single_step hn h zMat_rep t (fun i => ⟨.z i, e1 i _ _, rfl⟩)) trivial
  | h t => exact iff_of_true (single_step hn h hMat_rep t (fun i => ⟨.h i, e1 i _ _, rfl⟩)) trivial
  | cnot k t => exact ctrl_step hn h xMat_rep k t (fun p q hpq k hk => ⟨.cnot p q, e2 k p q _ _ hk hpq, rfl⟩)
  | cz k t => exact ctrl_step hn h zMat_rep k t (fun p q hpq k hk => ⟨.cz p q, e2 k p q _ _ hk hpq, rfl⟩)
  | rxx a b φ =>
    refine (rot2_step hn h xMat_rep false a b φ
      (fun p q hpq => ⟨.rxx φ p q, e2 _ p q _ _ (qubitAt_wire p) hpq, rfl⟩)).trans ?_
    show _ ↔ (_ → _ → _)
    simp
  | rzz a b φ =>
    refine (rot2_step hn h zMat_rep false a b φ
      (fun p q hpq => ⟨.rzz φ p q, e2 _ p q _ _ (qubitAt_wire p) hpq, rfl⟩)).trans ?_
    show _ ↔ (_ → _ → _)
    simp
  | ryy a b φ =>
    refine (rot2_step hn h yMat_rep true a b φ
      (fun p q hpq => ⟨.ryy φ p q, e2 _ p q _ _ (qubitAt_wire p) hpq, rfl⟩)).trans ?_
    show _ ↔ (_ → _ → _ → _)
    constructor
    · intro h' a1 a2 a3
      have := h' a1 a2 (fun _ => a3)
      exact ⟨this.1, this.2.1, this.2.2.1, this.2.2.2.1⟩
    · intro h' a1 a2 a3
      have := h' a1 a2 (a3 rfl)
      exact ⟨this.1, this.2.1, this.2.2.1, this.2.2.2, a3 rfl⟩
  | mcnot cs t => exact mcnot_step hn h cs t

/-! ## Valid calls and the product -/

/-- A valid call on the gates of the older class returns, and the matrix it appends is the one of the
gate. -/
theorem call_rep {c : Circ} (hn : c.n = N) (ins : Instr N) (hw : ins.WF) (h0 : HasNext ins)
    {k : Call} (hk : legacyCall ins = some k) :
    ∃ m, (c.call k).1 = .ok () ∧ (c.call k).2.u = c.u ++ [m] ∧ Represents m (readAs ins).op := by
  have hadd : ∀ (c' : Circ) (p : Py (Tensor ℂ)) (M : QOp N), c'.u = c.u → Computes p M →
      ∃ m, (c'.addU p).1 = .ok () ∧ (c'.addU p).2.u = c.u ++ [m] ∧ Represents m M := by
    rintro c' p M hu ⟨m, rfl, hm⟩
    exact ⟨m, rfl, by simp [Circ.addU, hu], hm⟩
  have hsingle : ∀ (g : Name) (m : Tensor ℂ) (θ : Option ℝ) (M : Mat2) (i : Fin N), Represents2 m M →
      ∃ U, (c.single g m θ (wire i)).1 = .ok () ∧ (c.single g m θ (wire i)).2.u = c.u ++ [U] ∧
        Represents U (onQubit i M) := by
    intro g m θ M i hm
    unfold Circ.single
    rw [if_pos (by rw [hn]; have := i.2; simp only [wire]; omega)]
    exact hadd _ _ _ rfl (by rw [hn]; exact gate_expand_rep i hm)
  have hctrl : ∀ (g : Name) (m : Tensor ℂ) (M : Mat2) (p q : Fin N), p ≠ q → Represents2 m M →
      ∃ U, (c.ctrl g m (wire p) (wire q)).1 = .ok () ∧ (c.ctrl g m (wire p) (wire q)).2.u = c.u ++ [U] ∧
        Represents U (controlled [p] q M) := by
    intro g m M p q hpq hm
    unfold Circ.ctrl
    rw [if_pos (by rw [hn]; have := p.2; have := q.2; simp only [wire]; omega)]
    exact hadd _ _ _ rfl (by rw [hn]; exact two_control_rep (qubitAt_wire p) hpq hm)
  have hrot : ∀ (g : Name) (P : Tensor ℂ) (M : Mat2) (d : Bool) (p : Fin N) (b : ℤ) (q : Fin N) (φ : ℝ),
      p ≠ q → second (wire p) b = wire q →
      Represents2 P M → ∃ U, (c.rot2 g P d (wire p) b φ).1 = .ok () ∧
        (c.rot2 g P d (wire p) b φ).2.u = c.u ++ [U] ∧ Represents U (Spec.rot2 M φ p q) := by
    intro g P M d p b q φ hpq e' hm
    have e : c.rot2 g P d (wire p) b φ =
      (if wire p ≤ c.n ∧ second (wire p) b ≤ c.n ∧ (d = true → wire p ≠ second (wire p) b) then
        (c.addGate g (.list [wire p, second (wire p) b]) (some φ)).addU
          (two_qubit_rotation_gate φ c.n (wire p) (second (wire p) b) P)
      else (.error .assertionError, c)) := rfl
    rw [e, e', if_pos (by
      rw [hn]; have := p.2; have := q.2
      have : (p : ℕ) ≠ (q : ℕ) := fun e => hpq (Fin.ext e)
      simp only [wire]
      refine ⟨by omega, by omega, fun _ => by omega⟩)]
    exact hadd _ _ _ rfl (by rw [hn]; exact rotation_rep hpq hm φ)
  have hrot' : ∀ (g : Name) (P : Tensor ℂ) (M : Mat2) (d : Bool) (p q : Fin N) (φ : ℝ) (f : Fin N → Instr N),
      p ≠ q → ((q : ℕ) = 0 → p + 1 < N) → Represents2 P M → (∀ q, (f q).op = Spec.rot2 M φ p q) →
      ∃ U, (c.rot2 g P d (wire p) (wire q) φ).1 = .ok () ∧
        (c.rot2 g P d (wire p) (wire q) φ).2.u = c.u ++ [U] ∧
        Represents U (if h : (q : ℕ) = 0 ∧ p + 1 < N then f ⟨p + 1, h.2⟩ else f q).op := by
    intro g P M d p q φ f hpq hnx hm hf
    by_cases hq : (q : ℕ) = 0
    · rw [dif_pos ⟨hq, hnx hq⟩, hf]
      refine hrot g P M d p (wire q) ⟨p + 1, hnx hq⟩ φ (fun e => ?_) ?_ hm
      · have := congrArg Fin.val e; simp only at this; omega
      · rw [second, if_pos (by simp only [wire]; omega)]
        simp only [wire]; push_cast; rfl
    · rw [dif_neg (fun h => hq h.1), hf]
      exact hrot g P M d p (wire q) q φ hpq (if_neg (by simp only [wire]; omega)) hm
  cases ins <;> simp only [legacyCall, Option.some.injEq, reduceCtorEq] at hk <;> subst hk
  · exact hsingle _ _ _ _ _ hMat_rep
  · exact hsingle _ _ _ _ _ xMat_rep
  · exact hsingle _ _ _ _ _ yMat_rep
  · exact hsingle _ _ _ _ _ zMat_rep
  · exact hsingle _ _ _ _ _ (rxMat_rep _)
  · exact hsingle _ _ _ _ _ (ryMat_rep _)
  · exact hsingle _ _ _ _ _ (rzMat_rep _)
  · exact hrot' _ _ _ _ _ _ _ (fun q => .rxx _ _ q) hw h0 xMat_rep (fun _ => rfl)
  · exact hrot' _ _ _ _ _ _ _ (fun q => .ryy _ _ q) hw h0 yMat_rep (fun _ => rfl)
  · exact hrot' _ _ _ _ _ _ _ (fun q => .rzz _ _ q) hw h0 zMat_rep (fun _ => rfl)
  · exact hctrl _ _ _ _ _ hw xMat_rep
  · exact hctrl _ _ _ _ _ hw zMat_rep
  · rename_i cs t
    exact hadd c _ _ rfl (by rw [hn]; exact multi_control_rep hw.1 hw.2 xMat_rep)

theorem U_of_u (c : Circ) (hn : c.n = N) (Ms : List (QOp N)) (h : List.Forall₂ (fun m M => Represents m M) c.u Ms) :
    Computes c.U (timeOrdered Ms) := by
  have left : ∀ (l : List (Tensor ℂ)) (Ms : List (QOp N)),
      List.Forall₂ (fun m M => Represents m M) l Ms → ∀ acc A, Represents acc A →
      ∃ r, l.foldlM (fun acc m => if true then Tensor.matmul m acc else acc.matmul m) acc = .ok r ∧
        Represents r (timeOrdered Ms * A) := by
    intro l Ms h
    induction h with
    | nil => intro acc A hA; exact ⟨acc, rfl, by simpa using hA⟩
    | cons h0 _ ih =>
      intro acc A hA
      obtain ⟨v, hv, rv⟩ := h0.matmul hA
      obtain ⟨r, hr, rr⟩ := ih v _ rv
      refine ⟨r, ?_, ?_⟩
      · rw [List.foldlM_cons, if_pos rfl, hv, Py.ok_bind, hr]
      · rw [timeOrdered_cons, Matrix.mul_assoc]; exact rr
  obtain ⟨r, hr, rr⟩ := left c.u Ms h _ _ (represents_eye (N := N))
  rw [mul_one] at rr
  refine ⟨r, ?_, rr⟩
  unfold Circ.U Circ.gate_sequence_product
  rw [hn]
  exact hr

/-! ## Exceptions -/

/-- The exception, if any, is not an `AssertionError`. -/
def NoAssert {α : Type} (p : Py α) : Prop := p ≠ .error .assertionError

theorem NoAssert.ok {α : Type} (a : α) : NoAssert (.ok a : Py α) := nofun

theorem NoAssert.bind {α β : Type} {p : Py α} {f : α → Py β} (hp : NoAssert p) (hf : ∀ a, NoAssert (f a)) :
    NoAssert (p >>= f) := by
  cases p with
  | ok a => exact hf a
  | error e => intro h; apply hp; cases h; rfl

theorem NoAssert.raiseIf {c : Prop} [Decidable c] : NoAssert (raiseIf c .valueError) := by
  unfold QTN.raiseIf NoAssert
  split_ifs <;> nofun

theorem NoAssert.pySet {α : Type} (l : List α) (i : ℤ) (v : α) : NoAssert (pySet l i v) := by
  unfold QTN.pySet
  refine NoAssert.bind ?_ (fun _ => NoAssert.ok _)
  unfold wrapIdx NoAssert
  split_ifs <;> nofun

theorem NoAssert.add (a b : Tensor ℂ) : NoAssert (a.add b) := by
  unfold Tensor.add NoAssert; split_ifs <;> nofun

theorem NoAssert.sub (a b : Tensor ℂ) : NoAssert (a.sub b) := by
  unfold Tensor.sub NoAssert; split_ifs <;> nofun

theorem NoAssert.multi_kron (l : List (Tensor ℂ)) : NoAssert (multi_kron l) :=
  .bind .raiseIf fun _ => .ok _

theorem NoAssert.foldlM {α β : Type} {f : β → α → Py β} (hf : ∀ b a, NoAssert (f b a)) (l : List α) (b : β) :
    NoAssert (l.foldlM f b) := by
  induction l generalizing b with
  | nil => exact .ok _
  | cons a l ih => rw [List.foldlM_cons]; exact .bind (hf b a) ih

theorem NoAssert.pyMax (l : List ℤ) : NoAssert (pyMax l) := by
  unfold QTN.pyMax NoAssert; split <;> nofun

theorem NoAssert.pyMin (l : List ℤ) : NoAssert (pyMin l) := by
  unfold QTN.pyMin NoAssert; split <;> nofun

theorem expand_noAssert (u : Tensor ℂ) (N t : ℤ) : NoAssert (gate_expand_1toN u N t) :=
  .bind .raiseIf fun _ => .bind .raiseIf fun _ => .bind (.pySet _ _ _) fun _ => .multi_kron _

theorem control_noAssert (u : Tensor ℂ) (N k t : ℤ) : NoAssert (two_qubit_control_gate u N k t) :=
  .bind .raiseIf fun _ => .bind .raiseIf fun _ => .bind .raiseIf fun _ => .bind .raiseIf fun _ =>
    .bind (.pySet _ _ _) fun _ => .bind (.pySet _ _ _) fun _ => .bind (.pySet _ _ _) fun _ =>
    .bind (.multi_kron _) fun _ => .bind (.multi_kron _) fun _ => .add _ _

theorem rotation_noAssert (θ : ℝ) (N a b : ℤ) (P : Tensor ℂ) : NoAssert (two_qubit_rotation_gate θ N a b P) :=
  .bind .raiseIf fun _ => .bind .raiseIf fun _ => .bind .raiseIf fun _ =>
    .bind (.pySet _ _ _) fun _ => .bind (.pySet _ _ _) fun _ =>
    .bind (.multi_kron _) fun _ => .bind (.multi_kron _) fun _ => .sub _ _

theorem multi_noAssert (u : Tensor ℂ) (N : ℤ) (cs : List ℤ) (t : ℤ) : NoAssert (multi_control_gate u N cs t) :=
  .bind .raiseIf fun _ => .bind (.pyMax _) fun _ => .bind .raiseIf fun _ => .bind (.pyMin _) fun _ =>
    .bind .raiseIf fun _ => .bind .raiseIf fun _ => .bind (.foldlM (fun _ _ => .pySet _ _ _) _ _) fun _ =>
    .bind (.pySet _ _ _) fun _ => .bind (.foldlM (fun _ _ => .pySet _ _ _) _ _) fun _ =>
    .bind (.multi_kron _) fun _ => .bind (.multi_kron _) fun _ => .bind (.sub _ _) fun _ =>
    .bind (.multi_kron _) fun _ => .add _ _

/-- What a call can do: return with one more matrix, fail an assertion and change nothing, or fail
later, with the gate recorded (except for `multi_control_cnot`) but no matrix added. -/
def Outcome (c : Circ) (k : Call) (r : Py Unit × Circ) : Prop :=
  (∃ m, r.1 = .ok () ∧ r.2.u = c.u ++ [m]) ∨
  (r.1 = .error .assertionError ∧ r.2 = c) ∨
  (∃ err, r.1 = .error err ∧ err ≠ .assertionError ∧ r.2.u = c.u ∧
    ((∃ cs t, k = .mcnot cs t ∧ r.2 = c) ∨ ((∀ cs t, k ≠ .mcnot cs t) ∧ ∃ e, r.2.gateList = c.gateList ++ [e])))

theorem outcome_ite {c : Circ} {k : Call} {P : Prop} [Decidable P] (hk : ∀ cs t, k ≠ .mcnot cs t)
    {g : Name} {w : Wires} {θ : Option ℝ} {p : Py (Tensor ℂ)} (hp : NoAssert p) :
    Outcome c k (if P then (c.addGate g w θ).addU p else (.error .assertionError, c)) := by
  split_ifs
  · cases p with
    | ok m => exact .inl ⟨m, rfl, rfl⟩
    | error e => exact .inr (.inr ⟨e, rfl, fun h => hp (by rw [h]), rfl, .inr ⟨hk, _, rfl⟩⟩)
  · exact .inr (.inl ⟨rfl, rfl⟩)

theorem call_outcome (c : Circ) (k : Call) : Outcome c k (c.call k) := by
  cases k with
  | mcnot cs t =>
    have hp := multi_noAssert xMat c.n cs t
    show Outcome c _ (c.addU (multi_control_gate xMat c.n cs t))
    cases h : multi_control_gate xMat c.n cs t with
    | ok m => exact .inl ⟨m, rfl, rfl⟩
    | error e => exact .inr (.inr ⟨e, rfl, fun h' => hp (by rw [h, h']), rfl, .inl ⟨cs, t, rfl, rfl⟩⟩)
  | cnot | cz => exact outcome_ite (fun _ _ h => by cases h) (control_noAssert _ _ _ _)
  | rxx | ryy | rzz => exact outcome_ite (fun _ _ h => by cases h) (rotation_noAssert _ _ _ _ _)
  | _ => exact outcome_ite (fun _ _ h => by cases h) (expand_noAssert _ _ _)

/-! ## Rotations on different pairs differ -/

theorem onQubit_ne {q q' : Fin N} (h : q ≠ q') {P : Mat2} (hP : P 1 0 ≠ 0 ∨ P 1 1 ≠ P 0 0) :
    onQubit q P ≠ onQubit q' P := by
  intro he
  rcases hP with hP | hP
  · have := congrFun (congrFun he (Function.update (fun _ => 0) q 1)) (fun _ => 0)
    unfold onQubit at this
    rw [if_pos (fun j hj => by rw [Function.update_of_ne hj]),
      if_neg (fun hc => by simpa using hc q h)] at this
    simp only [Function.update_self] at this
    exact hP this
  · have := congrFun (congrFun he (Function.update (fun _ => 0) q 1)) (Function.update (fun _ => 0) q 1)
    unfold onQubit at this
    rw [if_pos (fun _ _ => rfl), if_pos (fun _ _ => rfl)] at this
    simp only [Function.update_self, Function.update_of_ne h.symm] at this
    exact hP this

theorem rot2_ne {p q q' : Fin N} (hq : q ≠ q') {P : Mat2} (hP2 : P * P = 1)
    (hP : P 1 0 ≠ 0 ∨ P 1 1 ≠ P 0 0) {φ : ℝ} (hφ : Real.sin (φ / 2) ≠ 0) :
    Spec.rot2 P φ p q ≠ Spec.rot2 P φ p q' := by
  intro h
  unfold Spec.rot2 at h
  have h := sub_right_injective h
  have hs : I * ((Real.sin (φ / 2) : ℝ) : ℂ) ≠ 0 := mul_ne_zero I_ne_zero (by exact_mod_cast hφ)
  have h := smul_right_injective _ hs h
  apply onQubit_ne hq hP
  have e : ∀ q, onQubit q P = onQubit p P * (onQubit p P * onQubit q P) := by
    intro q
    rw [← Matrix.mul_assoc, onQubit_mul, hP2]
    rw [onQubit_one, one_mul]
  rw [e q, e q', h]

end QTN.Legacy
