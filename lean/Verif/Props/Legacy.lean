import Verif.Lemmas.LegacyCalls
import Verif.Props.Circuit

/-! # Properties C47–C49: the older circuit class -/

namespace QTN.Props

open QTN QTN.Spec QTN.Legacy Matrix Complex

variable {N : ℕ}

/-- The object and the calls made on it, in order: every call returned normally. -/
def AllReturn (c : Circ) (ks : List Call) : Prop :=
  ∀ pre k post, ks = pre ++ k :: post → ((c.calls pre).call k).1 = .ok ()

theorem calls_rep (l : List (Instr N)) (hw : ∀ ins ∈ l, ins.WF) (hx : ∀ ins ∈ l, HasNext ins)
    (ks : List Call) (hk : l.mapM legacyCall = some ks) (c : Circ) (hn : c.n = N) (Ms : List (QOp N))
    (hu : List.Forall₂ (fun m M => Represents m M) c.u Ms) :
    AllReturn c ks ∧ List.Forall₂ (fun m M => Represents m M) (c.calls ks).u
      (Ms ++ l.map (fun ins => (readAs ins).op)) := by
  induction l generalizing ks c Ms with
  | nil =>
    cases hk
    refine ⟨fun pre k post h => ?_, by simpa [Circ.calls] using hu⟩
    simp at h
  | cons ins l ih =>
    simp only [List.mapM_cons, Option.bind_eq_bind, Option.bind_eq_some_iff, Option.pure_def,
      Option.some.injEq] at hk
    obtain ⟨k, hk, ks', hks, rfl⟩ := hk
    obtain ⟨m, h1, h2, h3⟩ := call_rep hn ins (hw _ (by simp)) (hx _ (by simp)) hk
    obtain ⟨ha, hf⟩ := ih (fun i hi => hw i (by simp [hi])) (fun i hi => hx i (by simp [hi])) ks' hks
      (c.call k).2 (by rw [call_n, hn]) (Ms ++ [(readAs ins).op])
      (by rw [h2]; exact List.rel_append hu (.cons h3 .nil))
    refine ⟨fun pre k' post h => ?_, by simpa [Circ.calls] using hf⟩
    cases pre with
    | nil => simp only [List.nil_append, List.cons.injEq] at h; rw [← h.1]; exact h1
    | cons a pre =>
      simp only [List.cons_append, List.cons.injEq] at h
      rw [← h.1]
      exact ha pre k' post h.2

/-! ## C47 -/

/-- C47, general form: for every sequence of valid gates that the older class has (and no two-qubit
rotation on the last qubit and qubit 0), all calls return, and `U()` is the time-ordered product of
the gates with a second qubit 0 of a two-qubit rotation read as the successor of the first qubit. -/
theorem C47_product (l : List (Instr N)) (hw : ∀ ins ∈ l, ins.WF) (hx : ∀ ins ∈ l, HasNext ins)
    (ks : List Call) (hk : l.mapM legacyCall = some ks) :
    AllReturn (new N) ks ∧
      Computes ((new N).calls ks).U (timeOrdered (l.map (fun ins => (readAs ins).op))) := by
  obtain ⟨h1, h2⟩ := calls_rep l hw hx ks hk (new N) rfl [] .nil
  exact ⟨h1, U_of_u _ (calls_n _ _) _ h2⟩

/-- C47, partial (the full statement has no hypothesis `h0`; it is false without, see `C47_wrong`):
for every sequence of valid gates that the older class has, without two-qubit rotations whose second
qubit is 0, all calls return and `U()` of the two circuit classes is the same tensor. -/
theorem C47_same_U_partial (l : List (Instr N)) (hw : ∀ ins ∈ l, ins.WF) (h0 : ∀ ins ∈ l, ¬ SecondZero ins)
    (ks : List Call) (hk : l.mapM legacyCall = some ks) :
    AllReturn (new N) ks ∧ ∃ ops T, (l.map Item.gate).mapM buildItem = .ok ops ∧
      ((new N).calls ks).U = .ok T ∧ (circ N ops).U = .ok T := by
  have hr : ∀ ins ∈ l, readAs ins = ins := by
    intro ins hi
    have := h0 ins hi
    cases ins <;> first | rfl | exact dif_neg (fun h => this h.1)
  obtain ⟨h1, T, hT, rT⟩ := C47_product l hw (fun ins hi => by
    have := h0 ins hi
    cases ins <;> first | trivial | exact fun h => absurd h this) ks hk
  obtain ⟨ops, ho, ⟨T', hT', rT'⟩, -⟩ := C13_items N (l.map Item.gate) (by
    intro it hit
    obtain ⟨ins, hi, rfl⟩ := List.mem_map.1 hit
    exact hw ins hi)
  refine ⟨h1, ops, T, ho, hT, ?_⟩
  have e : circuitOp (l.map Item.gate) = timeOrdered (l.map (fun ins => (readAs ins).op)) := by
    rw [circuitOp, List.map_map]
    congr 1
    apply List.map_congr_left
    intro ins hi
    rw [hr ins hi]; rfl
  rw [hT', rT'.ext (e ▸ rT)]

/-- C47 is false: `rxx(p, 0, φ)` with a successor `p + 1` of `p` gives a different `U()`. -/
theorem C47_wrong (p q : Fin N) (hq : (q : ℕ) = 0) (hp : (p : ℕ) ≠ 0) (hx : p + 1 < N) (φ : ℝ)
    (hφ : Real.sin (φ / 2) ≠ 0) :
    ∃ ops T T', [Item.gate (.rxx φ p q)].mapM buildItem = .ok ops ∧
      ((new N).calls [.rxx (wire p) (wire q) φ]).U = .ok T ∧ (circ N ops).U = .ok T' ∧ T ≠ T' := by
  have hpq : p ≠ q := fun h => hp (by rw [h, hq])
  obtain ⟨-, T, hT, rT⟩ := C47_product [.rxx φ p q] (by
    intro i hi; simp only [List.mem_singleton] at hi; subst hi; exact hpq) (by
    intro i hi; simp only [List.mem_singleton] at hi; subst hi; exact fun _ => hx) _ rfl
  obtain ⟨ops, ho, ⟨T', hT', rT'⟩, -⟩ := C13_items N [Item.gate (.rxx φ p q)] (by
    intro i hi; simp only [List.mem_singleton] at hi; subst hi; exact hpq)
  refine ⟨ops, T, T', ho, hT, hT', ?_⟩
  rintro rfl
  have := rT.unique rT'
  simp only [circuitOp, List.map_cons, List.map_nil, timeOrdered_cons, timeOrdered_nil, one_mul] at this
  have e : readAs (.rxx φ p q) = .rxx φ p ⟨p + 1, hx⟩ := dif_pos ⟨hq, hx⟩
  rw [e] at this
  refine rot2_ne (P := X) (p := p) (q := ⟨p + 1, hx⟩) (q' := q) ?_ ?_ (.inl ?_) hφ this
  · intro h; have := congrArg Fin.val h; simp only at this; omega
  · simp [X, Matrix.one_fin_two]
  · simp [X]

example : ([.h 0, .rxx 0.3 0 2, .cnot 2 0, .mcnot [0, 1] 2, .ry 1 1] : List (Instr 3)).mapM legacyCall =
    some [.h 0, .rxx 0 2 0.3, .cnot 2 0, .mcnot [0, 1] 2, .ry 1 1] := rfl

example : ∀ ins ∈ ([.h 0, .rxx 0.3 0 2, .cnot 2 0, .mcnot [0, 1] 2, .ry 1 1] : List (Instr 3)),
    ins.WF ∧ ¬ SecondZero ins := by
  simp [Instr.WF, SecondZero]

example : ((1 : Fin 3) : ℕ) + 1 < 3 ∧ Real.sin (Real.pi / 2) ≠ 0 := ⟨by decide, by simp⟩

/-! ## C48 -/

/-- C48, one call (the full statement has no condition on the call): if `gate_list` and `u` are in
step, they are in step after a call exactly if the call is rejected by an assertion, is a valid call
of a method that records a gate, or a rejected call of `multi_control_cnot`. -/
theorem C48_step_partial (c : Circ) (hn : c.n = N) (h : InStep N c) (k : Call) :
    InStep N (c.call k).2 ↔ Good N k :=
  step_iff hn h k

/-- C48, partial: `gate_list` and `u` are in step after every call of a history, including failing
ones, exactly if all calls are as in `C48_step_partial`. -/
theorem C48_history_partial (ks : List Call) :
    (∀ pre post, ks = pre ++ post → InStep N ((new N).calls pre)) ↔ ∀ k ∈ ks, Good N k := by
  constructor
  · intro h k hk
    obtain ⟨pre, post, rfl⟩ := List.append_of_mem hk
    have h1 := h pre (k :: post) rfl
    have h2 := h (pre ++ [k]) post (by simp)
    rw [Circ.calls, List.foldl_append] at h2
    exact (step_iff (calls_n (new N) pre) h1 k).1 h2
  · intro h pre
    induction pre using List.reverseRecOn with
    | nil => intro _ _; exact .nil
    | append_singleton pre k ih =>
      intro post e
      rw [Circ.calls, List.foldl_append]
      have h1 := ih (k :: post) (by rw [e]; simp)
      exact (step_iff (calls_n (new N) pre) h1 k).2 (h k (by rw [e]; simp))

/-- C48: a call that fails an assertion leaves the object as it was. -/
theorem C48_assertion (c : Circ) (k : Call) (h : (c.call k).1 = .error .assertionError) :
    (c.call k).2 = c := by
  rcases call_outcome c k with ⟨m, h1, -⟩ | ⟨-, h2⟩ | ⟨e, h1, h2, -⟩
  · rw [h] at h1; cases h1
  · exact h2
  · rw [h] at h1; cases h1; exact absurd rfl h2

/-- C48 is false: a call that fails otherwise has recorded the gate but added no matrix
(`multi_control_cnot` excepted, which records nothing). -/
theorem C48_not_atomic (c : Circ) (k : Call) (e : PyErr) (h : (c.call k).1 = .error e)
    (he : e ≠ .assertionError) (hk : ∀ cs t, k ≠ .mcnot cs t) :
    (c.call k).2.u = c.u ∧ (c.call k).2.gateList.length = c.gateList.length + 1 := by
  rcases call_outcome c k with ⟨m, h1, -⟩ | ⟨h1, h2⟩ | ⟨e', -, -, h3, h4⟩
  · rw [h] at h1; cases h1
  · rw [h] at h1; cases h1; exact absurd rfl he
  · refine ⟨h3, ?_⟩
    rcases h4 with ⟨cs, t, rfl, -⟩ | ⟨-, x, hx⟩
    · exact absurd rfl (hk cs t)
    · rw [hx]; simp

/-- C48 is false, a witness on every number of qubits: `cnot(N, t)` raises `ValueError`, and the
lists are out of step afterwards. -/
theorem C48_cnot_wrong (t : Fin N) :
    ((new N).call (.cnot N (wire t))).1 = .error .valueError ∧
      ¬ InStep N ((new N).call (.cnot N (wire t))).2 := by
  constructor
  · have ht := t.2
    show ((new N).ctrl .cnot xMat N (wire t)).1 = _
    unfold Circ.ctrl
    rw [if_pos (by simp only [wire, new]; omega)]
    unfold Legacy.two_qubit_control_gate
    rw [raiseIf_false (by simp only [new]; omega), Py.ok_bind, raiseIf_true (by simp [new])]
    rfl
  · rw [step_iff (N := N) rfl (c := new N) (.nil : InStep N (new N))]
    intro h
    have := h le_rfl (by simp [wire]) (by simp [wire])
    omega

/-- C48 is false: a valid call of `multi_control_cnot` adds a matrix but records no gate. -/
theorem C48_mcnot_wrong (cs : List (Fin N)) (t : Fin N) (h0 : cs ≠ []) (ht : t ∉ cs) :
    ((new N).call (.mcnot (wireList cs) (wire t))).1 = .ok () ∧
      ((new N).call (.mcnot (wireList cs) (wire t))).2.gateList = [] ∧
      ((new N).call (.mcnot (wireList cs) (wire t))).2.u.length = 1 ∧
      ¬ InStep N ((new N).call (.mcnot (wireList cs) (wire t))).2 := by
  obtain ⟨U, hU, -⟩ := Legacy.multi_control_rep (N := N) h0 ht xMat_rep
  have e : (new N).call (.mcnot (wireList cs) (wire t)) = (.ok (), ⟨N, [], [U]⟩) := by
    show (new N).addU (Legacy.multi_control_gate xMat N (wireList cs) (wire t)) = _
    rw [hU]; rfl
  rw [e]
  refine ⟨rfl, rfl, rfl, fun h => ?_⟩
  cases h

example : Good 3 (.cnot (-1) 0) ∧ Good 3 (.cnot 7 0) ∧ ¬ Good 3 (.cnot 3 0) ∧ Good 3 (.rxx 0 0 1) ∧
    ¬ Good 3 (.rxx 2 0 1) ∧ Good 3 (.mcnot [0] 0) ∧ ¬ Good 3 (.mcnot [0, 1] 2) := by
  refine ⟨?_, ?_, ?_, ?_, ?_, ?_, ?_⟩ <;> simp [Good, second]

/-! ## C49 -/

/-- C49, partial (the full statement has no hypothesis `hq`; false without, see `C49_wrong`): for
distinct qubits in range, the second not 0, `rxx`, `ryy`, `rzz` return and add the rotation of the
two qubits. -/
theorem C49_rotation_partial (r : Rot) (c : Circ) (hn : c.n = N) (p q : Fin N) (hpq : p ≠ q)
    (hq : (q : ℕ) ≠ 0) (φ : ℝ) :
    ∃ m, (c.call (r.call (wire p) (wire q) φ)).1 = .ok () ∧
      (c.call (r.call (wire p) (wire q) φ)).2.u = c.u ++ [m] ∧ Represents m (rot2 r.mat φ p q) := by
  cases r
  · obtain ⟨m, h1, h2, h3⟩ := call_rep hn (.rxx φ p q) hpq (fun h => absurd h hq) rfl
    refine ⟨m, h1, h2, ?_⟩
    rwa [show readAs (.rxx φ p q) = .rxx φ p q from dif_neg (fun h => hq h.1)] at h3
  · obtain ⟨m, h1, h2, h3⟩ := call_rep hn (.ryy φ p q) hpq (fun h => absurd h hq) rfl
    refine ⟨m, h1, h2, ?_⟩
    rwa [show readAs (.ryy φ p q) = .ryy φ p q from dif_neg (fun h => hq h.1)] at h3
  · obtain ⟨m, h1, h2, h3⟩ := call_rep hn (.rzz φ p q) hpq (fun h => absurd h hq) rfl
    refine ⟨m, h1, h2, ?_⟩
    rwa [show readAs (.rzz φ p q) = .rzz φ p q from dif_neg (fun h => hq h.1)] at h3

/-- C49 is false: with second qubit 0 the rotation acts on the first qubit and its successor, and
unless the angle is a multiple of `2π` this is another matrix. -/
theorem C49_wrong (r : Rot) (c : Circ) (hn : c.n = N) (p q : Fin N) (hq : (q : ℕ) = 0)
    (hp : (p : ℕ) ≠ 0) (hx : p + 1 < N) (φ : ℝ) :
    ∃ m, (c.call (r.call (wire p) (wire q) φ)).1 = .ok () ∧
      (c.call (r.call (wire p) (wire q) φ)).2.u = c.u ++ [m] ∧
      Represents m (rot2 r.mat φ p ⟨p + 1, hx⟩) ∧
      (Real.sin (φ / 2) ≠ 0 → ¬ Represents m (rot2 r.mat φ p q)) := by
  have hpq : p ≠ q := fun h => hp (by rw [h, hq])
  have hne : (⟨p + 1, hx⟩ : Fin N) ≠ q := by
    intro h; have := congrArg Fin.val h; simp only at this; omega
  cases r
  · obtain ⟨m, h1, h2, h3⟩ := call_rep hn (.rxx φ p q) hpq (fun _ => hx) rfl
    rw [show readAs (.rxx φ p q) = .rxx φ p ⟨p + 1, hx⟩ from dif_pos ⟨hq, hx⟩] at h3
    exact ⟨m, h1, h2, h3, fun hs h' => rot2_ne hne (by simp [X, Matrix.one_fin_two])
      (.inl (by simp [X])) hs (h3.unique h')⟩
  · obtain ⟨m, h1, h2, h3⟩ := call_rep hn (.ryy φ p q) hpq (fun _ => hx) rfl
    rw [show readAs (.ryy φ p q) = .ryy φ p ⟨p + 1, hx⟩ from dif_pos ⟨hq, hx⟩] at h3
    exact ⟨m, h1, h2, h3, fun hs h' => rot2_ne hne (by simp [Y, Matrix.one_fin_two])
      (.inl (by simp [Y])) hs (h3.unique h')⟩
  · obtain ⟨m, h1, h2, h3⟩ := call_rep hn (.rzz φ p q) hpq (fun _ => hx) rfl
    rw [show readAs (.rzz φ p q) = .rzz φ p ⟨p + 1, hx⟩ from dif_pos ⟨hq, hx⟩] at h3
    refine ⟨m, h1, h2, h3, fun hs h' => rot2_ne hne (by simp [Z, Matrix.one_fin_two])
      (.inr ?_) hs (h3.unique h')⟩
    simp only [Z, Matrix.of_apply, Matrix.cons_val', Matrix.cons_val_zero, Matrix.cons_val_one]
    norm_num

/-- C49 is false: on the last qubit and qubit 0 the call raises `ValueError`, after the gate has been
recorded with a qubit that does not exist. -/
theorem C49_last_raises (r : Rot) (c : Circ) (hn : c.n = N) (p q : Fin N) (hq : (q : ℕ) = 0)
    (hx : (p : ℕ) + 1 = N) (φ : ℝ) :
    c.call (r.call (wire p) (wire q) φ) =
      (.error .valueError, c.addGate r.name (.list [wire p, N]) (some φ)) := by
  have h : ∀ (g : Name) (P : Tensor ℂ) (d : Bool), c.rot2 g P d (wire p) (wire q) φ =
      (.error .valueError, c.addGate g (.list [wire p, N]) (some φ)) := by
    intro g P d
    have e : c.rot2 g P d (wire p) (wire q) φ =
      (if wire p ≤ c.n ∧ second (wire p) (wire q) ≤ c.n ∧ (d = true → wire p ≠ second (wire p) (wire q)) then
        (c.addGate g (.list [wire p, second (wire p) (wire q)]) (some φ)).addU
          (two_qubit_rotation_gate φ c.n (wire p) (second (wire p) (wire q)) P)
      else (.error .assertionError, c)) := rfl
    have e' : second (wire p) (wire q) = N := by
      rw [second, if_pos (by simp only [wire]; omega)]; simp only [wire]; omega
    rw [e, e', if_pos (by rw [hn]; simp only [wire]; refine ⟨by omega, le_rfl, fun _ => by omega⟩), hn,
      rotation_error (by omega)]
    rfl
  cases r <;> exact h _ _ _

example : ((2 : Fin 3) : ℕ) + 1 = 3 ∧ (1 : Fin 3) ≠ 2 ∧ ((2 : Fin 3) : ℕ) ≠ 0 := by decide

end QTN.Props
