import Verif.SpecRepeat
import Verif.Lemmas.ContractItems
import Verif.Lemmas.MpsGates

/-! # Layers on repeated wires -/

namespace QTN

open Spec Matrix

variable {N : ℕ}

theorem lastIdx_append_self (ws : List (Fin N)) (w : Fin N) : lastIdx (ws ++ [w]) w = ws.length := by
  simp [lastIdx]

theorem lastIdx_append_ne {ws : List (Fin N)} {w j : Fin N} (h : j ≠ w) (hj : j ∈ ws) :
    lastIdx (ws ++ [w]) j = lastIdx ws j := by
  have : ws.reverse.idxOf j < ws.reverse.length := List.idxOf_lt_length_of_mem (by simpa using hj)
  simp only [List.length_reverse] at this
  simp only [lastIdx, List.reverse_append, List.reverse_singleton, List.singleton_append, List.length_append,
    List.length_singleton, List.idxOf_cons_ne _ h.symm]
  omega

theorem lastIdx_lt {ws : List (Fin N)} {j : Fin N} (hj : j ∈ ws) : lastIdx ws j < ws.length := by
  have := List.length_pos_of_mem hj
  unfold lastIdx
  omega

theorem lastIdx_get {ws : List (Fin N)} {j : Fin N} (hj : j ∈ ws) : ws[lastIdx ws j]'(lastIdx_lt hj) = j := by
  have h : ws.reverse.idxOf j < ws.reverse.length := List.idxOf_lt_length_of_mem (by simpa using hj)
  have e := List.getElem_idxOf h
  rw [List.getElem_reverse] at e
  exact e

theorem lastIdx_nodup {ws : List (Fin N)} (hw : ws.Nodup) {j : Fin N} (hj : j ∈ ws) :
    lastIdx ws j = ws.idxOf j := by
  have h1 := lastIdx_get hj
  have h2 : ws[ws.idxOf j]'(List.idxOf_lt_length_of_mem hj) = j := List.getElem_idxOf _
  exact (hw.getElem_inj_iff).1 (h1.trans h2.symm)

/-- assignment of a matrix to every listed wire: the last one stays -/
theorem foldlM_pySet_last (ws : List (Fin N)) (f : ℕ → Py (Tensor ℂ)) (m : ℕ → Tensor ℂ)
    (hm : ∀ i < ws.length, f i = .ok (m i)) (g : Fin N → Tensor ℂ) :
    ((wires ws).zipIdx).foldlM (fun lst (wi : ℤ × ℕ) => do
      pySet lst wi.1 (← f wi.2)) (List.ofFn g) =
      (Except.ok (List.ofFn (fun j => if j ∈ ws then m (lastIdx ws j) else g j)) : Py _) := by
  induction ws using List.reverseRecOn with
  | nil => simp
  | append_singleton ws w ih =>
    rw [wires, List.map_append, List.zipIdx_append, List.foldlM_append]
    have := ih fun i hi => hm i (by simp; omega)
    rw [wires] at this
    rw [this, Py.ok_bind]
    have h0 : f ws.length = .ok (m ws.length) := hm _ (by simp)
    simp only [List.map_cons, List.map_nil, List.zipIdx_cons, List.zipIdx_nil, List.foldlM_cons, List.foldlM_nil,
      List.length_map, zero_add, h0, Py.ok_bind]
    rw [pySet_ofFn]
    refine congrArg Except.ok (congrArg List.ofFn (funext fun j => ?_))
    by_cases hj : j = w
    · subst hj
      simp [lastIdx_append_self]
    · rw [Function.update_of_ne hj]
      by_cases hm' : j ∈ ws
      · rw [if_pos hm', if_pos (by simp [hm']), lastIdx_append_ne hj hm']
      · rw [if_neg hm', if_neg (by simp [hm', hj])]

theorem calGates_last {wm : ℕ → Py (Tensor ℂ)} (ws : List (Fin N)) (m : ℕ → Mat2)
    (h : ∀ i < ws.length, ∃ t, wm i = .ok t ∧ Represents2 t (m i)) :
    ∃ f : Fin N → Tensor ℂ, SingleLayer.calGates N (wires ws) wm = .ok (List.ofFn f) ∧
      ∀ j, Represents2 (f j) (if j ∈ ws then m (lastIdx ws j) else 1) := by
  have h' : ∀ i, ∃ t, i < ws.length → wm i = .ok t ∧ Represents2 t (m i) := by
    intro i
    by_cases hi : i < ws.length
    · obtain ⟨t, ht⟩ := h i hi; exact ⟨t, fun _ => ht⟩
    · exact ⟨noMat, fun h => absurd h hi⟩
  choose t ht using h'
  refine ⟨fun j => if j ∈ ws then t (lastIdx ws j) else Tensor.eye 2, ?_, ?_⟩
  · unfold SingleLayer.calGates
    rw [pyRep_nat]
    exact foldlM_pySet_last ws wm t (fun i hi => (ht i hi).1) _
  · intro j
    by_cases hj : j ∈ ws
    · simp only [hj, if_true]
      exact (ht _ (lastIdx_lt hj)).2
    · simp only [hj, if_false]
      exact represents2_eye

theorem timeOrdered_onQubit_count (ws : List (Fin N)) (F : Fin N → Mat2) :
    timeOrdered (ws.map (fun w => onQubit w (F w))) = onEach (fun j => F j ^ ws.count j) := by
  induction ws with
  | nil => simp [onEach_one]
  | cons w ws ih =>
    rw [List.map_cons, timeOrdered_cons, ih, ← onEach_update_one, onEach_mul]
    congr 1
    funext j
    by_cases hj : j = w
    · subst hj; simp [pow_succ]
    · rw [Function.update_of_ne hj, mul_one, List.count_cons_of_ne (Ne.symm hj)]

/-- The three paths of a layer object on any wire list. -/
theorem sLayer_last (l : SLayer) (hN : 0 < N) (hn : l.nqubits = N) (ws : List (Fin N)) (hl : l.wires = wires ws)
    (m : ℕ → Mat2) (h : ∀ i < ws.length, ∃ t, l.wireMat i = .ok t ∧ Represents2 t (m i)) :
    let F : Fin N → Mat2 := fun j => if j ∈ ws then m (lastIdx ws j) else 1
    Computes l.U_expand (onEach F) ∧ ContractsAs l.TN_contract (onEach fun j => F j ^ ws.count j) ∧
    ∀ (mps : List (Tensor ℂ)) (v : QState N), IsMPS mps v → ∃ mps', l.TN_operation mps = .ok mps' ∧
      IsMPS mps' (onEach (fun j => F j ^ ws.count j) *ᵥ v) := by
  intro F
  obtain ⟨f, hf, hr⟩ := calGates_last (wm := l.wireMat) ws m h
  rw [← hn, ← hl] at hf
  have hf' : l.calSingleGates = .ok (List.ofFn f) := hf
  refine ⟨?_, ?_, ?_⟩
  · obtain ⟨U, hU, rU⟩ := multi_kron_rep' hN f _ hr
    refine ⟨U, ?_, rU⟩
    unfold SLayer.U_expand
    rw [hf', Py.ok_bind, hU]
  · have hF := contracts_foldlM (N := N) ws
      (fun w T b => if b = false then Gate.contract1 (f w) T (N : ℤ) (wire w)
        else Gate.contract1 (f w) T ((N : ℤ) + 1) (wire w + 1))
      (fun w => onQubit w (F w))
      (fun w _ => ⟨fun T v hT => contract1_ten w (hr w) hT,
        fun T n v hT => contract1_batch w (hr w) hT⟩)
    rw [timeOrdered_onQubit_count] at hF
    refine ⟨fun T v hT => ?_, fun T n v hT => ?_⟩
    · obtain ⟨T', h', r⟩ := hF.1 T v hT
      refine ⟨T', ?_, r⟩
      rw [← h']
      unfold SLayer.TN_contract SingleLayer.TN_contract
      rw [hf', Py.ok_bind, if_pos rfl, hl, hn, List.foldlM_map]
      simp only [pyGet_ofFn, Py.ok_bind, if_true]
    · obtain ⟨T', h', r⟩ := hF.2 T n v hT
      refine ⟨T', ?_, r⟩
      rw [← h']
      unfold SLayer.TN_contract SingleLayer.TN_contract
      rw [hf', Py.ok_bind, if_neg (by simp), hl, hn, List.foldlM_map]
      simp only [pyGet_ofFn, Py.ok_bind, Bool.true_eq_false, if_false]
  · intro mps v hm
    have hfold : ∀ (us : List (Fin N)) (mps : List (Tensor ℂ)) (v : QState N), IsMPS mps v →
        ∃ mps', (us.map (fun w => wire w)).foldlM (fun mps q => do
          pySet mps q (← Tensor.einsum_ab_bcd (← pyGet (List.ofFn f) q) (← pyGet mps q))) mps =
            (.ok mps' : Py _) ∧ IsMPS mps' (timeOrdered (us.map (fun w => onQubit w (F w))) *ᵥ v) := by
      intro us
      induction us with
      | nil => intro mps v h; exact ⟨mps, rfl, by simpa using h⟩
      | cons w us ih =>
        intro mps v h
        obtain ⟨t, t', e1, e2, e3, h'⟩ := site_ok (hr w) h w
        obtain ⟨mps', e, hm'⟩ := ih _ _ h'
        refine ⟨mps', ?_, ?_⟩
        · rw [List.map_cons, List.foldlM_cons, pyGet_ofFn, Py.ok_bind]
          show (do
            let x ← pyGet mps ((w : ℕ) : ℤ)
            let y ← Tensor.einsum_ab_bcd (f w) x
            pySet mps ((w : ℕ) : ℤ) y) >>= _ = _
          rw [e1, Py.ok_bind, e2, Py.ok_bind, e3, Py.ok_bind, e]
        · rw [List.map_cons, timeOrdered_cons, ← Matrix.mulVec_mulVec]; exact hm'
    obtain ⟨mps', e, hm'⟩ := hfold ws mps v hm
    refine ⟨mps', ?_, by rw [timeOrdered_onQubit_count] at hm'; exact hm'⟩
    unfold SLayer.TN_operation SingleLayer.TN_operation
    rw [hf', Py.ok_bind, hl]
    exact e

theorem mkSLayer_any {c : LayerCls} {ws : List (Fin N)} {p : List ℝ} (hw : ws.length ≤ N)
    (hp : c.arity * ws.length = p.length) : mkSLayer c N (wires ws) p = .ok ⟨c, N, wires ws, p⟩ := by
  unfold mkSLayer
  rw [raiseIf_false (by simpa using hp), Py.ok_bind, raiseIf_false (by simp; omega), Py.ok_bind]

theorem mkRing_any {k : RingKind} {ws : List (Fin N)} (hw : ws.length ≤ N) (h2 : 2 ≤ ws.length) :
    mkRing k N (wires ws) = .ok ⟨k, N, wires ws⟩ := by
  unfold mkRing
  rw [raiseIf_false (by simp; omega), Py.ok_bind, raiseIf_false (by simp; omega), Py.ok_bind]

/-! ## Rings -/

/-- One CNOT of the ring: computed, or rejected if its wires are equal. -/
theorem ring_step {ws : List (Fin N)} {d i : ℕ} (hi : i < ws.length) :
    let m := (i + d) % ws.length
    let hm : m < ws.length := Nat.mod_lt _ (by omega)
    let x : Py (Tensor ℂ) := do
      let c ← pyGet (wires ws) (i : ℤ)
      let t ← pyGet (wires ws) (((i + d) % (wires ws).length : ℕ) : ℤ)
      cnotU (N : ℤ) c t
    (ws[i] ≠ ws[m] → Computes x (controlled [ws[i]] ws[m] X)) ∧ (ws[i] = ws[m] → x = .error .valueError) := by
  intro m hm x
  have hl : (wires ws).length = ws.length := by simp
  have e : x = cnotU (N : ℤ) (wire ws[i]) (wire ws[m]) := by
    show (do
      let c ← pyGet (wires ws) (i : ℤ)
      let t ← pyGet (wires ws) (((i + d) % (wires ws).length : ℕ) : ℤ)
      cnotU (N : ℤ) c t) = _
    rw [hl, pyGet_wires ws i hi, Py.ok_bind, pyGet_wires ws _ hm, Py.ok_bind]
    rfl
  rw [e]
  exact ⟨fun h => cnotU_rep' _ _ h, fun h => ctrl_raises _ rfl (Or.inl (by rw [h]))⟩

/-- A product one of whose factors raises. -/
theorem foldlM_fails {ι : Type} (right : Bool) (l : List ι) (f : ι → Py (Tensor ℂ)) (g : ι → QOp N) (e : PyErr)
    (h : ∀ i ∈ l, Computes (f i) (g i) ∨ f i = .error e) (hbad : ∃ i ∈ l, f i = .error e) (acc : Tensor ℂ)
    (A : QOp N) (hA : Represents acc A) :
    l.foldlM (fun acc i => do let u ← f i; if right then acc.matmul u else u.matmul acc) acc = .error e := by
  induction l generalizing acc A with
  | nil => simp at hbad
  | cons i l ih =>
    rw [List.foldlM_cons]
    rcases h i (by simp) with ⟨u, hu, ru⟩ | hu
    · obtain ⟨j, hj, hb⟩ := hbad
      have hne : j ≠ i := fun e' => by rw [e', hu] at hb; cases hb
      have hb' : ∃ i ∈ l, f i = .error e := ⟨j, by simpa [hne] using hj, hb⟩
      rw [hu, Py.ok_bind]
      cases right
      · obtain ⟨v, hv, rv⟩ := ru.matmul hA
        simp only [Bool.false_eq_true, if_false, hv, Py.ok_bind]
        exact ih (fun j hj => h j (by simp [hj])) hb' v _ rv
      · obtain ⟨v, hv, rv⟩ := hA.matmul ru
        simp only [if_true, hv, Py.ok_bind]
        exact ih (fun j hj => h j (by simp [hj])) hb' v _ rv
    · rw [hu]; rfl

theorem generic_any {k : RingKind} {ws : List (Fin N)} {d : ℕ} (h0 : 0 < ws.length) :
    ((∀ (i : ℕ) (h : i < ws.length), ws[i] ≠ ws[(i + d) % ws.length]'(Nat.mod_lt _ (by omega))) →
      Computes ((⟨k, N, wires ws⟩ : Ring).generic d)
      (match k with
        | .dagger => timeOrdered (ringGates d ws).reverse
        | _ => timeOrdered (ringGates d ws))) ∧
    (¬ (∀ (i : ℕ) (h : i < ws.length), ws[i] ≠ ws[(i + d) % ws.length]'(Nat.mod_lt _ (by omega))) →
      (⟨k, N, wires ws⟩ : Ring).generic d = .error .valueError) := by
  have hstep := fun i (hi : i < ws.length) => ring_step (d := d) hi
  constructor
  · intro hd
    have hf : ∀ i ∈ List.range ws.length, Computes (do
        let c ← pyGet (wires ws) (i : ℤ)
        let t ← pyGet (wires ws) (((i + d) % (wires ws).length : ℕ) : ℤ)
        cnotU (N : ℤ) c t) (if hi : i < ws.length then
        controlled [ws[i]] (ws[(i + d) % ws.length]'(Nat.mod_lt _ (by omega))) X else 1) := by
      intro i hi
      have hi' := List.mem_range.1 hi
      rw [dif_pos hi']
      exact (hstep i hi').1 (hd i hi')
    rw [ringGates_eq_map d ws (by omega)]
    cases k
    case dagger =>
      rw [← foldl_right_timeOrdered]
      obtain ⟨r, hr, rr⟩ := foldlM_right _ _ _ hf _ _ (represents_eye (N := N))
      refine ⟨r, ?_, rr⟩
      rw [← hr]
      simp [Ring.generic, bind_assoc]
    all_goals
      simp only
      rw [← foldl_left_timeOrdered]
      obtain ⟨r, hr, rr⟩ := foldlM_left _ _ _ hf _ _ (represents_eye (N := N))
      refine ⟨r, ?_, rr⟩
      rw [← hr]
      simp [Ring.generic, bind_assoc]
  · intro hd
    push Not at hd
    obtain ⟨b, hb, eb⟩ := hd
    have hf : ∀ i ∈ List.range ws.length, Computes (do
        let c ← pyGet (wires ws) (i : ℤ)
        let t ← pyGet (wires ws) (((i + d) % (wires ws).length : ℕ) : ℤ)
        cnotU (N : ℤ) c t) (if hi : i < ws.length then
        controlled [ws[i]] (ws[(i + d) % ws.length]'(Nat.mod_lt _ (by omega))) X else 1) ∨ (do
        let c ← pyGet (wires ws) (i : ℤ)
        let t ← pyGet (wires ws) (((i + d) % (wires ws).length : ℕ) : ℤ)
        cnotU (N : ℤ) c t) = (.error .valueError : Py _) := by
      intro i hi
      have hi' := List.mem_range.1 hi
      rw [dif_pos hi']
      by_cases e : ws[i] = ws[(i + d) % ws.length]'(Nat.mod_lt _ (by omega))
      · exact Or.inr ((hstep i hi').2 e)
      · exact Or.inl ((hstep i hi').1 e)
    have hbad : ∃ i ∈ List.range ws.length, (do
        let c ← pyGet (wires ws) (i : ℤ)
        let t ← pyGet (wires ws) (((i + d) % (wires ws).length : ℕ) : ℤ)
        cnotU (N : ℤ) c t) = (.error .valueError : Py _) :=
      ⟨b, List.mem_range.2 hb, (hstep b hb).2 eb⟩
    have key := fun right => foldlM_fails right _ _ _ _ hf hbad _ _ (represents_eye (N := N))
    cases k
    case dagger => rw [← key true]; simp [Ring.generic, bind_assoc]
    all_goals rw [← key false]; simp [Ring.generic, bind_assoc]

/-- The offset of the target of a ring. -/
def ringStep : RingKind → ℕ
  | .ring2 => 2
  | _ => 1

theorem ringDistinct_of_ne {d : ℕ} {ws : List (Fin N)} (h : ws.length ≠ 2) : RingDistinct d ws ↔
    ∀ (i : ℕ) (h : i < ws.length), ws[i] ≠ ws[(i + d) % ws.length]'(Nat.mod_lt _ (by omega)) := by
  unfold RingDistinct
  split
  · simp at h
  · exact Iff.rfl

theorem ring_any (k : RingKind) (ws : List (Fin N)) (h2 : 2 ≤ ws.length) :
    (RingDistinct (ringStep k) ws → Computes (⟨k, N, wires ws⟩ : Ring).U_expand (ringKindOp k ws)) ∧
    (¬ RingDistinct (ringStep k) ws → (⟨k, N, wires ws⟩ : Ring).U_expand = .error .valueError) := by
  by_cases hl : ws.length = 2
  · obtain ⟨a, b, rfl⟩ := List.length_eq_two.1 hl
    have e : (⟨k, N, wires [a, b]⟩ : Ring).U_expand = cnotU N (wire a) (wire b) := by
      unfold Ring.U_expand
      rw [if_pos (by simp)]
      rfl
    rw [e]
    refine ⟨fun h => ?_, fun h => ctrl_raises _ rfl (Or.inl ?_)⟩
    · obtain ⟨u, hu, ru⟩ := cnotU_rep' a b h
      exact ⟨u, hu, by cases k <;> exact ru⟩
    · rw [show a = b from not_not.1 h]
  · have hne : (wires ws).length ≠ 2 := by simpa using hl
    rw [ringDistinct_of_ne hl]
    by_cases hr : wires ws = pyRange (N : ℤ)
    · have hnd : ws.Nodup := wires_eq_pyRange hr ▸ List.nodup_finRange N
      refine ⟨fun _ => ring_rep k ws hnd h2, fun hd => absurd (fun i hi => ?_) hd⟩
      have hs : 0 < ringStep k ∧ ringStep k < ws.length := by cases k <;> simp [ringStep] <;> omega
      exact get_ne_of_nodup hnd hi (Nat.mod_lt _ (by omega)) (add_mod_ne hi hs.1 hs.2)
    · unfold Ring.U_expand
      rw [if_neg hne, if_neg hr]
      cases k <;> simp only [ringKindOp, ringOp_of_ne hl, ringDagOp_of_ne hl]
      · exact generic_any (k := .ring) (d := 1) (by omega)
      · exact generic_any (k := .dagger) (d := 1) (by omega)
      · exact generic_any (k := .ring2) (d := 2) (by omega)

end QTN
