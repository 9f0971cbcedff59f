import Verif.Lemmas.Local
import Verif.Props.PTrace
import Verif.Props.Measure
import Verif.Props.Expect
import Verif.Lemmas.Quanv

/-! # Property C87: operations on disjoint sets of qubits do not influence each other -/

namespace QTN.Props

open QTN QTN.Spec Matrix

variable {N M : ℕ}

/-- C87: two circuits without common qubits can be exchanged: `U()` returns the same tensor. -/
theorem C87_commute (l1 l2 : List (Item N)) (h1 : ∀ it ∈ l1, it.WF) (h2 : ∀ it ∈ l2, it.WF)
    (hd : ∀ it ∈ l1, ∀ it' ∈ l2, ∀ i ∈ it.qubits, i ∉ it'.qubits) :
    ∃ ops1 ops2 U, l1.mapM buildItem = .ok ops1 ∧ l2.mapM buildItem = .ok ops2 ∧
      (circ N (ops1 ++ ops2)).U = .ok U ∧ (circ N (ops2 ++ ops1)).U = .ok U := by
  obtain ⟨ops1, hops1, f1⟩ := items_built l1 h1
  obtain ⟨ops2, hops2, f2⟩ := items_built l2 h2
  obtain ⟨⟨U, hU, rU⟩, -⟩ := C13_circuit_U N (ops1 ++ ops2) _ (List.rel_append f1 f2)
  obtain ⟨⟨U', hU', rU'⟩, -⟩ := C13_circuit_U N (ops2 ++ ops1) _ (List.rel_append f2 f1)
  refine ⟨ops1, ops2, U, hops1, hops2, hU, ?_⟩
  rw [hU']
  rw [timeOrdered_append] at rU rU'
  have hc := opsOn_comm (W := fun i => ∃ it ∈ l1, i ∈ it.qubits) (V := fun i => ∃ it ∈ l2, i ∈ it.qubits)
    (fun i ⟨it, hit, hi⟩ ⟨it', hit', hi'⟩ => hd it hit it' hit' i hi hi')
    (circuit_mem l1 h1 fun it hit i hi => ⟨it, hit, hi⟩) (circuit_mem l2 h2 fun it hit i hi => ⟨it, hit, hi⟩)
  unfold circuitOp at hc
  rw [hc.eq] at rU'
  exact congrArg _ (rU'.ext rU)

/-- A Toffoli on the qubits 0, 1, 4 and a ring of CNOTs on the qubits 2, 3, 5. -/
example : (∀ it ∈ [Item.gate (.toffoli (0 : Fin 6) 4 1)], it.WF) ∧ (∀ it ∈ [Item.ring [(5 : Fin 6), 2, 3]], it.WF) ∧
    ∀ it ∈ [Item.gate (.toffoli (0 : Fin 6) 4 1)], ∀ it' ∈ [Item.ring [(5 : Fin 6), 2, 3]],
      ∀ i ∈ it.qubits, i ∉ it'.qubits := by
  refine ⟨?_, ?_, ?_⟩
  · simp only [List.mem_singleton, forall_eq]
    exact ⟨by decide, by decide, by decide⟩
  · simp only [List.mem_singleton, forall_eq]
    exact ⟨by decide, by decide⟩
  · simp only [List.mem_singleton, forall_eq]
    decide

/-- C87: a circuit on qubits that are traced out does not change the result of `partial_trace`: the
density matrices `rho` and `U @ rho @ dag(U)` have the same reduced density matrix. -/
theorem C87_partial_trace (l : List (Item N)) (h : ∀ it ∈ l, it.WF) (lst : List (Fin N)) (hl : lst.Nodup)
    (hq : ∀ it ∈ l, ∀ i ∈ it.qubits, i ∈ lst) (rho : Tensor ℂ) (r : QOp N) (hr : Represents rho r)
    (ht : ‖tr r - 1‖ ≤ 1e-4) :
    ∃ ops U rho' s, l.mapM buildItem = .ok ops ∧ (circ N ops).U = .ok U ∧
      (do (← U.matmul rho).matmul (← dag U)) = .ok rho' ∧
      partial_trace rho N (wires lst) = .ok s ∧ partial_trace rho' N (wires lst) = .ok s := by
  obtain ⟨ops, hops, ⟨U, hU, rU⟩, -⟩ := C13_items N l h
  obtain ⟨t1, e1, r1⟩ := rU.matmul hr
  obtain ⟨t2, e2, r2⟩ := rU.dag
  obtain ⟨rho', e3, hr'⟩ := r1.matmul r2
  obtain ⟨keep, hk, -⟩ := C33_keep_exists lst hl
  have hu := circuitOp_unitary l h
  have ht' : tr (circuitOp l * r * (circuitOp l)ᴴ) = tr r := by
    show Matrix.trace _ = Matrix.trace _
    rw [Matrix.trace_mul_comm, ← mul_assoc, hu.2, one_mul]
  obtain ⟨s, hs, rs⟩ := (C33_partial_trace rho r hr ht lst hl keep hk).2
  obtain ⟨s', hs', rs'⟩ := (C33_partial_trace rho' _ hr' (by rw [ht']; exact ht) lst hl keep hk).2
  refine ⟨ops, U, rho', s, hops, hU, by rw [e1, Py.ok_bind, e2, Py.ok_bind, e3], hs, ?_⟩
  rw [hs']
  rw [ptr_conj hk.1.injective (fun i hi => (hk.2 i).1 hi) (circuit_mem l h hq) hu.2] at rs'
  exact congrArg _ (rs'.ext rs)

/-- A matrix of trace one, and a circuit on two of three qubits, both traced out. -/
example : (∀ it ∈ [Item.gate (.cnot (2 : Fin 3) 0)], it.WF ∧ ∀ i ∈ it.qubits, i ∈ [(0 : Fin 3), 2]) ∧
    ∃ (rho : Tensor ℂ) (r : QOp 3), Represents rho r ∧ ‖tr r - 1‖ ≤ 1e-4 := by
  refine ⟨?_, (Tensor.eye (2 ^ 3)).smul (1 / 8), _, represents_eye.smul _, ?_⟩
  · simp only [List.mem_singleton, forall_eq, Item.qubits, Instr.qubits]
    exact ⟨show (2 : Fin 3) ≠ 0 by decide, by decide⟩
  · have : tr ((1 / 8 : ℂ) • (1 : QOp 3)) = 1 := by
      show Matrix.trace _ = 1
      rw [Matrix.trace_smul, Matrix.trace_one]
      simp
    rw [this]
    norm_num

/-- C87: the expectation value of an observable on qubits the circuit does not touch is that of the
input state. -/
theorem C87_expectation (svd : SVDOracle) (l : List (Item N)) (h : ∀ it ∈ l, it.WF) (keep : Fin M → Fin N)
    (hk : Function.Injective keep) (hq : ∀ it ∈ l, ∀ i ∈ it.qubits, i ∉ Set.range keep) (init O : Tensor ℂ)
    (v : QState N) (hi : IsRow init v) (o : QOp M) (hO : Represents O (embed keep o)) (s : List (Tensor ℂ)) :
    ∃ ops, l.mapM buildItem = .ok ops ∧
      (circ N ops).cir_expectation svd init O false s = (.ok (braket (embed keep o) v).re, s) ∧
      (circ N []).cir_expectation svd init O false s = (.ok (braket (embed keep o) v).re, s) := by
  obtain ⟨ops, hops, e⟩ := C28_matrix_path svd l h init O v hi _ hO s
  obtain ⟨ops0, hops0, e0⟩ := C28_matrix_path (N := N) svd [] (by simp) init O v hi _ hO s
  cases hops0
  have hc := opsOn_comm (W := fun i => i ∉ Set.range keep) (V := (· ∈ Set.range keep)) (fun i hi => hi)
    (circuit_mem l h hq) (embed_mem hk o)
  refine ⟨ops, hops, ?_, ?_⟩
  · rw [e, mul_assoc, ← hc.eq, ← mul_assoc, (circuitOp_unitary l h).2, one_mul]
  · refine Eq.trans e0 ?_
    simp [circuitOp, timeOrdered]

/-- `Z` on qubit 2, and a circuit on the qubits 0 and 1. -/
example : (∀ it ∈ [Item.gate (.h (0 : Fin 3)), .gate (.cnot 0 1)], it.WF) ∧
    Function.Injective (![2] : Fin 1 → Fin 3) ∧
    (∀ it ∈ [Item.gate (.h (0 : Fin 3)), .gate (.cnot 0 1)], ∀ i ∈ it.qubits, i ∉ Set.range (![2] : Fin 1 → Fin 3)) := by
  refine ⟨?_, Function.injective_of_subsingleton _, ?_⟩
  · intro it hit
    simp only [List.mem_cons, List.not_mem_nil, or_false] at hit
    rcases hit with rfl | rfl
    · trivial
    · exact (show (0 : Fin 3) ≠ 1 by decide)
  · intro it hit i hi
    simp only [List.mem_cons, List.not_mem_nil, or_false] at hit
    rcases hit with rfl | rfl <;> simp [Item.qubits, Instr.qubits] at hi
    · subst hi; simp
    · rcases hi with rfl | rfl <;> simp

theorem prob_braket (v : QState N) (i : Fin N) (b : Fin 2) :
    ((prob (fun a => ‖v a‖ ^ 2) i b : ℝ) : ℂ) = braket (onQubit i (Matrix.single b b 1)) v := by
  unfold prob braket
  rw [Finset.sum_filter, Complex.ofReal_sum]
  refine Finset.sum_congr rfl fun a _ => ?_
  rw [Finset.sum_eq_single a]
  · have hd : star (v a) * v a = ((‖v a‖ ^ 2 : ℝ) : ℂ) := by
      rw [mul_comm, Complex.star_def, Complex.mul_conj, Complex.normSq_eq_norm_sq]
    simp only [onQubit, implies_true, if_true, Matrix.single_apply, and_self]
    by_cases hb : a i = b
    · rw [if_pos hb, if_pos hb.symm, mul_one, hd]
    · rw [if_neg hb, if_neg (fun e => hb e.symm)]
      simp
  · intro c _ hc
    have : onQubit i (Matrix.single b b (1 : ℂ)) a c = 0 := by
      unfold onQubit
      split
      · next hh =>
        rw [Matrix.single_apply, if_neg]
        rintro ⟨h1, h2⟩
        refine hc (funext fun j => ?_)
        by_cases hj : j = i
        · rw [hj, ← h1, ← h2]
        · exact (hh j hj).symm
      · rfl
    rw [this]
    simp
  · simp

/-- C87: `measure` of qubits the circuit does not touch gives the same values before and after the
circuit. -/
theorem C87_measure (hN : 0 < N) (l : List (Item N)) (h : ∀ it ∈ l, it.WF) (ws : List (Fin N)) (hw : ws ≠ [])
    (hq : ∀ it ∈ l, ∀ i ∈ it.qubits, i ∉ ws) (state : Tensor ℂ) (hs : state.shape = [2 ^ N, 1]) :
    ∃ ops U state' r, l.mapM buildItem = .ok ops ∧ (circ N ops).U = .ok U ∧ U.matmul state = .ok state' ∧
      measure N state (.list (wires ws)) = .ok r ∧ measure N state' (.list (wires ws)) = .ok r := by
  obtain ⟨ops, hops, ⟨U, hU, rU⟩, -⟩ := C13_items N l h
  have hc : IsCol state (fun a : Bits N => state.get [enc a, 0]) := ⟨hs, fun _ => rfl⟩
  obtain ⟨w, hw', cw⟩ := rU.mulCol hc
  have hp : ∀ {t : Tensor ℂ} {v : QState N}, IsCol t v → HasProbs t (fun a => ‖v a‖ ^ 2) := fun {t v} ht =>
    .inl ⟨fun k => t.get [k, 0], .inr (.inr ⟨ht.1, fun _ _ => rfl⟩), fun a => by dsimp only; rw [ht.2]⟩
  refine ⟨ops, U, w, _, hops, hU, hw', (C36_measure_partial hN state _ (hp hc)).2.2 ws hw, ?_⟩
  rw [(C36_measure_partial hN w _ (hp cw)).2.2 ws hw]
  refine congrArg _ (List.map_congr_left fun i hi => ?_)
  have key : ∀ b, prob (fun a => ‖(circuitOp l *ᵥ fun a : Bits N => state.get [enc a, 0]) a‖ ^ 2) i b =
      prob (fun a : Bits N => ‖state.get [enc a, 0]‖ ^ 2) i b := by
    intro b
    have hcm := opsOn_comm (W := fun j => j ∉ ws) (V := (· ∈ ws)) (fun i hi => hi) (circuit_mem l h hq)
      (onQubit_mem hi (Matrix.single b b 1))
    refine Complex.ofReal_injective ?_
    rw [prob_braket, prob_braket, braket_mul, mul_assoc, ← hcm.eq, ← mul_assoc, (circuitOp_unitary l h).2, one_mul]
  rw [key, key]

/-- Two of three qubits measured, a gate on the third. -/
example : (∀ it ∈ [Item.gate (.rx 1 (1 : Fin 3))], ∀ i ∈ it.qubits, i ∉ [(2 : Fin 3), 0]) ∧
    (Tensor.zeros [2 ^ 3, 1] : Tensor ℂ).shape = [2 ^ 3, 1] := by
  refine ⟨?_, rfl⟩
  simp only [List.mem_singleton, forall_eq, Item.qubits, Instr.qubits]
  decide

end QTN.Props
