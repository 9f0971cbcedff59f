import Verif.Lemmas.Embedding
import Verif.Lemmas.Legacy
import Verif.Props.Measure

/-! # Property C55: `expecval_ZI` and `measure` of the older circuit class -/

namespace QTN.Props

open QTN QTN.Spec Matrix QTN.Legacy

variable {N : ℕ}

/-- The matrix used by `expecval_ZI`, also for a qubit counted from the end. -/
theorem expand_qubit {t : ℤ} {q : Fin N} (h : qubitAt N t = some q) {u : Tensor ℂ} {m : Mat2}
    (hu : Represents2 u m) : Computes (Legacy.gate_expand_1toN u N t) (onQubit q m) := by
  have hN : 0 < N := q.pos
  obtain ⟨U, hU, hr⟩ := Legacy.multi_kron_rep' hN _ _ (rep2_update rep2_const q hu)
  have ht : t < N := by
    unfold qubitAt at h
    split_ifs at h <;> omega
  refine ⟨U, ?_, hr.congr (onEach_update_one q m)⟩
  unfold Legacy.gate_expand_1toN
  rw [raiseIf_false (by omega), raiseIf_false (by omega), pyRep_nat]
  simp only [Py.ok_bind, pySet_qubit _ h]
  exact hU

/-- What `expecval_ZI` computes from any matrix with `2^N` columns: the trace runs over the diagonal
entries there are. -/
theorem expecval_rows {t : ℤ} {q : Fin N} (h : qubitAt N t = some q) {rho : Tensor ℂ} {k : ℕ}
    (hr : rho.shape = [k, 2 ^ N]) :
    expecval_ZI rho N t = .ok (∑ a : Bits N, (if a q = 0 then 1 else -1) *
      if enc a < k then (rho.get [enc a, enc a]).re else 0) := by
  obtain ⟨U, hU, rU⟩ := expand_qubit h zMat_rep
  obtain ⟨T, eT, sT, gT⟩ := matmul_mat hr rU.1
  unfold expecval_ZI
  rw [hU, Py.ok_bind, eT, Py.ok_bind]
  unfold Tensor.trace
  rw [sT]
  simp only [Py.ok_bind]
  refine congrArg Except.ok ?_
  have e1 : ∑ i ∈ Finset.range (min k (2 ^ N)), T.get [i, i] =
      ∑ i ∈ Finset.range (2 ^ N), if i < k then T.get [i, i] else 0 := by
    rw [← Finset.sum_filter]
    refine Finset.sum_congr ?_ fun _ _ => rfl
    ext i
    simp only [Finset.mem_range, Finset.mem_filter]
    omega
  rw [e1, sum_enc, Complex.re_sum]
  refine Finset.sum_congr rfl fun a _ => ?_
  split
  · next hk =>
    rw [gT _ _ hk (enc_lt a), sum_enc, Finset.sum_eq_single a]
    · rw [rU.2, onQubit_Z, if_pos rfl]
      split <;> simp
    · intro b _ hb
      rw [rU.2, onQubit_Z, if_neg hb]; simp
    · simp
  · simp

/-- The diagonal of an `N`-qubit matrix, as (signed) probabilities. -/
noncomputable def diagProbs (N : ℕ) (rho : Tensor ℂ) (a : Bits N) : ℝ := (rho.get [enc a, enc a]).re

/-- C55 (partial: `rho` is a `2^N × 2^N` matrix): `expecval_ZI(rho, N, target)` returns `P(0) - P(1)` of
the target qubit, where a negative target counts from the end.
Missing for the full statement: other `rho` are not always rejected (`C55_state_row`). -/
theorem C55_expecval_partial (rho : Tensor ℂ) (hr : rho.shape = [2 ^ N, 2 ^ N]) (t : ℤ) (q : Fin N)
    (h : qubitAt N t = some q) :
    expecval_ZI rho N t = .ok (prob (diagProbs N rho) q 0 - prob (diagProbs N rho) q 1) := by
  rw [expecval_rows h hr, ← prob_diff]
  refine congrArg Except.ok (Finset.sum_congr rfl fun a _ => ?_)
  rw [if_pos (enc_lt a)]
  rfl

/-- C55: a target outside the register raises. -/
theorem C55_bad_target (rho : Tensor ℂ) (n t : ℤ) (h : n < 1 ∨ n ≤ t ∨ t < -n) :
    expecval_ZI rho n t = .error .valueError ∨ expecval_ZI rho n t = .error .indexError := by
  unfold expecval_ZI Legacy.gate_expand_1toN
  by_cases h1 : n < 1
  · left; rw [raiseIf_true h1]; rfl
  by_cases h2 : t ≥ n
  · left; rw [raiseIf_false h1, raiseIf_true h2]; rfl
  right
  obtain ⟨N, rfl⟩ : ∃ N : ℕ, n = N := ⟨n.toNat, by omega⟩
  rw [raiseIf_false h1, raiseIf_false h2, pyRep_nat]
  simp only [Py.ok_bind]
  rw [pySet_none _ (by unfold qubitAt; rw [dif_neg (by omega), dif_neg (by omega)])]
  rfl

theorem mapM_ofFn {α β : Type} {f : α → Py β} {g : α → β} : ∀ (l : List α), (∀ a ∈ l, f a = .ok (g a)) →
    l.mapM f = .ok (l.map g)
  | [], _ => rfl
  | a :: l, h => by
    rw [List.mapM_cons, h a (by simp), Py.ok_bind, mapM_ofFn l fun b hb => h b (by simp [hb])]
    rfl

theorem measure_of {rho : Tensor ℂ} {f : Fin N → ℝ} (h : ∀ q, expecval_ZI rho N (wire q) = .ok (f q)) :
    ∃ m, Legacy.measure rho N = .ok m ∧ m.shape = [N, 1] ∧ ∀ q : Fin N, m.get [(q : ℕ), 0] = f q := by
  have e : (List.range N).mapM (fun i : ℕ => expecval_ZI rho N (i : ℤ)) =
      .ok ((List.range N).map fun i => if hi : i < N then f ⟨i, hi⟩ else 0) := by
    refine mapM_ofFn _ fun i hi => ?_
    have hi := List.mem_range.1 hi
    rw [dif_pos hi]
    exact h ⟨i, hi⟩
  refine ⟨_, by unfold Legacy.measure; rw [e, Py.ok_bind], rfl, fun q => ?_⟩
  rw [Tensor.get_ofFn (by simp)]
  simp [List.getD]

/-- C55 (partial: as `C55_expecval_partial`): `measure(rho, N)` returns an `N × 1` tensor with
`P(0) - P(1)` of qubit `i` in row `i`. -/
theorem C55_measure_partial (rho : Tensor ℂ) (hr : rho.shape = [2 ^ N, 2 ^ N]) :
    ∃ m, Legacy.measure rho N = .ok m ∧ m.shape = [N, 1] ∧
      ∀ q : Fin N, m.get [(q : ℕ), 0] = prob (diagProbs N rho) q 0 - prob (diagProbs N rho) q 1 :=
  measure_of fun q => C55_expecval_partial rho hr (wire q) q (qubitAt_wire q)

/-- C55: for a density matrix the values are those of the newer function `measure` of qmath.py, qubit by
qubit. -/
theorem C55_agrees (hN : 0 < N) (rho : Tensor ℂ) (hr : rho.shape = [2 ^ N, 2 ^ N])
    (ht : ‖(∑ a : Bits N, rho.get [enc a, enc a]) - 1‖ ≤ 1e-4) :
    ∃ m l, Legacy.measure rho N = .ok m ∧ QTN.measure N rho .none = .ok l ∧ m.shape = [l.length, 1] ∧
      ∀ i < N, l[i]? = some (m.get [i, 0]) := by
  obtain ⟨m, e, s, g⟩ := C55_measure_partial rho hr
  refine ⟨m, _, e, (C36_measure_partial hN rho (diagProbs N rho)
    (.inr ⟨fun i j => rho.get [i, j], ⟨hr, fun _ _ _ _ => rfl⟩, ht, fun a => rfl⟩)).1, by simp [s], fun i hi => ?_⟩
  rw [g ⟨i, hi⟩]
  simp [hi]

/-- C55: the values lie in `[-1, 1]` for every matrix with non-negative diagonal of sum one. -/
theorem C55_range (rho : Tensor ℂ) (hr : rho.shape = [2 ^ N, 2 ^ N])
    (h0 : ∀ a : Bits N, 0 ≤ diagProbs N rho a) (h1 : ∑ a : Bits N, diagProbs N rho a = 1) (t : ℤ) (q : Fin N)
    (h : qubitAt N t = some q) : ∃ x ∈ Set.Icc (-1 : ℝ) 1, expecval_ZI rho N t = .ok x :=
  ⟨_, C36_range _ h0 h1 q, C55_expecval_partial rho hr t q h⟩

/-- C55 is false for other inputs: a state vector given as a row is not rejected; every qubit gets the
real part of the first amplitude, whatever the state. -/
theorem C55_state_row (psi : Tensor ℂ) (hs : psi.shape = [1, 2 ^ N]) :
    ∃ m, Legacy.measure psi N = .ok m ∧ m.shape = [N, 1] ∧
      ∀ q : Fin N, m.get [(q : ℕ), 0] = (psi.get [0, 0]).re := by
  refine measure_of fun q => ?_
  rw [expecval_rows (qubitAt_wire q) hs]
  refine congrArg Except.ok ?_
  have h0 : enc (fun _ => 0 : Bits N) = 0 := by
    simp [enc]
  rw [Finset.sum_eq_single (fun _ => 0 : Bits N)]
  · rw [if_pos rfl, if_pos (by rw [h0]; omega), h0, one_mul]
  · intro b _ hb
    have hlt : ¬ enc b < 1 := fun hlt => hb (enc_injective (by omega))
    rw [if_neg hlt, mul_zero]
  · simp

/-- C55 is false for other inputs, with a witness: the state `|1⟩` as a row is accepted and the returned
value is 0, not `P(0) - P(1) = -1`. -/
theorem C55_row_value_wrong : ∃ psi : Tensor ℂ, IsVec psi (2 ^ 1) (fun k => if k = 1 then 1 else 0) ∧
    ∃ m, Legacy.measure psi 1 = .ok m ∧ m.get [0, 0] = 0 ∧
      QTN.measure 1 psi .none = .ok [-1] := by
  have hv : IsVec (Tensor.ofFn [1, 2] fun x => if x.getD 1 0 = 1 then 1 else 0) (2 ^ 1)
      (fun k => if k = 1 then (1 : ℂ) else 0) :=
    .inr (.inl ⟨rfl, fun i hi => by rw [Tensor.get_ofFn (by simpa using hi)]; simp⟩)
  refine ⟨_, hv, ?_⟩
  obtain ⟨m, e, _, g⟩ := C55_state_row (N := 1) (Tensor.ofFn [1, 2] fun x => if x.getD 1 0 = 1 then 1 else 0) rfl
  refine ⟨m, e, ?_, ?_⟩
  · have := g 0
    rw [Tensor.get_ofFn (by simp)] at this
    simpa using this
  · have := (C36_measure_partial (N := 1) one_pos _ (fun a => ‖(if enc a = 1 then (1 : ℂ) else 0)‖ ^ 2)
      (.inl ⟨_, hv, fun _ => rfl⟩)).1
    refine this.trans (congrArg Except.ok ?_)
    rw [List.ofFn_succ, List.ofFn_zero, ← prob_diff]
    have hs : ∀ f : Bits 1 → ℝ, ∑ a, f a = f 0 + f 1 := by
      intro f
      rw [← (Equiv.funUnique (Fin 1) (Fin 2)).symm.sum_comp]
      simp [Fin.sum_univ_two]
      congr 2
    rw [hs]
    simp [enc]

/-- C55: a matrix with the wrong number of columns raises RuntimeError. -/
theorem C55_bad_shape (rho : Tensor ℂ) (k l : ℕ) (hr : rho.shape = [k, l]) (hl : l ≠ 2 ^ N) (hN : 0 < N) :
    Legacy.measure rho N = .error .runtimeError := by
  obtain ⟨n, rfl⟩ := Nat.exists_eq_succ_of_ne_zero hN.ne'
  obtain ⟨U, hU, rU⟩ := expand_qubit (qubitAt_wire (0 : Fin (n + 1))) zMat_rep
  have e : expecval_ZI rho ((n + 1 : ℕ) : ℤ) ((0 : ℕ) : ℤ) = .error .runtimeError := by
    unfold expecval_ZI
    rw [show ((0 : ℕ) : ℤ) = wire (0 : Fin (n + 1)) from rfl, hU, Py.ok_bind]
    have : rho.matmul U = .error .runtimeError := by
      unfold Tensor.matmul Tensor.matmulND
      simp only [Tensor.rank, hr, rU.1]
      simp [hl]
    rw [this]
    rfl
  unfold Legacy.measure
  rw [List.range_succ_eq_map, List.mapM_cons, e]
  rfl

/-- C55: a state vector (one dimension) raises RuntimeError. -/
theorem C55_bad_vector (psi : Tensor ℂ) (l : ℕ) (hr : psi.shape = [l]) (hN : 0 < N) :
    Legacy.measure psi N = .error .runtimeError := by
  obtain ⟨n, rfl⟩ := Nat.exists_eq_succ_of_ne_zero hN.ne'
  obtain ⟨U, hU, rU⟩ := expand_qubit (qubitAt_wire (0 : Fin (n + 1))) zMat_rep
  have e : expecval_ZI psi ((n + 1 : ℕ) : ℤ) ((0 : ℕ) : ℤ) = .error .runtimeError := by
    unfold expecval_ZI
    rw [show ((0 : ℕ) : ℤ) = wire (0 : Fin (n + 1)) from rfl, hU, Py.ok_bind]
    obtain ⟨U', hU', sU'⟩ : ∃ U', psi.unsqueeze 0 = .ok U' ∧ U'.shape = [1, l] :=
      ⟨_, by unfold Tensor.unsqueeze; rw [show wrapIdx (psi.rank + 1) 0 = .ok 0 from by
        unfold wrapIdx; simp, Py.ok_bind], by simp [hr]⟩
    have hm : psi.matmul U = (do (← Tensor.matmulND U' U).squeezeDim (-2)) := by
      unfold Tensor.matmul
      simp [Tensor.rank, hr, rU.1, hU']
    rw [hm]
    by_cases hl : l = 2 ^ (n + 1)
    · obtain ⟨V, eV, sV⟩ : ∃ V, Tensor.matmulND U' U = .ok V ∧ V.shape = [1, 2 ^ (n + 1)] := by
        refine ⟨_, by
          unfold Tensor.matmulND
          simp only [Tensor.rank, sU', rU.1]
          simp [hl, Tensor.bcast]
          rfl, rfl⟩
      rw [eV, Py.ok_bind]
      unfold Tensor.squeezeDim
      rw [show wrapIdx V.rank (-2) = .ok 0 from by
        unfold wrapIdx; simp [Tensor.rank, sV], Py.ok_bind, if_pos (by simp [sV]), Py.ok_bind]
      unfold Tensor.trace
      simp only [Tensor.ofFn, sV]
      rfl
    · have : Tensor.matmulND U' U = .error .runtimeError := by
        unfold Tensor.matmulND
        simp only [Tensor.rank, sU', rU.1]
        simp [hl]
      rw [this]
      rfl
  unfold Legacy.measure
  rw [List.range_succ_eq_map, List.mapM_cons, e]
  rfl

/-- Two qubits, a diagonal density matrix with different probabilities; the second qubit counted from
the end. -/
example : ∃ rho : Tensor ℂ, rho.shape = [2 ^ 2, 2 ^ 2] ∧ (∀ a : Bits 2, 0 ≤ diagProbs 2 rho a) ∧
    ∑ a : Bits 2, diagProbs 2 rho a = 1 ∧ ‖(∑ a : Bits 2, rho.get [enc a, enc a]) - 1‖ ≤ 1e-4 ∧
    qubitAt 2 (-1) = some 1 := by
  have g : ∀ a : Bits 2, (Tensor.ofFn [2 ^ 2, 2 ^ 2] fun x => if x.getD 0 0 = x.getD 1 0 then
      ((((x.getD 0 0 : ℕ) + 1) / 10 : ℝ) : ℂ) else 0).get [enc a, enc a] = (((enc a : ℝ) + 1) / 10 : ℝ) := by
    intro a
    have := enc_lt a
    rw [Tensor.get_ofFn (by simp at this ⊢; omega)]
    simp
  have hs : ∑ a : Bits 2, ((enc a : ℝ) + 1) / 10 = 1 := by
    rw [← sum_enc 2 (fun k => ((k : ℝ) + 1) / 10)]
    norm_num [Finset.sum_range_succ]
  refine ⟨Tensor.ofFn [2 ^ 2, 2 ^ 2] fun x => if x.getD 0 0 = x.getD 1 0 then
    ((((x.getD 0 0 : ℕ) + 1) / 10 : ℝ) : ℂ) else 0, rfl, fun a => ?_, ?_, ?_, by decide⟩
  · unfold diagProbs
    rw [g, Complex.ofReal_re]
    positivity
  · unfold diagProbs
    simp only [g, Complex.ofReal_re]
    exact hs
  · simp only [g]
    rw [← Complex.ofReal_sum, hs]
    norm_num

end QTN.Props
