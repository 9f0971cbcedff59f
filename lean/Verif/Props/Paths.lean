import Verif.Props.Accuracy
import Verif.Props.Contract
import Verif.Props.Reshape
import Verif.Props.MpsInner
import Verif.Props.LegacyMeasure
import Verif.Props.PTrace

/-! # Properties C61, C62: the evaluation paths agree from input to output -/

namespace QTN.Props

open QTN QTN.Spec Matrix

variable {N : ℕ}

/-! ## C61 -/

/-- `MPS2StateVec(cir.TN_evolution(StateVec2MPS(psi, N)))` -/
noncomputable def mpsPath (svd : SVDOracle) (c : Circuit) (psi : Tensor ℂ) : TNM (Tensor ℂ) := do
  let mps ← StateVec2MPS svd psi c.nqubits
  let mps ← c.TN_evolution svd mps
  TNM.lift (MPS2StateVec mps)

/-- `cir.TN_contract_evolution(MatrixProductState(psi, N)).reshape(1, -1)` -/
noncomputable def contractPath (c : Circuit) (psi : Tensor ℂ) : Py (Tensor ℂ) := do
  let T ← MatrixProductState psi c.nqubits
  let T ← c.TN_contract_evolution T false
  T.view [1, -1]

theorem flatten_row {T : Tensor ℂ} {v : QState N} (h : IsTen T v) :
    ∃ c, T.view [1, -1] = .ok c ∧ IsRow c v := by
  have hn : T.numel = 2 ^ N := by simp [Tensor.numel, h.1]
  refine ⟨T.reshapeN [1, 2 ^ N], Tensor.view_neg_last _ 1 (2 ^ N) (by simp [hn]) (by simp), rfl,
    fun a => ?_⟩
  rw [Tensor.reshapeN_get_eq (idx' := bl a) (by simp [enc_lt]) (by rw [h.1]; exact inB_bl a)
    (by rw [h.1, ← enc_eq_ravel]; simp [ravel]), h.2]

theorem contractible_of_hasTN {it : Item N} (h : HasTN it) : Contractible it := by
  cases it with
  | gate ins => cases ins <;> trivial
  | ring ws => exact h
  | ringDag ws => exact h
  | ring2 ws => exact h.elim
  | basic ws p r => exact h.elim
  | _ => trivial

theorem contractPath_rep {l : List (Item N)} {ops : List Op} {psi : Tensor ℂ} {v : QState N}
    (hf : ContractsAs (circ N ops).TN_contract_evolution (circuitOp l)) (hp : IsRow psi v) :
    ∃ sv, contractPath (circ N ops) psi = .ok sv ∧ IsRow sv (circuitOp l *ᵥ v) := by
  obtain ⟨T, eT, rT⟩ := C27_state psi hp.1
  have rT' : IsTen T v := ⟨rT.1, fun a => (rT.2 a).trans (hp.2 a)⟩
  obtain ⟨T', eT', rT''⟩ := hf.1 T v rT'
  obtain ⟨sv, esv, rsv⟩ := flatten_row rT''
  refine ⟨sv, ?_, rsv⟩
  unfold contractPath
  rw [circ_nqubits, eT, Py.ok_bind, eT', Py.ok_bind, esv]

/-- C61: for every circuit of operations with a working `TN_contract` and every input row, the matrix
path `U() @ psi` and the contraction path return the same tensor. -/
theorem C61_matrix_contract (l : List (Item N)) (h : ∀ it ∈ l, it.WF) (hc : ∀ it ∈ l, Contractible it)
    (psi : Tensor ℂ) (v : QState N) (hp : IsRow psi v) :
    ∃ ops sv, l.mapM buildItem = .ok ops ∧ applyRow (circ N ops).U psi = .ok sv ∧
      contractPath (circ N ops) psi = .ok sv ∧ IsRow sv (circuitOp l *ᵥ v) := by
  obtain ⟨ops, hops, hU, hf⟩ := circuit_contract l h hc
  obtain ⟨sv, e, r⟩ := contractPath_rep hf hp
  obtain ⟨sv', e', r'⟩ := applyRow_rep hU hp
  exact ⟨ops, sv, hops, by rw [e', r'.ext r], e, r⟩

/-- C61: for every circuit of operations with a working `TN_operation`, every non-zero input row and
every SVD routine that discards no non-zero singular value, all three paths return the same tensor. -/
theorem C61_three_paths {svd : SVDOracle} (hv : ValidSVD svd) (hN : 0 < N) (l : List (Item N))
    (h : ∀ it ∈ l, it.WF) (hc : ∀ it ∈ l, HasTN it) (psi : Tensor ℂ) (v : QState N) (hp : IsRow psi v)
    (h0 : v ≠ 0) :
    ∃ ops sv, l.mapM buildItem = .ok ops ∧ IsRow sv (circuitOp l *ᵥ v) ∧
      applyRow (circ N ops).U psi = .ok sv ∧ contractPath (circ N ops) psi = .ok sv ∧
      ∀ s, (∀ A ∈ (mpsPath svd (circ N ops) psi s).2, Lossless A) →
        ∃ s', mpsPath svd (circ N ops) psi s = (.ok sv, s') := by
  obtain ⟨ops, sv, hops, e1, e2, r⟩ :=
    C61_matrix_contract l h (fun it hit => contractible_of_hasTN (hc it hit)) psi v hp
  obtain ⟨ops', hops', hev⟩ := C22_evolution hv hN l h hc
  rw [hops] at hops'
  cases hops'
  refine ⟨ops, sv, hops, r, e1, e2, fun s hl => ?_⟩
  unfold mpsPath at hl ⊢
  rw [circ_nqubits] at hl ⊢
  have m3 : ∀ mps, TNM.Mono (TNM.lift (MPS2StateVec mps)) := fun mps => TNM.Mono.lift' _
  have m2 : ∀ mps, TNM.Mono (do
      let mps ← (circ N ops).TN_evolution svd mps
      TNM.lift (MPS2StateVec mps)) := fun mps => (mono_evolution svd _ mps).bind m3
  obtain ⟨mps, s1, e3, hm1⟩ := sv2mps_exact hv hN hp h0 (s := s) (TNM.logged_left m2 hl)
  rw [TNM.bind_ok e3] at hl ⊢
  rcases hev mps v s1 (holds_iff.2 hm1) (TNM.logged_left m3 hl) with
    ⟨mps', s2, -, -, e4, hm2, -, -, -⟩ | ⟨hz, -⟩
  · obtain ⟨sv', esv, rsv⟩ := mps2sv_rep (holds_iff.1 hm2) hN
    refine ⟨s2, ?_⟩
    rw [TNM.bind_ok e4, esv, rsv.ext r]
    rfl
  · exact absurd hz h0

/-- C61, whatever singular values are discarded: if the input has norm at most one and more than
`accuracy l`, the matrix-product path returns a row within `accuracy l` of the row that both other
paths return. -/
theorem C61_close {svd : SVDOracle} (hv : ValidSVD svd) (hN : 0 < N) (l : List (Item N))
    (h : ∀ it ∈ l, it.WF) (hc : ∀ it ∈ l, HasTN it) (psi : Tensor ℂ) (v : QState N) (hp : IsRow psi v)
    (hn : norm2 v ≤ 1) (ha : accuracy l < norm2 v) :
    ∃ ops sv, l.mapM buildItem = .ok ops ∧ applyRow (circ N ops).U psi = .ok sv ∧
      contractPath (circ N ops) psi = .ok sv ∧ IsRow sv (circuitOp l *ᵥ v) ∧
      ∀ s, ∃ sv' s', mpsPath svd (circ N ops) psi s = (.ok sv', s') ∧ sv'.shape = [1, 2 ^ N] ∧
        dist2 (fun a : Bits N => sv'.get [0, enc a]) (fun a => sv.get [0, enc a]) ≤ accuracy l := by
  obtain ⟨ops, sv, hops, e1, e2, r⟩ :=
    C61_matrix_contract l h (fun it hit => contractible_of_hasTN (hc it hit)) psi v hp
  obtain ⟨ops', hops', hev⟩ := C60_accuracy hv hN l h hc psi v hp hn ha
  rw [hops] at hops'
  cases hops'
  refine ⟨ops, sv, hops, e1, e2, r, fun s => ?_⟩
  obtain ⟨mps, s', w, e, hm, -, hd⟩ := hev s
  obtain ⟨sv', esv, rsv⟩ := mps2sv_rep (holds_iff.1 hm) hN
  refine ⟨sv', s', ?_, rsv.1, ?_⟩
  · unfold mpsPath
    rw [circ_nqubits]
    rcases hres : StateVec2MPS svd psi N s with ⟨er | mps1, s1⟩
    · rw [TNM.bind_error hres] at e; cases e
    · rw [TNM.bind_ok hres] at e ⊢
      rw [TNM.bind_ok e, esv]
      rfl
  · simpa only [rsv.2, r.2] using hd

/-! ## C62 -/

/-- Probability of finding qubit `i` in state 0 minus the probability of finding it in state 1, after
the circuit `l` was applied to `v`. -/
noncomputable def zValue (l : List (Item N)) (v : QState N) (i : Fin N) : ℝ :=
  prob (fun a => ‖(circuitOp l *ᵥ v) a‖ ^ 2) i 0 - prob (fun a => ‖(circuitOp l *ᵥ v) a‖ ^ 2) i 1

theorem zValue_eq (l : List (Item N)) (v : QState N) (i : Fin N) :
    (braket (onQubit i Spec.Z) (circuitOp l *ᵥ v)).re = zValue l v i := by
  rw [braket_Z, Complex.ofReal_re, prob_diff]
  rfl

theorem row_isVec {t : Tensor ℂ} {v : QState N} (h : IsRow t v) :
    IsVec t (2 ^ N) (fun i => t.get [0, i]) := .inr (.inl ⟨h.1, fun _ _ => rfl⟩)

theorem check_of_items {svd : SVDOracle} {ops : List Op} {Ms : List (QOp N)}
    (h : List.Forall₂ (fun (o : Op) M => o.supportTN = true ∧ Acts (o.TN_operation svd) M) ops Ms) :
    (circ N ops).TN_check = true := by
  unfold Circuit.TN_check
  rw [circ_gate, List.all_eq_true]
  intro o ho
  obtain ⟨M', -, hb⟩ := forall₂_mem h ho
  exact hb.1

theorem tn_expectation {svd : SVDOracle} {ops : List Op} (hc : (circ N ops).TN_check = true)
    {psi M : Tensor ℂ} {v w : QState N} (hp : IsRow psi v) {O : QOp N} (hM : Represents M O)
    {s s1 s2 : List (Tensor ℂ)} {mps mps' : List (Tensor ℂ)}
    (e1 : StateVec2MPS svd psi N s = (.ok mps, s1))
    (e2 : (circ N ops).TN_evolution svd mps s1 = (.ok mps', s2)) (hm : HoldsState mps' w) (hN : 0 < N) :
    (circ N ops).cir_expectation svd psi M true s = (.ok (braket O w).re, s2) := by
  obtain ⟨sv, esv, rsv⟩ := mps2sv_rep (holds_iff.1 hm) hN
  rw [cir_expectation_checks svd _ (by rw [hp.1, circ_nqubits]) hM.1, if_pos ⟨hc, rfl⟩, row_view_row hp,
    TNM.lift_ok_bind, circ_nqubits, TNM.bind_ok e1, TNM.bind_ok e2, esv, TNM.lift_ok_bind,
    quadForm_row rsv hM]
  rfl

/-- C62: the matrix path of `cir_expectation` with the observable `PauliZ` on a qubit and `measure` of the
state vector computed with `U()` return the same numbers, for every circuit and input row. -/
theorem C62_measure (svd : SVDOracle) (hN : 0 < N) (l : List (Item N)) (h : ∀ it ∈ l, it.WF)
    (psi : Tensor ℂ) (v : QState N) (hp : IsRow psi v) :
    ∃ ops sv, l.mapM buildItem = .ok ops ∧ applyRow (circ N ops).U psi = .ok sv ∧
      measure N sv .none = .ok (List.ofFn (zValue l v)) ∧
      ∀ i : Fin N, ∃ Z, zObservable N (wire i) = .ok Z ∧
        ∀ s, (circ N ops).cir_expectation svd psi Z false s = (.ok (zValue l v i), s) := by
  obtain ⟨ops, hops, hU, -⟩ := C13_items N l h
  obtain ⟨sv, e, r⟩ := applyRow_rep hU hp
  refine ⟨ops, sv, hops, e, ?_, fun i => ?_⟩
  · exact (C36_measure_partial hN sv _ (.inl ⟨_, row_isVec r, fun a => by rw [r.2]⟩)).1
  · obtain ⟨Z, hZ, rZ⟩ : Computes (zObservable N (wire i)) (onQubit i Spec.Z) := zObservable_rep i
    refine ⟨Z, hZ, fun s => ?_⟩
    obtain ⟨ops', hops', e0⟩ := C28_matrix_path svd l h psi Z v hp _ rZ s
    rw [hops] at hops'
    cases hops'
    rw [e0, ← braket_mul, zValue_eq]

/-- C62: the same numbers come from the density matrix of the final state, by `measure`, by the older
class's `measure`, and from the diagonal of the reduced density matrix that `partial_trace` returns when
all other qubits are traced out. -/
theorem C62_density (hN : 0 < N) (l : List (Item N)) (h : ∀ it ∈ l, it.WF) (v : QState N)
    (hn : norm2 v = 1) (rho : Tensor ℂ)
    (hr : Represents rho (fun a b => (circuitOp l *ᵥ v) a * star ((circuitOp l *ᵥ v) b))) :
    measure N rho .none = .ok (List.ofFn (zValue l v)) ∧
    (∃ m, Legacy.measure rho N = .ok m ∧ m.shape = [N, 1] ∧
      ∀ i : Fin N, m.get [(i : ℕ), 0] = zValue l v i) ∧
    ∀ i : Fin N, ∃ red, partial_trace rho N (wires ((List.finRange N).filter (· ≠ i))) = .ok red ∧
      red.shape = [2, 2] ∧ (red.get [0, 0] - red.get [1, 1]).re = zValue l v i := by
  set w := circuitOp l *ᵥ v with hw
  have hd : ∀ a : Bits N, w a * star (w a) = ((‖w a‖ ^ 2 : ℝ) : ℂ) := by
    intro a
    rw [Complex.star_def, Complex.mul_conj, Complex.normSq_eq_norm_sq]
  have hnw : ∑ a, ‖w a‖ ^ 2 = 1 := by
    have e : norm2 w = 1 := by rw [hw, norm2_unitary (circuitOp_unitary l h), hn]
    unfold norm2 at e
    rwa [Real.sqrt_eq_one] at e
  have htr : tr (fun a b => w a * star (w b)) = 1 := by
    unfold tr
    simp only [hd]
    rw [← Complex.ofReal_sum, hnw, Complex.ofReal_one]
  have hp : diagProbs N rho = fun a => ‖w a‖ ^ 2 := by
    funext a
    show (rho.get [enc a, enc a]).re = _
    rw [hr.2]
    beta_reduce
    rw [hd, Complex.ofReal_re]
  refine ⟨?_, ?_, fun i => ?_⟩
  · refine (C36_measure_partial hN rho _ (.inr ⟨fun i j => rho.get [i, j], ⟨hr.1, fun _ _ _ _ => rfl⟩, ?_,
      fun a => ?_⟩)).1
    · simp only [hr.2]
      have : ∑ a : Bits N, w a * star (w a) = 1 := htr
      rw [this]; norm_num
    · exact (congrFun hp a).symm
  · obtain ⟨m, e, sm, gm⟩ := C55_measure_partial rho hr.1
    exact ⟨m, e, sm, fun i => by rw [gm, hp]; rfl⟩
  · have hk : Spec.Keeps (fun _ : Fin 1 => i) ((List.finRange N).filter (· ≠ i)) := by
      refine ⟨fun a b hab => absurd hab (by omega), fun j => ?_⟩
      simp only [List.mem_filter, List.mem_finRange, true_and, decide_eq_true_eq, Set.mem_range, ne_eq]
      exact ⟨fun hh ⟨_, h'⟩ => hh h'.symm, fun hh h' => hh ⟨0, h'.symm⟩⟩
    obtain ⟨-, red, e, r⟩ := C33_partial_trace rho _ hr (by rw [htr]; norm_num)
      ((List.finRange N).filter (· ≠ i)) ((List.nodup_finRange N).filter _) _ hk
    refine ⟨red, e, r.1, ?_⟩
    have hx : ∀ x : Fin 2, red.get [(x : ℕ), (x : ℕ)] = ((prob (fun a => ‖w a‖ ^ 2) i x : ℝ) : ℂ) := by
      intro x
      have := r.2 (fun _ => x) (fun _ => x)
      rw [enc_one] at this
      rw [this]
      unfold ptr prob
      rw [Complex.ofReal_sum, Finset.sum_filter]
      refine Finset.sum_congr rfl (fun a _ => ?_)
      rw [Finset.sum_eq_single a]
      · by_cases hax : a i = x
        · rw [if_pos ⟨funext fun _ => hax, funext fun _ => hax, fun _ _ => rfl⟩, if_pos hax]
          exact hd a
        · rw [if_neg (fun hh => hax (congrFun hh.1 0)), if_neg hax]
      · intro b _ hb
        rw [if_neg]
        rintro ⟨h1, h2, h3⟩
        apply hb
        funext j
        by_cases hj : j = i
        · subst hj
          exact (congrFun h2 0).trans (congrFun h1 0).symm
        · exact (h3 j (by rintro ⟨_, hh⟩; exact hj hh.symm)).symm
      · simp
    have h0 := hx 0
    have h1 := hx 1
    simp only [Fin.val_zero, Fin.val_one] at h0 h1
    rw [h0, h1, ← Complex.ofReal_sub, Complex.ofReal_re]
    rfl

/-- C62: with no non-zero singular value discarded, `cir_expectation` on the tensor-network path and
`MPS_expec` of the evolved matrix product state return the same numbers. -/
theorem C62_mps {svd : SVDOracle} (hv : ValidSVD svd) (hN : 0 < N) (l : List (Item N))
    (h : ∀ it ∈ l, it.WF) (hc : ∀ it ∈ l, HasTN it) (psi : Tensor ℂ) (v : QState N) (hp : IsRow psi v)
    (h0 : v ≠ 0) :
    ∃ ops, l.mapM buildItem = .ok ops ∧ ∀ s,
      (∀ A ∈ ((StateVec2MPS svd psi N >>= (circ N ops).TN_evolution svd) s).2, Lossless A) →
      ∃ mps s', (StateVec2MPS svd psi N >>= (circ N ops).TN_evolution svd) s = (.ok mps, s') ∧
        ∀ (i : Fin N) (z : Tensor ℂ), Represents2 z Spec.Z →
          (∃ mps', MPS_expec mps [wire i] [z] = .ok (zValue l v i, mps')) ∧
          ∃ Z, zObservable N (wire i) = .ok Z ∧
            (circ N ops).cir_expectation svd psi Z true s = (.ok (zValue l v i), s') := by
  obtain ⟨ops, hops, hF, -⟩ := items_mps hv l h (fun it hit => hasTN_iff (hc it hit))
  obtain ⟨ops', hops', hev⟩ := C22_evolution hv hN l h hc
  rw [hops] at hops'
  cases hops'
  have hch := check_of_items hF
  refine ⟨ops, hops, fun s hl => ?_⟩
  obtain ⟨mps, s1, e3, hm1⟩ := sv2mps_exact hv hN hp h0 (s := s)
    (TNM.logged_left (fun mps => mono_evolution svd _ mps) hl)
  rw [TNM.bind_ok e3] at hl ⊢
  rcases hev mps v s1 (holds_iff.2 hm1) hl with ⟨mps', s2, -, -, e4, hm2, -, -, -⟩ | ⟨hz, -⟩
  · refine ⟨mps', s2, e4, fun i z hz => ⟨?_, ?_⟩⟩
    · obtain ⟨mps'', e5, -⟩ := C31_value hN mps' _ hm2 [(i, Spec.Z)] [z] (.cons hz .nil)
      refine ⟨mps'', e5.trans ?_⟩
      rw [← zValue_eq]
      simp [timeOrdered]
    · obtain ⟨Z, hZ, rZ⟩ := zObservable_rep i
      refine ⟨Z, hZ, ?_⟩
      rw [tn_expectation hch hp rZ e3 e4 hm2 hN, zValue_eq]
  · exact absurd hz h0

/-- C62, whatever singular values are discarded: for an input of norm one and an accuracy below one, the
two tensor-network routes return numbers within `2 · accuracy l` of the exact one. -/
theorem C62_close {svd : SVDOracle} (hv : ValidSVD svd) (hN : 0 < N) (l : List (Item N))
    (h : ∀ it ∈ l, it.WF) (hc : ∀ it ∈ l, HasTN it) (psi : Tensor ℂ) (v : QState N) (hp : IsRow psi v)
    (hn : norm2 v = 1) (ha : accuracy l < 1) :
    ∃ ops, l.mapM buildItem = .ok ops ∧ ∀ s, ∃ mps s',
      (StateVec2MPS svd psi N >>= (circ N ops).TN_evolution svd) s = (.ok mps, s') ∧
        ∀ (i : Fin N) (z : Tensor ℂ), Represents2 z Spec.Z → ∃ r mps' Z,
          MPS_expec mps [wire i] [z] = .ok (r, mps') ∧ zObservable N (wire i) = .ok Z ∧
          (circ N ops).cir_expectation svd psi Z true s = (.ok r, s') ∧
          |r - zValue l v i| ≤ 2 * accuracy l := by
  obtain ⟨ops, hops, hF, -⟩ := items_mps hv l h (fun it hit => hasTN_iff (hc it hit))
  obtain ⟨ops', hops', hev⟩ := C60_accuracy hv hN l h hc psi v hp hn.le (by rwa [hn])
  rw [hops] at hops'
  cases hops'
  have hch := check_of_items hF
  refine ⟨ops, hops, fun s => ?_⟩
  obtain ⟨mps, s', w, e, hm, hw, hd⟩ := hev s
  refine ⟨mps, s', e, fun i z hz => ?_⟩
  obtain ⟨mps', e5, -⟩ := C31_value hN mps _ hm [(i, Spec.Z)] [z] (.cons hz .nil)
  obtain ⟨Z, hZ, rZ⟩ := zObservable_rep i
  refine ⟨(braket (onQubit i Spec.Z) w).re, mps', Z, e5.trans (by simp [timeOrdered]), hZ, ?_, ?_⟩
  · rcases hres : StateVec2MPS svd psi N s with ⟨er | mps1, s1⟩
    · rw [TNM.bind_error hres] at e; cases e
    · rw [TNM.bind_ok hres] at e
      exact tn_expectation hch hp rZ hres e hm hN
  · rw [← zValue_eq, ← Complex.sub_re]
    refine (Complex.abs_re_le_norm _).trans ((braket_diff (B := 1) (fun u => ?_) _ _).trans ?_)
    · rw [one_mul, norm2_unitary (onQubit_unitary Z_u2 i)]
    · have hu : norm2 (circuitOp l *ᵥ v) = 1 := by
        rw [norm2_unitary (circuitOp_unitary l h), hn]
      have hdn : 0 ≤ dist2 w (circuitOp l *ᵥ v) := Real.sqrt_nonneg _
      rw [hu, one_mul]
      have : norm2 w + 1 ≤ 2 := by linarith
      gcongr

/-- The hypotheses of C61 and C62 hold for a circuit with 12 decompositions and the input `|000⟩`. -/
example : (∀ it ∈ [Item.gate (.toffoli (2 : Fin 3) 0 1), .ring (List.finRange 3), .gate (.cnot 2 0)],
      it.WF ∧ HasTN it) ∧
    IsRow basis000 (fun a : Bits 3 => if enc a = 0 then (1 : ℂ) else 0) ∧
    norm2 (fun a : Bits 3 => if enc a = 0 then (1 : ℂ) else 0) = 1 ∧
    accuracy [Item.gate (.toffoli (2 : Fin 3) 0 1), .ring (List.finRange 3), .gate (.cnot 2 0)] < 1 := by
  refine ⟨?_, basis000_row, basis_norm, ?_⟩
  · intro it hit
    simp only [List.mem_cons, List.not_mem_nil, or_false] at hit
    rcases hit with rfl | rfl | rfl
    · exact ⟨⟨by decide, by decide, by decide⟩, trivial⟩
    · exact ⟨⟨List.nodup_finRange 3, by simp⟩, rfl⟩
    · exact ⟨show (2 : Fin 3) ≠ 0 by decide, trivial⟩
  · have hcount : svdCount [Item.gate (.toffoli (2 : Fin 3) 0 1), .ring (List.finRange 3), .gate (.cnot 2 0)] =
        12 := by
      simp [svdCount, Item.decomps, Instr.decomps, gap]
    unfold accuracy
    rw [hcount]
    have : Real.sqrt (2 ^ (3 / 2)) ≤ 2 := Real.sqrt_le_iff.2 ⟨by norm_num, by norm_num⟩
    push_cast
    linarith

/-- A circuit with all kinds of two-qubit rotations, for which `C61_matrix_contract` and `C62_measure` apply. -/
example : ∀ it ∈ [Item.gate (.rxx 1 (0 : Fin 3) 2), .gate (.ryy 2 1 0), .gate (.rzz 3 2 1),
    .layer .xz [1, 2] [4, 5, 6, 7]], Item.WF it ∧ Contractible it := by
  intro it hit
  simp only [List.mem_cons, List.not_mem_nil, or_false] at hit
  rcases hit with rfl | rfl | rfl | rfl
  · exact ⟨show (0 : Fin 3) ≠ 2 by decide, trivial⟩
  · exact ⟨show (1 : Fin 3) ≠ 0 by decide, trivial⟩
  · exact ⟨show (2 : Fin 3) ≠ 1 by decide, trivial⟩
  · exact ⟨⟨by decide, by decide, rfl⟩, trivial⟩

/-- A rotation on the Bell state discards nothing (hypothesis of `C61_three_paths` and `C62_mps`). -/
example : ∃ svd, ValidSVD svd ∧ ∃ (init : Tensor ℂ) (v : QState 2) (ops : List Op), IsRow init v ∧ v ≠ 0 ∧
    [Item.gate (.rx 0.3 (0 : Fin 2))].mapM buildItem = .ok ops ∧
    (∀ A ∈ (mpsPath svd (circ 2 ops) init []).2, Lossless A) ∧
    ∀ A ∈ ((StateVec2MPS svd init 2 >>= (circ 2 ops).TN_evolution svd) []).2, Lossless A := by
  obtain ⟨svd, hv⟩ := exists_validSVD
  have hr : IsRow (bellVec 1 1) (fun a : Bits 2 => (bellVec 1 1).get [0, enc a]) := row_of_shape rfl
  have h0 : (fun a : Bits 2 => (bellVec 1 1).get [0, enc a]) ≠ 0 := by
    intro h
    have := congrFun h ![0, 0]
    have e : enc (![0, 0] : Bits 2) = 0 := by simp [enc]
    simp [e, bellVec, Tensor.ofFn] at this
  obtain ⟨o, ho, hf⟩ := single_item svd (Item.gate (.rx 0.3 (0 : Fin 2))) trivial trivial
  have hb := bell_lossless hv (p := 1) (q := 1) (by norm_num) (by norm_num)
  have hs : o.supportTN = true := by cases ho; rfl
  obtain ⟨mps, s1, e1, hm⟩ := sv2mps_exact hv (by omega) hr h0 (s := []) hb
  obtain ⟨mps', e, hm'⟩ := hf _ _ hm
  refine ⟨svd, hv, _, _, [o], hr, h0, by rw [List.mapM_cons, ho, Py.ok_bind]; rfl, ?_⟩
  have e2 : (circ 2 [o]).TN_evolution svd mps s1 = (.ok mps', s1) := by
    unfold Circuit.TN_evolution
    rw [raiseIf_false (by simp [circ_nqubits, hm.1]), TNM.lift_ok_bind, circ_gate, List.foldlM_cons, if_pos hs,
      TNM.bind_ok (e s1)]
    rfl
  have e3 : (mpsPath svd (circ 2 [o]) (bellVec 1 1) []).2 = s1 := by
    unfold mpsPath
    rw [circ_nqubits, TNM.bind_ok e1, TNM.bind_ok e2]
    rfl
  rw [e3, TNM.bind_ok e1, e2]
  rw [e1] at hb
  exact ⟨hb, hb⟩

end QTN.Props
