import Verif.Model.ShiftDemo
import Verif.Props.Train
import Verif.Props.GradAccuracy

/-! # Property C73: the gradient descent programs of tests/test_TN_parameter_shift_rule.py -/

namespace QTN.Props

open QTN QTN.Spec Matrix

variable {N : ℕ}

/-- `R` times a YZY layer and a ring of CNOTs on all qubits, then a YZY layer, each layer with the next
`3 N` parameters. -/
noncomputable def stack (N : ℕ) : ℕ → List ℝ → List (Item N)
  | 0, p => [.layer .yzy (List.finRange N) (p.take (3 * N))]
  | R + 1, p => .layer .yzy (List.finRange N) (p.take (3 * N)) :: .ring (List.finRange N) ::
      stack N R (p.drop (3 * N))

/-- The circuit of the demo: two rings between three layers. -/
noncomputable def demoItems (N : ℕ) (p : List ℝ) : List (Item N) := stack N 2 p

/-- `Z` on the first qubit. -/
noncomputable def firstZ (hN : 2 ≤ N) : QOp N := onQubit ⟨0, by omega⟩ Spec.Z

/-- What the demo minimises: the expectation value of `Z` on the first qubit, from `|0…0⟩`. -/
noncomputable def demoEnergy (hN : 2 ≤ N) (p : List ℝ) : ℝ := energy (firstZ hN) (ket0 N) (demoItems N p)

/-- `q` is `p` after one step of gradient descent with every derivative off by at most `ε`. -/
def DescentStep (hN : 2 ≤ N) (lr ε : ℝ) (p q : List ℝ) : Prop :=
  q.length = p.length ∧ ∀ j, j < p.length → ∃ δ,
    HasDerivAt (fun x => demoEnergy hN (p.set j x)) δ (p.getD j 0) ∧
    |q.getD j 0 - (p.getD j 0 - lr * δ)| ≤ |lr| * ε

/-- `q` is `p` after `k` such steps. -/
def Descent (hN : 2 ≤ N) (lr ε : ℝ) : ℕ → List ℝ → List ℝ → Prop
  | 0, p, q => q = p
  | k + 1, p, q => ∃ m, DescentStep hN lr ε p m ∧ Descent hN lr ε k m q

/-! ## Stacks -/

theorem stack_wf (hN : 2 ≤ N) (R : ℕ) {p : List ℝ} (hp : p.length = 3 * N * (R + 1)) :
    ∀ it ∈ stack N R p, it.WF ∧ HasTN it := by
  have hl : ∀ p : List ℝ, 3 * N ≤ p.length →
      (Item.layer (N := N) .yzy (List.finRange N) (p.take (3 * N))).WF := by
    intro p h
    refine ⟨by omega, List.nodup_finRange N, ?_⟩
    simp only [List.length_take, List.length_finRange, show (LayerKind.yzy.axes).length = 3 from rfl]
    omega
  induction R generalizing p with
  | zero =>
    intro it hit
    obtain rfl := List.mem_singleton.1 hit
    exact ⟨hl p (by omega), trivial⟩
  | succ R ih =>
    intro it hit
    have h1 : 3 * N * (R + 1 + 1) = 3 * N * (R + 1) + 3 * N := by ring
    rcases List.mem_cons.1 hit with rfl | hit
    · exact ⟨hl p (by omega), trivial⟩
    rcases List.mem_cons.1 hit with rfl | hit
    · exact ⟨⟨List.nodup_finRange N, by simpa using hN⟩, rfl⟩
    · exact ih (by rw [List.length_drop]; omega) it hit

theorem stack_params (R : ℕ) {p : List ℝ} (hp : p.length = 3 * N * (R + 1)) :
    allParams (stack N R p) = p := by
  induction R generalizing p with
  | zero =>
    have : (3 * N : ℕ) = p.length := by omega
    simp [stack, allParams, Item.params, this]
  | succ R ih =>
    have h1 : 3 * N * (R + 1 + 1) = 3 * N * (R + 1) + 3 * N := by ring
    have := ih (p := p.drop (3 * N)) (by rw [List.length_drop]; omega)
    unfold allParams at this
    simp only [stack, allParams, List.flatMap_cons, Item.params, List.nil_append, this, List.take_append_drop]

theorem setParam_here {it : Item N} {l : List (Item N)} {j : ℕ} (h : j < it.params.length) (x : ℝ) :
    setParam (it :: l) j x = it.withParams (it.params.set j x) :: l := if_pos h

theorem setParam_later {it : Item N} {l : List (Item N)} {j : ℕ} (h : ¬ j < it.params.length) (x : ℝ) :
    setParam (it :: l) j x = it :: setParam l (j - it.params.length) x := if_neg h

theorem stack_set (R : ℕ) {p : List ℝ} (hp : p.length = 3 * N * (R + 1)) (j : ℕ) (hj : j < p.length) (x : ℝ) :
    setParam (stack N R p) j x = stack N R (p.set j x) := by
  induction R generalizing p j with
  | zero =>
    have h : 3 * N = p.length := by omega
    have hl : (p.take (3 * N)).length = 3 * N := by rw [List.length_take]; omega
    simp only [stack]
    rw [setParam_here (by simp only [Item.params]; omega)]
    simp only [Item.params, Item.withParams, List.take_set]
  | succ R ih =>
    have h1 : 3 * N * (R + 1 + 1) = 3 * N * (R + 1) + 3 * N := by ring
    have hl : (p.take (3 * N)).length = 3 * N := by rw [List.length_take]; omega
    simp only [stack]
    by_cases h : j < 3 * N
    · rw [setParam_here (by simp only [Item.params]; omega), List.drop_set_of_lt h]
      simp only [Item.params, Item.withParams, List.take_set]
    · rw [setParam_later (by simp only [Item.params]; omega), setParam_later (by simp [Item.params]),
        List.take_set_of_le (by omega), List.drop_set, if_neg h]
      simp only [Item.params, hl, List.length_nil, Nat.sub_zero]
      rw [ih (by rw [List.length_drop]; omega) _ (by rw [List.length_drop]; omega)]

theorem stack_owner (R : ℕ) (p : List ℝ) (j : ℕ) (it : Item N) (h : ownerOf (stack N R p) j = some it) :
    ¬ IsCu3 it := by
  have hm : it ∈ stack N R p := by
    generalize stack N R p = l at h
    induction l generalizing j with
    | nil => cases h
    | cons a l ih =>
      rw [ownerOf] at h
      split at h
      · cases h; simp
      · exact List.mem_cons_of_mem _ (ih _ h)
  clear h
  induction R generalizing p with
  | zero => obtain rfl := List.mem_singleton.1 hm; exact id
  | succ R ih =>
    rcases List.mem_cons.1 hm with rfl | hm
    · exact id
    rcases List.mem_cons.1 hm with rfl | hm
    · exact id
    · exact ih _ hm

theorem stack_accuracy (R : ℕ) (p q : List ℝ) : accuracy (stack N R p) = accuracy (stack N R q) := by
  have : ((stack N R p).map Item.decomps) = ((stack N R q).map Item.decomps) := by
    induction R generalizing p q with
    | zero => rfl
    | succ R ih => simp only [stack, List.map_cons, ih _ (q.drop (3 * N))]; rfl
  unfold accuracy svdCount
  rw [this]

theorem demo_eq (N : ℕ) (p : List ℝ) : demoItems N p =
    [.layer .yzy (List.finRange N) (slc p 0 (3 * N)), .ring (List.finRange N),
     .layer .yzy (List.finRange N) (slc p (3 * N) (6 * N)), .ring (List.finRange N),
     .layer .yzy (List.finRange N) (slc p (6 * N) (9 * N))] := by
  have e : ∀ a b, b = a + 3 * N → slc p a b = (p.drop a).take (3 * N) := by
    intro a b h2
    unfold slc
    rw [List.drop_take, h2]
    congr 1
    omega
  rw [e 0 (3 * N) (by omega), e (3 * N) (6 * N) (by omega), e (6 * N) (9 * N) (by omega)]
  unfold demoItems
  simp only [stack, List.drop_drop, List.drop_zero]
  rw [show 3 * N + 3 * N = 6 * N by omega]

theorem demo_layers (N : ℕ) (p : List ℝ) : ShiftDemo.layers N p =
    (demoItems N p).foldlM (fun c it => c.addBuilt (itemCall it)) (Circuit.new N) := by
  rw [demo_eq]
  unfold ShiftDemo.layers
  rw [← wires_finRange]
  simp only [yzy_call, ring_call, List.foldlM_cons, List.foldlM_nil, bind_pure]

/-! ## State and observable -/

theorem demo_psi (N : ℕ) : IsRow (ShiftDemo.psi N) (ket0 N) := by
  refine ⟨rfl, fun a => ?_⟩
  unfold ShiftDemo.psi
  rw [Tensor.get_ofFn (by simp [enc_lt])]
  have e0 : enc (0 : Bits N) = 0 := by simp [enc]
  unfold ket0
  by_cases ha : a = 0
  · subst ha; simp [e0]
  · rw [if_neg ha, if_neg]
    intro he
    have : enc a = 0 := by simpa using he
    exact ha (enc_injective (this.trans e0.symm))

theorem ket0_norm (N : ℕ) : norm2 (ket0 N) = 1 := by
  unfold norm2
  rw [Finset.sum_eq_single (0 : Bits N)]
  · simp [ket0]
  · intro b _ hb
    simp [ket0, hb]
  · simp

theorem demo_observable (hN : 2 ≤ N) : ∃ M, ShiftDemo.observable N = .ok M ∧ Represents M (firstZ hN) := by
  have h0 : 0 < N := by omega
  obtain ⟨M, e, r⟩ := multi_kron_rep' h0 (Function.update (fun _ => Tensor.eye 2) ⟨0, h0⟩ pauliZMat)
    (Function.update (fun _ => 1) ⟨0, h0⟩ Spec.Z) (rep2_update rep2_const ⟨0, h0⟩ pauliZMat_rep)
  rw [onEach_update_one] at r
  refine ⟨M, ?_, r⟩
  unfold ShiftDemo.observable
  rw [show (0 : ℤ) = ((0 : ℕ) : ℤ) from rfl, pySet_nat (by simpa using h0), Py.ok_bind, ← e]
  congr 1
  apply List.ext_getElem (by simp)
  intro k h1 h2
  rw [List.getElem_set, List.getElem_ofFn]
  by_cases hk : 0 = k
  · subst hk; simp
  · rw [if_neg hk, Function.update_of_ne (by simp [Fin.ext_iff]; omega)]
    simp

theorem firstZ_bound (hN : 2 ≤ N) (w : QState N) : norm2 (firstZ hN *ᵥ w) ≤ 1 * norm2 w := by
  rw [one_mul]
  exact (norm2_unitary (item_unitary (Item.gate (.z ⟨0, by omega⟩) : Item N) trivial) w).le

/-! ## `forward` -/

theorem demo_forward_eq {svd : SVDOracle} (hv : ValidSVD svd) (hN : 2 ≤ N) {p : List ℝ}
    (hp : p.length = 9 * N) {ops : List Op} (hops : (demoItems N p).mapM buildItem = .ok ops) {M : Tensor ℂ}
    (eM : ShiftDemo.observable N = .ok M) (s : List (Tensor ℂ)) :
    ShiftDemo.forward svd N p s = (circ N ops).cir_expectation svd (ShiftDemo.psi N) M true s := by
  have hw := stack_wf hN 2 (p := p) (by omega)
  obtain ⟨M', eM', rM⟩ := demo_observable hN
  obtain rfl : M = M' := by rw [eM] at eM'; cases eM'; rfl
  obtain ⟨ops', hops', hF, -⟩ := items_mps hv (demoItems N p) (fun it h => (hw it h).1)
    (fun it hit => hasTN_iff (hw it hit).2)
  obtain rfl : ops = ops' := by rw [hops] at hops'; cases hops'; rfl
  rw [cir_expectation_checks svd _ (by rw [circ_nqubits]; rfl) rM.1,
    if_pos ⟨check_of_items hF, rfl⟩, row_view_row (demo_psi N), circ_nqubits]
  unfold ShiftDemo.forward
  rw [eM, demo_layers, calls_ok _ hops]
  rfl

/-- C73, value: `forward` returns a number that differs from the exact expectation value by at most twice what
the decompositions may cut off; it never raises. -/
theorem C73_forward {svd : SVDOracle} (hv : ValidSVD svd) (hN : 2 ≤ N) (p : List ℝ) (hp : p.length = 9 * N)
    (ha : accuracy (demoItems N p) < 1) (s : List (Tensor ℂ)) :
    ∃ r s', ShiftDemo.forward svd N p s = (.ok r, s') ∧
      |r - demoEnergy hN p| ≤ 2 * accuracy (demoItems N p) := by
  have hw := stack_wf hN 2 (p := p) (by omega)
  obtain ⟨M, eM, rM⟩ := demo_observable hN
  obtain ⟨ops, hops, hr⟩ := C60_expectation hv (by omega) (demoItems N p) (fun it h => (hw it h).1)
    (fun it h => (hw it h).2) _ M _ (demo_psi N) (ket0_norm N).le (by rw [ket0_norm]; exact ha) _ rM 1
    (firstZ_bound hN)
  obtain ⟨r, r', s', e, -, e', hd⟩ := hr s
  refine ⟨r, s', by rw [demo_forward_eq hv hN hp hops eM, e], ?_⟩
  unfold demoEnergy energy
  rw [braket_mul, ← e']
  simpa using hd

/-- C73, value: `forward` is exact when no decomposition has singular values below the cut. -/
theorem C73_forward_exact {svd : SVDOracle} (hv : ValidSVD svd) (hN : 2 ≤ N) (p : List ℝ)
    (hp : p.length = 9 * N) (s : List (Tensor ℂ))
    (hl : ∀ A ∈ (ShiftDemo.forward svd N p s).2, Lossless A) :
    ∃ s', ShiftDemo.forward svd N p s = (.ok (demoEnergy hN p), s') := by
  have hw := stack_wf hN 2 (p := p) (by omega)
  obtain ⟨M, eM, rM⟩ := demo_observable hN
  obtain ⟨ops, hops, hr⟩ := C28_paths_agree_partial hv (by omega) (demoItems N p) (fun it h => (hw it h).1)
    (fun it h => (hw it h).2) _ M _ (demo_psi N) ket0_ne _ rM
  rw [demo_forward_eq hv hN hp hops eM] at hl ⊢
  obtain ⟨r, s', e, -, rfl⟩ := hr s hl
  refine ⟨s', ?_⟩
  rw [e]
  unfold demoEnergy energy
  rw [braket_mul]

/-! ## `partial_M` -/

theorem demo_shift (hN : 2 ≤ N) {p : List ℝ} (hp : p.length = 9 * N) {j : ℕ} (hj : j < p.length) :
    HasDerivAt (fun x => demoEnergy hN (p.set j x))
      (shiftValue (firstZ hN) (ket0 N) (demoItems N p) j) (p.getD j 0) := by
  have h3 : p.length = 3 * N * (2 + 1) := by omega
  have hw := stack_wf hN 2 h3
  have h := shift_partial (firstZ hN) (ket0 N) (demoItems N p) (fun it h => (hw it h).1) j
    (by unfold demoItems; rw [stack_params 2 h3]; exact hj) (fun it hit => shiftOk_of (stack_owner 2 p j it hit))
  unfold IsPartial demoItems at h
  rw [stack_params 2 h3] at h
  simp only [stack_set 2 h3 j hj] at h
  exact h

theorem demo_loop {svd : SVDOracle} (hv : ValidSVD svd) (hN : 2 ≤ N) {p : List ℝ} (hp : p.length = 9 * N)
    (ha : accuracy (demoItems N p) < 1) (is : List ℕ) (his : ∀ i ∈ is, i < p.length) (s : List (Tensor ℂ)) :
    ∃ g s', ShiftDemo.partialLoop svd N is p s = (.ok (g, p), s') ∧
      List.Forall₂ (fun j y => |y - shiftValue (firstZ hN) (ket0 N) (demoItems N p) j| ≤
        2 * accuracy (demoItems N p)) is g := by
  induction is generalizing s with
  | nil => exact ⟨[], s, rfl, .nil⟩
  | cons i is ih =>
    have hi := his i (by simp)
    have hac : ∀ q, accuracy (demoItems N q) = accuracy (demoItems N p) := fun q => stack_accuracy 2 q p
    have b1 := bump_eq p i (0.5 * Real.pi) hi
    have g1 : (p.set i (p.getD i 0 + 0.5 * Real.pi)).getD i 0 = p.getD i 0 + 0.5 * Real.pi := by
      simp [List.getD_eq_getElem?_getD, hi]
    have b2 := bump_eq (p.set i (p.getD i 0 + 0.5 * Real.pi)) i (-(1 * Real.pi)) (by simpa using hi)
    rw [g1, List.set_set, show p.getD i 0 + 0.5 * Real.pi + -(1 * Real.pi) = p.getD i 0 - 0.5 * Real.pi by
      ring] at b2
    have g2 : (p.set i (p.getD i 0 - 0.5 * Real.pi)).getD i 0 = p.getD i 0 - 0.5 * Real.pi := by
      simp [List.getD_eq_getElem?_getD, hi]
    have b3 := bump_eq (p.set i (p.getD i 0 - 0.5 * Real.pi)) i (0.5 * Real.pi) (by simpa using hi)
    rw [g2, List.set_set, sub_add_cancel, show p.set i (p.getD i 0) = p by
      simp [List.getD_eq_getElem?_getD, hi]] at b3
    obtain ⟨r1, s1, e1, d1⟩ := C73_forward hv hN (p.set i (p.getD i 0 + 0.5 * Real.pi)) (by simpa using hp)
      (by rw [hac]; exact ha) s
    obtain ⟨r2, s2, e2, d2⟩ := C73_forward hv hN (p.set i (p.getD i 0 - 0.5 * Real.pi)) (by simpa using hp)
      (by rw [hac]; exact ha) s1
    obtain ⟨g, s', e3, hg⟩ := ih (fun j hj => his j (by simp [hj])) s2
    refine ⟨0.5 * (r1 - r2) :: g, s', ?_, .cons ?_ hg⟩
    · unfold ShiftDemo.partialLoop
      dsimp only
      rw [b1, TNM.bind_ok e1, b2, TNM.bind_ok e2, b3, TNM.bind_ok e3]
      rfl
    · rw [hac] at d1 d2
      have h3 : p.length = 3 * N * (2 + 1) := by omega
      unfold shiftValue
      unfold demoItems at d1 d2 ⊢
      rw [stack_params 2 h3, stack_set 2 h3 i hi, stack_set 2 h3 i hi]
      unfold demoEnergy demoItems at d1 d2
      rw [abs_le] at d1 d2 ⊢
      constructor <;> norm_num at * <;> linarith [d1.1, d1.2, d2.1, d2.2]

/-- C73, gradient: `partial_M` returns, leaves its argument as it was, and entry `j` is within twice the
accuracy of the partial derivative of the expectation value by parameter `j`. -/
theorem C73_gradient {svd : SVDOracle} (hv : ValidSVD svd) (hN : 2 ≤ N) (p : List ℝ) (hp : p.length = 9 * N)
    (ha : accuracy (demoItems N p) < 1) (s : List (Tensor ℂ)) :
    ∃ g s', ShiftDemo.partial_M svd N p s = (.ok (g, p), s') ∧ g.length = p.length ∧
      ∀ j, j < p.length → ∃ δ, HasDerivAt (fun x => demoEnergy hN (p.set j x)) δ (p.getD j 0) ∧
        |g.getD j 0 - δ| ≤ 2 * accuracy (demoItems N p) := by
  obtain ⟨g, s', e, hg⟩ := demo_loop hv hN hp ha (List.range p.length) (fun i => List.mem_range.1) s
  have hl : g.length = p.length := by rw [← hg.length_eq, List.length_range]
  refine ⟨g, s', e, hl, fun j hj => ⟨_, demo_shift hN hp hj, ?_⟩⟩
  have := hg.get (i := j) (by simpa using hj) (by omega)
  rw [List.get_eq_getElem, List.get_eq_getElem, List.getElem_range] at this
  rw [List.getD_eq_getElem?_getD, List.getElem?_eq_getElem (by omega), Option.getD_some]
  exact this

/-! ## Training -/

theorem demo_descend (hN : 2 ≤ N) (lr : ℝ) {ε : ℝ} {p g : List ℝ} (hl : g.length = p.length)
    (hg : ∀ j, j < p.length → ∃ δ, HasDerivAt (fun x => demoEnergy hN (p.set j x)) δ (p.getD j 0) ∧
      |g.getD j 0 - δ| ≤ ε) :
    ∃ q, ShiftDemo.descend lr p g = .ok q ∧ DescentStep hN lr ε p q := by
  refine ⟨List.zipWith (fun x y => x - lr * y) p g, if_pos hl.symm, by simp [hl], fun j hj => ?_⟩
  obtain ⟨δ, h1, h2⟩ := hg j hj
  refine ⟨δ, h1, ?_⟩
  have e : (List.zipWith (fun x y => x - lr * y) p g).getD j 0 = p.getD j 0 - lr * g.getD j 0 := by
    simp [List.getD_eq_getElem?_getD, hj, hl]
  rw [e, show p.getD j 0 - lr * g.getD j 0 - (p.getD j 0 - lr * δ) = -(lr * (g.getD j 0 - δ)) by ring,
    abs_neg, abs_mul]
  exact mul_le_mul_of_nonneg_left h2 (abs_nonneg _)

/-- C73, first training loop: for every number of steps and every learning rate it returns, and the parameters
follow gradient descent on the exact expectation value, up to the error of the derivatives. -/
theorem C73_train {svd : SVDOracle} (hv : ValidSVD svd) (hN : 2 ≤ N) (lr : ℝ) (k : ℕ) (p : List ℝ)
    (hp : p.length = 9 * N) (ha : accuracy (demoItems N p) < 1) (s : List (Tensor ℂ)) :
    ∃ q s', ShiftDemo.train svd N lr k p s = (.ok q, s') ∧
      Descent hN lr (2 * accuracy (demoItems N p)) k p q := by
  induction k generalizing p s with
  | zero => exact ⟨p, s, rfl, rfl⟩
  | succ k ih =>
    obtain ⟨g, s1, e1, hl, hg⟩ := C73_gradient hv hN p hp ha s
    obtain ⟨m, e2, hm⟩ := demo_descend hN lr hl hg
    have hac : accuracy (demoItems N m) = accuracy (demoItems N p) := stack_accuracy 2 m p
    obtain ⟨r, s2, e3, -⟩ := C73_forward hv hN m (hm.1.trans hp) (by rw [hac]; exact ha) s1
    obtain ⟨q, s3, e4, hq⟩ := ih m (hm.1.trans hp) (by rw [hac]; exact ha) s2
    refine ⟨q, s3, ?_, m, hm, by rw [← hac]; exact hq⟩
    unfold ShiftDemo.train
    rw [TNM.bind_ok e1]
    dsimp only
    rw [e2, TNM.lift_ok_bind, TNM.bind_ok e3, e4]

theorem demo_step2 {svd : SVDOracle} (hv : ValidSVD svd) (hN : 2 ≤ N) (lr : ℝ) (p : List ℝ)
    (hp : p.length = 9 * N) (ha : accuracy (demoItems N p) < 1) (s : List (Tensor ℂ)) :
    ∃ q s', ShiftDemo.step2 svd N lr p s = (.ok q, s') ∧
      DescentStep hN lr (2 * accuracy (demoItems N p)) p q := by
  have h3 : p.length = 3 * N * (2 + 1) := by omega
  have hw := stack_wf hN 2 h3
  obtain ⟨M, eM, rM⟩ := demo_observable hN
  obtain ⟨ops, hops, hr⟩ := C66_shift_gradient hv (by omega) (demoItems N p) (fun it h => (hw it h).1)
    (fun it h => (hw it h).2) _ M _ (demo_psi N) (ket0_norm N).le (by rw [ket0_norm]; exact ha) _ rM 1
    (firstZ_bound hN)
  have einit : (circ N ops).state_init.view [1, -1] = .ok (ShiftDemo.psi N) := by
    obtain ⟨t, et, rt⟩ := psi0_row N
    have : (circ N ops).state_init = (Circuit.new N).state_init := by
      unfold Circuit.state_init
      rw [circ_nqubits]
      rfl
    rw [this, ← Spec.IsRow.ext rt (demo_psi N)]
    exact et
  obtain ⟨r, s1, e1, -⟩ := C73_forward hv hN p hp ha s
  rw [demo_forward_eq hv hN hp hops eM] at e1
  obtain ⟨g, s2, e2, hl, hg⟩ := hr s1
  unfold demoItems at hl
  rw [stack_params 2 h3] at hl
  obtain ⟨q, e3, hq⟩ := demo_descend hN lr (ε := 2 * accuracy (demoItems N p)) hl (fun j hj => by
    obtain ⟨δ, h1, h2⟩ := hg j (by omega) (fun it => stack_owner 2 p j it)
    refine ⟨δ, ?_, by simpa using h2⟩
    unfold IsPartial demoItems at h1
    rw [stack_params 2 h3] at h1
    simp only [stack_set 2 h3 j hj] at h1
    exact h1)
  refine ⟨q, s2, ?_, hq⟩
  unfold ShiftDemo.step2
  rw [eM, TNM.lift_ok_bind, demo_layers, calls_ok _ hops, TNM.lift_ok_bind, einit, TNM.lift_ok_bind,
    TNM.bind_ok e1]
  have e2' : ShiftDemo.gradOf svd ⟨ShiftDemo.psi N, M⟩ (circ N ops) s1 = (.ok g, s2) := by
    unfold ShiftDemo.gradOf
    rw [e2]
  rw [TNM.bind_ok e2', e3]
  rfl

/-- C73, second training loop, which uses `parameter_shift.cal_params_grad`: it follows the same descent. -/
theorem C73_train2 {svd : SVDOracle} (hv : ValidSVD svd) (hN : 2 ≤ N) (lr : ℝ) (k : ℕ) (p : List ℝ)
    (hp : p.length = 9 * N) (ha : accuracy (demoItems N p) < 1) (s : List (Tensor ℂ)) :
    ∃ q s', ShiftDemo.train2 svd N lr k p s = (.ok q, s') ∧
      Descent hN lr (2 * accuracy (demoItems N p)) k p q := by
  induction k generalizing p s with
  | zero => exact ⟨p, s, rfl, rfl⟩
  | succ k ih =>
    obtain ⟨m, s1, e1, hm⟩ := demo_step2 hv hN lr p hp ha s
    have hac : accuracy (demoItems N m) = accuracy (demoItems N p) := stack_accuracy 2 m p
    obtain ⟨q, s3, e4, hq⟩ := ih m (hm.1.trans hp) (by rw [hac]; exact ha) s1
    refine ⟨q, s3, ?_, m, hm, by rw [← hac]; exact hq⟩
    unfold ShiftDemo.train2
    rw [TNM.bind_ok e1, e4]

theorem Descent.mono {hN : 2 ≤ N} {lr ε ε' : ℝ} (h : ε ≤ ε') {k : ℕ} {p q : List ℝ}
    (hd : Descent hN lr ε k p q) : Descent hN lr ε' k p q := by
  induction k generalizing p with
  | zero => exact hd
  | succ k ih =>
    obtain ⟨m, hm, hd⟩ := hd
    refine ⟨m, ⟨hm.1, fun j hj => ?_⟩, ih hd⟩
    obtain ⟨δ, h1, h2⟩ := hm.2 j hj
    exact ⟨δ, h1, h2.trans (mul_le_mul_of_nonneg_left h (abs_nonneg _))⟩

theorem demo_accuracy_four (p : List ℝ) : accuracy (demoItems 4 p) = 3.8e-7 := by
  have h : svdCount (demoItems 4 p) = 19 := rfl
  unfold accuracy
  rw [h, show (2 : ℝ) ^ (4 / 2) = 2 ^ 2 by norm_num, Real.sqrt_sq (by norm_num)]
  norm_num

/-- C73 with the numbers of the file: four qubits, learning rate 0.1, 20 and 50 steps.  All 36 derivatives of
every step are within 7.6e-7 of the exact ones. -/
theorem C73_four {svd : SVDOracle} (hv : ValidSVD svd) (p : List ℝ) (hp : p.length = 36)
    (s : List (Tensor ℂ)) :
    (∃ q s', ShiftDemo.train svd 4 0.1 20 p s = (.ok q, s') ∧ Descent (N := 4) (by omega) 0.1 7.6e-7 20 p q) ∧
    ∃ q s', ShiftDemo.train2 svd 4 0.1 50 p s = (.ok q, s') ∧ Descent (N := 4) (by omega) 0.1 7.6e-7 50 p q := by
  have ha : accuracy (demoItems 4 p) < 1 := by rw [demo_accuracy_four]; norm_num
  have hb : 2 * accuracy (demoItems 4 p) ≤ 7.6e-7 := by rw [demo_accuracy_four]; norm_num
  obtain ⟨q, s1, e, h⟩ := C73_train hv (by omega) 0.1 20 p hp ha s
  obtain ⟨q', s1', e', h'⟩ := C73_train2 hv (by omega) 0.1 50 p hp ha s
  exact ⟨⟨q, s1, e, h.mono hb⟩, q', s1', e', h'.mono hb⟩

example : ∃ svd, ValidSVD svd ∧ (List.replicate 36 (0.3 : ℝ)).length = 9 * 4 ∧
    accuracy (demoItems 4 (List.replicate 36 (0.3 : ℝ))) < 1 :=
  ⟨_, Classical.choose_spec exists_validSVD, by simp, by rw [demo_accuracy_four]; norm_num⟩

end QTN.Props
