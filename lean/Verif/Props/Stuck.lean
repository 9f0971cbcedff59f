import Verif.Props.FileRate
import Verif.Props.Hybrid

/-! # Property C110: gradient descent started at zero stays at the largest expectation value -/

namespace QTN.Props

open QTN QTN.Spec Matrix Finset

variable {N : ℕ}

/-- The parameters that are all zero except for the angle `θ` of the first rotation in the last layer. -/
noncomputable def flipParams (N : ℕ) (θ : ℝ) : List ℝ := (List.replicate (9 * N) 0).set (6 * N) θ

theorem flipParams_length (N : ℕ) (θ : ℝ) : (flipParams N θ).length = 9 * N := by simp [flipParams]

theorem flipParams_zero (N : ℕ) : flipParams N 0 = List.replicate (9 * N) 0 := by
  unfold flipParams
  rw [List.set_replicate_self]

theorem stack_zero (R : ℕ) (O : QOp N) (p : List ℝ) (h : p.take (3 * N) = List.replicate (3 * N) 0) :
    energy O (ket0 N) (stack N (R + 1) p) = energy O (ket0 N) (stack N R (p.drop (3 * N))) := by
  rw [stack, energy_cons, energy_cons, h]
  simp only [Item.op]
  rw [layer_zeros, one_mulVec, ring_ket0]

theorem braket_ket0 (i : Fin N) (g : Mat2) : braket (onQubit i g) (ket0 N) = g 0 0 := by
  unfold braket
  rw [Finset.sum_eq_single 0, Finset.sum_eq_single 0]
  · simp [ket0, onQubit]
  · intro b _ hb
    simp [ket0, hb]
  · simp
  · intro b _ hb
    simp [ket0, hb]
  · simp

theorem last_rotation (hN : 2 ≤ N) (θ : ℝ) :
    energy (firstZ hN) (ket0 N) [.layer .yzy [⟨0, by omega⟩] [θ, 0, 0]] = Real.cos θ := by
  rw [energy_cons]
  unfold energy
  rw [show circuitOp ([] : List (Item N)) = 1 from rfl, Matrix.one_mulVec]
  have e : (Item.layer (N := N) .yzy [⟨0, by omega⟩] [θ, 0, 0]).op = onQubit ⟨0, by omega⟩ (rot Spec.Y θ) := by
    simp only [Item.op, LayerKind.axes, layerOp]
    rw [← onEach_update_one]
    congr 1
    funext j
    by_cases hj : j = ⟨0, by omega⟩
    · subst hj
      simp [seqRot, rot_zero]
    · simp [hj]
  unfold firstZ
  rw [e, braket_mul, onQubit_conjTranspose, onQubit_mul, onQubit_mul, braket_ket0]
  have h := Real.cos_sq' (θ / 2)
  have h2 := Real.cos_two_mul (θ / 2)
  rw [mul_div_cancel₀ _ two_ne_zero] at h2
  simp [rot, Spec.Y, Spec.Z, Matrix.mul_apply, Fin.sum_univ_two, -Complex.ofReal_cos, -Complex.ofReal_sin]
  nlinarith

/-- The expectation value as a function of that angle. -/
theorem flip_energy (hN : 2 ≤ N) (θ : ℝ) : demoEnergy hN (flipParams N θ) = Real.cos θ := by
  unfold demoEnergy demoItems
  have h1 : (flipParams N θ).take (3 * N) = List.replicate (3 * N) 0 := by
    unfold flipParams
    rw [List.take_set_of_le (by omega), List.take_replicate, min_eq_left (by omega)]
  have h2 : ((flipParams N θ).drop (3 * N)).take (3 * N) = List.replicate (3 * N) 0 := by
    unfold flipParams
    rw [List.drop_set, if_neg (by omega), List.take_set_of_le (by omega), List.drop_replicate, List.take_replicate,
      min_eq_left (by omega)]
  have h3 : (((flipParams N θ).drop (3 * N)).drop (3 * N)).take 3 = [θ, 0, 0] := by
    obtain ⟨n, hn⟩ : ∃ n, 9 * N - (3 * N + 3 * N) = n + 3 := ⟨9 * N - (3 * N + 3 * N) - 3, by omega⟩
    unfold flipParams
    rw [List.drop_drop, List.drop_set, if_neg (by omega), List.drop_replicate, hn,
      show 6 * N - (3 * N + 3 * N) = 0 by omega]
    simp [List.replicate_succ]
  rw [stack_zero 1 _ _ h1, stack_zero 0 _ _ h2, ← core_energy, core, h3, last_rotation]

/-! ## The start at zero -/

/-- C110, largest and smallest value: with all parameters zero the expectation value that the demo minimises is 1, the
largest value it takes; it is -1, the smallest value it takes, for other parameters. -/
theorem C110_extremes (hN : 2 ≤ N) :
    demoEnergy hN (List.replicate (9 * N) 0) = 1 ∧
    demoEnergy hN ((List.replicate (9 * N) 0).set (6 * N) Real.pi) = -1 ∧
    ∀ p : List ℝ, p.length = 9 * N → -1 ≤ demoEnergy hN p ∧ demoEnergy hN p ≤ 1 := by
  refine ⟨?_, ?_, fun p hp => abs_le.1 (demo_energy_le hN hp)⟩
  · rw [← flipParams_zero, flip_energy, Real.cos_zero]
  · have h := flip_energy hN Real.pi
    rw [Real.cos_pi] at h
    exact h

/-- C110, derivatives: where the expectation value is 1, every partial derivative is zero. -/
theorem C110_flat (hN : 2 ≤ N) (p : List ℝ) (hp : p.length = 9 * N) (h : demoEnergy hN p = 1) (j : ℕ) (hj : j < p.length) :
    HasDerivAt (fun x => demoEnergy hN (p.set j x)) 0 (p.getD j 0) := by
  have hd := demo_shift hN hp hj
  have hs : p.set j (p.getD j 0) = p := by
    rw [List.getD_eq_getElem _ _ hj, List.set_getElem_self]
  have hm : IsLocalMax (fun x => demoEnergy hN (p.set j x)) (p.getD j 0) := by
    refine Filter.Eventually.of_forall fun x => ?_
    show demoEnergy hN (p.set j x) ≤ demoEnergy hN (p.set j (p.getD j 0))
    rw [hs, h]
    exact (abs_le.1 (demo_energy_le hN (by rw [List.length_set, hp]))).2
  rw [hm.hasDerivAt_eq_zero hd] at hd
  exact hd

/-- The hypotheses hold with all parameters zero. -/
example : (List.replicate (9 * 4) (0 : ℝ)).length = 9 * 4 ∧
    demoEnergy (N := 4) (by norm_num) (List.replicate (9 * 4) 0) = 1 ∧ 24 < (List.replicate (9 * 4) (0 : ℝ)).length :=
  ⟨by simp, (C110_extremes _).1, by simp⟩

/-- C110, one step: where the expectation value is 1, a step of gradient descent moves no parameter by more than the
learning rate times the error of the derivatives. -/
theorem C110_step (hN : 2 ≤ N) (lr ε : ℝ) (p q : List ℝ) (hp : p.length = 9 * N) (h : demoEnergy hN p = 1)
    (hs : DescentStep hN lr ε p q) (j : ℕ) (hj : j < p.length) : |q.getD j 0 - p.getD j 0| ≤ |lr| * ε := by
  obtain ⟨δ, hδ, hb⟩ := hs.2 j hj
  rw [hδ.unique (C110_flat hN p hp h j hj), mul_zero, sub_zero] at hb
  exact hb

/-- C110, exact derivatives: gradient descent that starts where the expectation value is 1 stays there for ever. -/
theorem C110_stays (hN : 2 ≤ N) (lr : ℝ) (k : ℕ) (p q : List ℝ) (hp : p.length = 9 * N) (h : demoEnergy hN p = 1)
    (hs : Descent hN lr 0 k p q) : q = p := by
  induction k with
  | zero => exact hs
  | succ k ih =>
    obtain ⟨m, h1, h2⟩ := hs
    have : m = p := by
      refine List.ext_getElem h1.1 fun j hj hj' => ?_
      have := C110_step hN lr 0 p m hp h h1 j hj'
      rw [mul_zero, List.getD_eq_getElem _ _ hj, List.getD_eq_getElem _ _ hj'] at this
      exact sub_eq_zero.1 (abs_nonpos_iff.1 this)
    subst this
    exact ih h2

/-- C110, both training loops: the first pass from zero moves no parameter by more than the learning rate times twice the
accuracy of the decompositions. -/
theorem C110_pass {svd : SVDOracle} (hv : ValidSVD svd) (hN : 2 ≤ N) (lr : ℝ)
    (ha : accuracy (demoItems N (List.replicate (9 * N) 0)) < 1) (s : List (Tensor ℂ)) :
    (∃ q s', ShiftDemo.train svd N lr 1 (List.replicate (9 * N) 0) s = (.ok q, s') ∧ q.length = 9 * N ∧
      ∀ x ∈ q, |x| ≤ |lr| * (2 * accuracy (demoItems N (List.replicate (9 * N) 0)))) ∧
    (∃ q s', ShiftDemo.train2 svd N lr 1 (List.replicate (9 * N) 0) s = (.ok q, s') ∧ q.length = 9 * N ∧
      ∀ x ∈ q, |x| ≤ |lr| * (2 * accuracy (demoItems N (List.replicate (9 * N) 0)))) := by
  have hp : (List.replicate (9 * N) (0 : ℝ)).length = 9 * N := List.length_replicate
  have key : ∀ q, DescentStep hN lr (2 * accuracy (demoItems N (List.replicate (9 * N) 0))) (List.replicate (9 * N) 0) q →
      q.length = 9 * N ∧ ∀ x ∈ q, |x| ≤ |lr| * (2 * accuracy (demoItems N (List.replicate (9 * N) 0))) := by
    intro q hq
    refine ⟨hq.1.trans hp, fun x hx => ?_⟩
    obtain ⟨j, hj, rfl⟩ := List.mem_iff_getElem.1 hx
    have h := C110_step hN lr _ _ q hp (C110_extremes hN).1 hq j (by rw [← hq.1]; exact hj)
    have h0 : (List.replicate (9 * N) (0 : ℝ)).getD j 0 = 0 := by
      rw [List.getD_eq_getElem?_getD, List.getElem?_replicate]
      split <;> rfl
    rw [h0, sub_zero, List.getD_eq_getElem _ _ hj] at h
    exact h
  constructor
  · obtain ⟨m, s1, hm, e⟩ := train_pass hv hN lr _ ha _ s hp
    exact ⟨m, s1, e 0, key m hm⟩
  · obtain ⟨m, s1, hm, e⟩ := train2_pass hv hN lr _ ha _ s hp
    exact ⟨m, s1, e 0, key m hm⟩

/-- With the numbers of the file, four qubits and learning rate 0.1, no parameter moves by more than `1e-7`. -/
example {svd : SVDOracle} (hv : ValidSVD svd) (s : List (Tensor ℂ)) :
    ∃ q s', ShiftDemo.train svd 4 0.1 1 (List.replicate 36 0) s = (.ok q, s') ∧ q.length = 36 ∧ ∀ x ∈ q, |x| ≤ 1e-7 := by
  have ha : accuracy (demoItems 4 (List.replicate 36 0)) < 1 := by rw [demo_accuracy_four]; norm_num
  obtain ⟨⟨q, s', e, hl, h⟩, -⟩ := C110_pass hv (N := 4) (by norm_num) 0.1 ha s
  refine ⟨q, s', e, hl, fun x hx => (h x hx).trans ?_⟩
  rw [demo_accuracy_four]
  norm_num [abs_of_pos]

end QTN.Props
