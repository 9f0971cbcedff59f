import Verif.Lemmas.Random
import Verif.Props.Represent

/-! # Property C100: the networks of the demos before the training

`nn.init.uniform_(torch.empty(n), a=0.0, b=2*torch.pi)` (test_qnn_demo.py:34-35, test_qcnn_demo.py:36-37,
test_qnn_demo_free.py:34-35) draws the weights; `mean n F` is the mean value of `F` over these weights. -/

namespace QTN.Props

open QTN QTN.Spec Matrix Finset

variable {N : ℕ}

/-- The number of layers of rotations. -/
def Family.layers : Family → ℕ
  | .qnn => 5
  | .qcnn => 6
  | .free => 6

/-- The rings between the layers. -/
def Family.rings : Family → List ℕ
  | .qnn => [1, 1, 2, 2]
  | .qcnn => [1, 1, 2, 2, 1]
  | .free => [1, 1, 2, 2, 1]

theorem family_size (f : Family) : f.perQubit * N = 3 * N * f.layers ∧ f.rings.length + 1 = f.layers := by
  cases f <;> exact ⟨by simp [Family.perQubit, Family.layers]; ring, rfl⟩

theorem family_op (f : Family) (g : ℕ → ℕ → ℕ → ℝ) :
    circuitOp (f.items N (weightsFor f.layers N g)) = layered N g 0 f.rings := by
  cases f
  exacts [qnn_layered g, qcnn_layered g, free_layered g]

/-- The outputs for the sample `x`, one for every qubit. -/
noncomputable def outputs (f : Family) (w x : List ℝ) (i : Fin N) : ℝ := qnnValue (f.items N w) x i

theorem outputs_eq (f : Family) {w : List ℝ} (hw : w.length = f.perQubit * N) (x : List ℝ) (i : Fin N) :
    outputs f w x i = 4 * (braket (onQubit i Spec.Z) (layered N (angle N w) 0 f.rings *ᵥ
      onEach (fun j : Fin N => rot Spec.Y (x.getD ((j : ℕ) % x.length) 0)) *ᵥ ket0 N)).re := by
  unfold outputs qnnValue qnnState
  rw [enc_list, ← family_op, weightsFor_angle (by rw [hw, (family_size f).1])]

/-- The angles after a shift of the weights. -/
theorem outputs_shift (f : Family) {w : List ℝ} (hw : w.length = f.perQubit * N) (δ : ℕ → ℝ) (x : List ℝ) (i : Fin N) :
    outputs f (shiftBy δ w) x i = 4 * (braket (onQubit i Spec.Z)
      (layered N (fun r j k => angle N w r j k + δ (3 * N * r + 3 * j + k)) 0 f.rings *ᵥ
      onEach (fun j : Fin N => rot Spec.Y (x.getD ((j : ℕ) % x.length) 0)) *ᵥ ket0 N)).re := by
  have e : w = weightsFor f.layers N (angle N w) := (weightsFor_angle (by rw [hw, (family_size f).1])).symm
  unfold outputs qnnValue qnnState
  conv_lhs => rw [e]
  rw [enc_list, shiftBy_weightsFor, family_op]

/-- The number of the last weight of a qubit. -/
def Family.lastWeight (f : Family) (N q : ℕ) : ℕ := 3 * N * (f.layers - 1) + 3 * q + 2

theorem last_index (f : Family) {r j k : ℕ} {q : Fin N} (hj : j < N) (hk : k < 3) :
    3 * N * r + 3 * j + k = f.lastWeight N q ↔ r = f.rings.length ∧ j = q ∧ k = 2 := by
  have hl := (family_size (N := N) f).2
  have hq := q.2
  unfold Family.lastWeight
  rw [show f.layers - 1 = f.rings.length by omega]
  generalize f.rings.length = L
  constructor
  · intro h
    have e1 : (3 * N * r + (3 * j + k)) / (3 * N) = r := by
      rw [Nat.mul_add_div (by omega), Nat.div_eq_of_lt (by omega), add_zero]
    have e2 : (3 * N * L + (3 * q + 2)) / (3 * N) = L := by
      rw [Nat.mul_add_div (by omega), Nat.div_eq_of_lt (by omega), add_zero]
    rw [add_assoc, add_assoc] at h
    rw [h, e2] at e1
    subst e1
    omega
  · rintro ⟨rfl, rfl, rfl⟩
    rfl

/-- Shifting the last weight of a qubit turns this qubit at the end. -/
theorem outputs_last (f : Family) {w : List ℝ} (hw : w.length = f.perQubit * N) (q : Fin N) (t : ℝ) (x : List ℝ) (i : Fin N) :
    outputs f (shiftBy (only (f.lastWeight N q) t) w) x i = 4 * (braket (onQubit i Spec.Z)
      (onQubit q (rot Spec.Y t) *ᵥ layered N (angle N w) 0 f.rings *ᵥ
        onEach (fun j : Fin N => rot Spec.Y (x.getD ((j : ℕ) % x.length) 0)) *ᵥ ket0 N)).re := by
  rw [outputs_shift f hw, last_turn (g := angle N w) f.rings q t, ← Matrix.mulVec_mulVec]
  intro s hs j hj k hk
  unfold only
  simp only [last_index f hj hk]

theorem turn_other {q i : Fin N} (h : i ≠ q) (t : ℝ) (v : QState N) :
    braket (onQubit i Spec.Z) (onQubit q (rot Spec.Y t) *ᵥ v) = braket (onQubit i Spec.Z) v :=
  braket_inter (onQubit_comm h _ _) (onQubit_unitary (IsAxis.u2 (Or.inr (Or.inl rfl)) t) q) v

theorem turn_same (q : Fin N) (t : ℝ) (v : QState N) :
    (braket (onQubit q Spec.Z) (onQubit q (rot Spec.Y t) *ᵥ v)).re =
      Real.cos t * (braket (onQubit q Spec.Z) v).re - Real.sin t * (braket (onQubit q Spec.X) v).re := by
  have e : onQubit q Spec.Z * onQubit q (rot Spec.Y t) = onQubit q (rot Spec.Y t) *
      ((Real.cos t : ℂ) • onQubit q Spec.Z + (-(Real.sin t) : ℂ) • onQubit q Spec.X) := by
    rw [onQubit_mul, Z_rotY, ← onQubit_smul', ← onQubit_smul', ← onQubit_add, onQubit_mul, neg_smul, ← sub_eq_add_neg]
  rw [braket_inter e (onQubit_unitary (IsAxis.u2 (Or.inr (Or.inl rfl)) t) q), braket_comb, Complex.add_re,
    Complex.re_ofReal_mul, ← Complex.ofReal_neg, Complex.re_ofReal_mul]
  ring

/-- C100: half a turn added to the last weight of a qubit changes the sign of its output and no other output. -/
theorem C100_flip (f : Family) {w : List ℝ} (hw : w.length = f.perQubit * N) (q : Fin N) (x : List ℝ) (i : Fin N) :
    outputs f (shiftBy (only (f.lastWeight N q) Real.pi) w) x i = if i = q then -outputs f w x i else outputs f w x i := by
  rw [outputs_last f hw, outputs_eq f hw]
  by_cases h : i = q
  · subst h
    rw [turn_same, Real.cos_pi, Real.sin_pi, if_pos rfl]
    ring
  · rw [turn_other h, if_neg h]

/-- C100: the sample can be moved into the weights: it is added to the first weights of the qubits. -/
theorem C100_absorb (f : Family) {w : List ℝ} (hw : w.length = f.perQubit * N) (x : List ℝ) (i : Fin N) :
    outputs f w x i = outputs f (shiftBy (fun k => if k < 3 * N ∧ k % 3 = 0 then x.getD (k / 3 % x.length) 0 else 0) w) [0] i := by
  rw [outputs_shift f hw, outputs_eq f hw, first_turn (g := angle N w)
    (g' := fun r j k => angle N w r j k + if 3 * N * r + 3 * j + k < 3 * N ∧ (3 * N * r + 3 * j + k) % 3 = 0 then
      x.getD ((3 * N * r + 3 * j + k) / 3 % x.length) 0 else 0) f.rings (fun j => x.getD (j % x.length) 0),
    ← Matrix.mulVec_mulVec]
  · simp only [List.length_singleton, Nat.mod_one, List.getD_cons_zero, rot_zero, onEach_one, Matrix.one_mulVec]
  · intro s hs j hj k hk
    congr 1
    have : (3 * N * s + 3 * j + k < 3 * N ∧ (3 * N * s + 3 * j + k) % 3 = 0) ↔ (s = 0 ∧ k = 0) := by
      constructor
      · rintro ⟨h1, h2⟩
        have hs : s = 0 := by
          by_contra h
          have : 3 * N ≤ 3 * N * s := Nat.le_mul_of_pos_right _ (by omega)
          omega
        subst hs
        omega
      · rintro ⟨rfl, rfl⟩
        omega
    by_cases h : s = 0 ∧ k = 0
    · rw [if_pos (this.2 h), if_pos h]
      obtain ⟨rfl, rfl⟩ := h
      rw [show (3 * N * 0 + 3 * j + 0) / 3 = j by omega]
    · rw [if_neg (fun h' => h (this.1 h')), if_neg h]

/-- Full turns do not matter. -/
theorem outputs_periodic (f : Family) {w : List ℝ} (hw : w.length = f.perQubit * N) (k : ℕ) (x : List ℝ) (i : Fin N) :
    outputs f (shiftBy (only k (2 * Real.pi)) w) x i = outputs f w x i := by
  rw [outputs_shift f hw, outputs_eq f hw]
  obtain ⟨ε, hε, e⟩ := layered_turned (N := N) (g := angle N w)
    (g' := fun r j l => angle N w r j l + only k (2 * Real.pi) (3 * N * r + 3 * j + l)) f.rings 0 (by
      intro s _ j _ l _
      unfold Turned only
      by_cases h : 3 * N * s + 3 * j + l = k
      · exact Or.inr (by rw [if_pos h])
      · exact Or.inl (by rw [if_neg h, add_zero]))
  rw [e, Matrix.smul_mulVec, braket_phase]
  rcases hε with rfl | rfl <;> simp

/-- C100: before the training all samples look alike: the outputs have the same distribution for every sample, that is,
every function of the outputs has the same mean value over the random weights. -/
theorem C100_distribution (f : Family) (F : (Fin N → ℝ) → ℝ) (x x' : List ℝ) :
    mean (f.perQubit * N) (fun w => F (outputs f w x)) = mean (f.perQubit * N) (fun w => F (outputs f w x')) := by
  have key : ∀ y : List ℝ, mean (f.perQubit * N) (fun w => F (outputs f w y)) =
      mean (f.perQubit * N) (fun w => F (outputs f w [0])) := by
    intro y
    rw [← mean_shift (fun k => if k < 3 * N ∧ k % 3 = 0 then y.getD (k / 3 % y.length) 0 else 0)
      (fun w => F (outputs f w [0]))]
    · exact mean_congr fun w hw => congrArg F (funext fun i => C100_absorb f hw y i)
    · exact fun k _ w hw => congrArg F (funext fun i => outputs_periodic f hw k [0] i)
  rw [key x, key x']

/-- C100: the distribution does not change when the sign of one output is changed. -/
theorem C100_signs (f : Family) (F : (Fin N → ℝ) → ℝ) (x : List ℝ) (q : Fin N) :
    mean (f.perQubit * N) (fun w => F (fun i => if i = q then -outputs f w x i else outputs f w x i)) =
      mean (f.perQubit * N) (fun w => F (outputs f w x)) := by
  rw [← mean_shift (only (f.lastWeight N q) Real.pi) (fun w => F (outputs f w x))]
  · exact mean_congr fun w hw => congrArg F (funext fun i => (C100_flip f hw q x i).symm)
  · exact fun k _ w hw => congrArg F (funext fun i => outputs_periodic f hw k x i)

/-- C100: the outputs have mean zero and are uncorrelated. -/
theorem C100_mean (f : Family) (x : List ℝ) (i : Fin N) :
    mean (f.perQubit * N) (fun w => outputs f w x i) = 0 ∧
      ∀ j ≠ i, mean (f.perQubit * N) (fun w => outputs f w x i * outputs f w x j) = 0 := by
  constructor
  · refine mean_odd (only (f.lastWeight N i) Real.pi) _ (fun k _ w hw => outputs_periodic f hw k x i) fun w hw => ?_
    rw [C100_flip f hw, if_pos rfl]
  · intro j hj
    refine mean_odd (only (f.lastWeight N i) Real.pi) _ (fun k _ w hw => ?_) fun w hw => ?_
    · rw [outputs_periodic f hw, outputs_periodic f hw]
    · rw [C100_flip f hw, C100_flip f hw, if_pos rfl, if_neg hj, neg_mul]

theorem shiftBy_comm (δ δ' : ℕ → ℝ) (w : List ℝ) : shiftBy δ (shiftBy δ' w) = shiftBy δ' (shiftBy δ w) := by
  induction w generalizing δ δ' with
  | nil => rfl
  | cons a w ih => rw [shiftBy_cons, shiftBy_cons, shiftBy_cons, shiftBy_cons, ih, add_right_comm]

/-- C100: the derivatives of the outputs with respect to the weights have mean zero. -/
theorem C100_gradient (f : Family) (x : List ℝ) (i : Fin N) (k : ℕ) :
    mean (f.perQubit * N) (fun w => deriv (fun t => outputs f (shiftBy (only k t) w) x i) 0) = 0 := by
  refine mean_odd (only (f.lastWeight N i) Real.pi) _ (fun l _ w hw => ?_) fun w hw => ?_
  · congr 1
    funext t
    rw [shiftBy_comm, outputs_periodic f (by rw [shiftBy_length, hw])]
  · rw [← deriv.fun_neg]
    congr 1
    funext t
    rw [shiftBy_comm, C100_flip f (by rw [shiftBy_length, hw]), if_pos rfl]

theorem outputs_cts (f : Family) (x : List ℝ) (i : Fin N) : Cts (f.perQubit * N) (fun w => outputs f w x i) := by
  unfold Cts
  simp only [outputs_eq f (List.length_ofFn)]
  exact continuous_const.mul (braket_cts (layered_cts (fun r j l => angle_cts r j l) _ _) _ _)

theorem family_wf (f : Family) (hN : 2 ≤ N) {w : List ℝ} (hw : w.length = f.perQubit * N) : ∀ it ∈ f.items N w, it.WF := by
  cases f
  exacts [qnnItems_wf hN hw, qcnnItems_wf hN hw, freeItems_wf hN hw]

theorem outputs_le (f : Family) (hN : 2 ≤ N) {w : List ℝ} (hw : w.length = f.perQubit * N) (x : List ℝ) (i : Fin N) :
    |outputs f w x i| ≤ 4 := by
  have h := (Complex.abs_re_le_norm _).trans (braket_Z_le i (qnnState (f.items N w) x))
  rw [sqNorm_one (qnnState_norm (family_wf f hN hw) x)] at h
  unfold outputs qnnValue
  rw [abs_mul, abs_of_pos (by norm_num : (0 : ℝ) < 4)]
  linarith

theorem sum_sq_le {a b : ℝ} (h : ∀ t, |Real.cos t * a - Real.sin t * b| ≤ 4) : a ^ 2 + b ^ 2 ≤ 16 := by
  have h1 := h (Complex.arg ⟨a, -b⟩)
  have hc := Complex.norm_mul_cos_arg ⟨a, -b⟩
  have hs := Complex.norm_mul_sin_arg ⟨a, -b⟩
  simp only at hc hs
  set r := ‖(⟨a, -b⟩ : ℂ)‖
  set t := Complex.arg ⟨a, -b⟩
  have hr : Real.cos t * a - Real.sin t * b = r := by
    rw [← hc, show b = -(r * Real.sin t) by linarith]
    linear_combination r * Real.cos_sq_add_sin_sq t
  rw [hr] at h1
  have h2 := (abs_le.1 h1).2
  have h0 : 0 ≤ r := norm_nonneg _
  have e : a ^ 2 + b ^ 2 = r ^ 2 := by
    rw [← hc, show b = -(r * Real.sin t) by linarith]
    linear_combination r ^ 2 * Real.cos_sq_add_sin_sq t
  rw [e]
  nlinarith

theorem mean_shift_sum (f : Family) (hN : 2 ≤ N) {w : List ℝ} (hw : w.length = f.perQubit * N) (x : List ℝ) (i : Fin N) :
    outputs f w x i ^ 2 + outputs f (shiftBy (only (f.lastWeight N i) (Real.pi / 2)) w) x i ^ 2 ≤ 16 := by
  have h : ∀ t, _ := fun t => outputs_le f hN (w := shiftBy (only (f.lastWeight N i) t) w) (by rw [shiftBy_length, hw]) x i
  simp only [outputs_last f hw, turn_same] at h
  rw [outputs_last f hw, outputs_eq f hw, turn_same, Real.cos_pi_div_two, Real.sin_pi_div_two]
  generalize (braket (onQubit i Spec.Z) _).re = a at *
  generalize (braket (onQubit i Spec.X) _).re = b at *
  have := sum_sq_le (a := 4 * a) (b := 4 * b) fun t => by
    have := h t
    rwa [show 4 * (Real.cos t * a - Real.sin t * b) = Real.cos t * (4 * a) - Real.sin t * (4 * b) by ring] at this
  linarith

/-- C100: the mean square of an output is positive, so that the outputs do depend on the weights, and at most eight, half the square of the largest value. -/
theorem C100_variance (f : Family) (hN : 2 ≤ N) (x : List ℝ) (i : Fin N) :
    0 < mean (f.perQubit * N) (fun w => outputs f w x i ^ 2) ∧
      mean (f.perQubit * N) (fun w => outputs f w x i ^ 2) ≤ 8 := by
  constructor
  · rw [C100_distribution f (fun o => o i ^ 2) x [0]]
    refine mean_pos ((outputs_cts f [0] i).pow 2) (fun w _ => sq_nonneg _) ?_
    have e : angle N (List.replicate (f.perQubit * N) 0) = fun _ _ _ => 0 := by
      funext r j k
      unfold angle
      simp
    rw [outputs_eq f (by simp), e]
    simp only [List.length_singleton, Nat.mod_one, List.getD_cons_zero, rot_zero, onEach_one, Matrix.one_mulVec, layered_zero]
    have : braket (onQubit i Spec.Z) (ket0 N) = 1 := by
      unfold braket ket0
      rw [Finset.sum_eq_single 0 (fun a _ ha => by simp [ha]) (by simp)]
      simp [onQubit, Spec.Z]
    rw [this]
    norm_num
  · have hP : ∀ k < f.perQubit * N, ∀ w : List ℝ, w.length = f.perQubit * N →
        outputs f (shiftBy (only k (2 * Real.pi)) w) x i ^ 2 = outputs f w x i ^ 2 :=
      fun k _ w hw => by rw [outputs_periodic f hw]
    have hc : Cts (f.perQubit * N) (fun w => outputs f w x i ^ 2) := (outputs_cts f x i).pow 2
    have hs := hc.shift (only (f.lastWeight N i) (Real.pi / 2))
    have h1 := mean_shift (only (f.lastWeight N i) (Real.pi / 2)) (fun w => outputs f w x i ^ 2) hP
    have h2 := mean_add hc hs
    have hcs : Cts (f.perQubit * N) (fun w => outputs f w x i ^ 2 +
      outputs f (shiftBy (only (f.lastWeight N i) (Real.pi / 2)) w) x i ^ 2) := Continuous.add hc hs
    have h3 := mean_mono (G := fun _ => 16) hcs continuous_const fun w hw => mean_shift_sum f hN hw x i
    rw [mean_const] at h3
    linarith

/-- An entry of the tensor that a call returns. -/
def entry (p : Py (Tensor ℝ)) (idx : List ℕ) : ℝ :=
  match p with
  | .ok t => t.get idx
  | .error _ => 0

/-- The forward pass of the two demos that have one. -/
noncomputable def Demo.pass (d : Demo) (N : ℕ) (w : List ℝ) (batch : List (List ℝ)) : Py (Tensor ℝ) :=
  Qnn.forward d.layers N w batch

theorem pass_entry (d : Demo) (hN : 2 ≤ N) {w : List ℝ} (hw : w.length = d.perQubit * N) {batch : List (List ℝ)}
    (hb : GoodSamples N batch) (k : Fin batch.length) (i : Fin N) :
    (∃ t, d.pass N w batch = .ok t) ∧ entry (d.pass N w batch) [(k : ℕ), (i : ℕ)] = outputs d.family w batch[k] i := by
  cases d
  · obtain ⟨t, et, -, gt⟩ := C75_qnn hN w hw batch hb
    have e : Demo.qnn.pass N w batch = .ok t := et
    exact ⟨⟨t, e⟩, by rw [e]; exact gt k i⟩
  · obtain ⟨t, et, -, gt⟩ := C75_qcnn hN w hw batch hb
    have e : Demo.qcnn.pass N w batch = .ok t := et
    exact ⟨⟨t, e⟩, by rw [e]; exact gt k i⟩

/-- C100 for the forward pass: for random weights every entry of the result has mean zero, and every function of a row has
the same mean for all rows of all batches. -/
theorem C100_forward (d : Demo) (hN : 2 ≤ N) (batch batch' : List (List ℝ)) (hb : GoodSamples N batch)
    (hb' : GoodSamples N batch') (k : Fin batch.length) (k' : Fin batch'.length) :
    (∀ i : Fin N, mean (d.perQubit * N) (fun w => entry (d.pass N w batch) [(k : ℕ), (i : ℕ)]) = 0) ∧
    ∀ F : (Fin N → ℝ) → ℝ, mean (d.perQubit * N) (fun w => F fun i => entry (d.pass N w batch) [(k : ℕ), (i : ℕ)]) =
      mean (d.perQubit * N) (fun w => F fun i => entry (d.pass N w batch') [(k' : ℕ), (i : ℕ)]) := by
  have hd := (demo_family d).1
  constructor
  · intro i
    rw [mean_congr fun w hw => (pass_entry d hN hw hb k i).2, ← hd]
    exact (C100_mean d.family batch[k] i).1
  · intro F
    rw [mean_congr fun w hw => congrArg F (funext fun i => (pass_entry d hN hw hb k i).2),
      mean_congr (F := fun w => F fun i => entry (d.pass N w batch') [(k' : ℕ), (i : ℕ)])
        fun w hw => congrArg F (funext fun i => (pass_entry d hN hw hb' k' i).2), ← hd]
    exact C100_distribution d.family F batch[k] batch'[k']

/-- The demos have three qubits and 45 or 54 weights. -/
example : (2 : ℕ) ≤ 3 ∧ (List.replicate 45 (1 : ℝ)).length = Family.qnn.perQubit * 3 ∧
    (List.replicate 54 (1 : ℝ)).length = Family.qcnn.perQubit * 3 := ⟨by omega, by simp [Family.perQubit], by simp [Family.perQubit]⟩

/-- What `mean` is: the mean of the cosine of one weight is zero, that of a constant is the constant. -/
example : mean 2 (fun w => Real.cos (w.getD 1 0)) = 0 ∧ mean 2 (fun _ => 3) = 3 := by
  refine ⟨mean_odd (only 1 Real.pi) _ (fun k hk w hw => ?_) fun w hw => ?_, mean_const 3⟩
  · obtain ⟨a, b, rfl⟩ := List.length_eq_two.1 hw
    interval_cases k <;> simp [shiftBy, only]
  · obtain ⟨a, b, rfl⟩ := List.length_eq_two.1 hw
    simp [shiftBy, only]

end QTN.Props
