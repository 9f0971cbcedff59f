import Verif.Lemmas.Moments
import Verif.Props.Random

/-! # Property C101: the outputs of wide demo networks do not concentrate

For random weights the mean square of an output and of its derivative stay above a constant that does not depend on the
number of qubits. -/

namespace QTN.Props

open QTN QTN.Spec Matrix Finset

variable {N : ℕ}

/-- A quarter turn of the last weight. -/
theorem quarter (f : Family) {w : List ℝ} (hw : w.length = f.perQubit * N) (x : List ℝ) (i : Fin N) :
    outputs f (shiftBy (only (f.lastWeight N i) (Real.pi / 2)) w) x i = -(4 * (braket (onQubit i Spec.X)
      (layered N (angle N w) 0 f.rings *ᵥ
        onEach (fun j : Fin N => rot Spec.Y (x.getD ((j : ℕ) % x.length) 0)) *ᵥ ket0 N)).re) := by
  rw [outputs_last f hw, turn_same, Real.cos_pi_div_two, Real.sin_pi_div_two]
  ring

theorem str_bitAt (i : Fin N) : str (bitAt N i) 0 = onQubit i Spec.X := by
  rw [str_zero, ← onEach_update_one]
  congr 1
  funext j
  by_cases h : j = i
  · subst h; simp [bitAt]
  · have : (j : ℕ) ≠ i := fun e => h (Fin.ext e)
    simp [bitAt, h, this]

/-- The mean square of an output as a mean over the angles. -/
theorem square_mean (f : Family) (i : Fin N) :
    mean (f.perQubit * N) (fun w => outputs f w [Real.pi / 2] i ^ 2) = 16 * meanG f.layers N (fun g => sqEx (str (bitAt N i) 0)
      (layered N g 0 f.rings *ᵥ onEach (fun _ : Fin N => rot Spec.Y (Real.pi / 2)) *ᵥ ket0 N)) := by
  rw [← mean_shift (only (f.lastWeight N i) (Real.pi / 2)) (fun w => outputs f w [Real.pi / 2] i ^ 2)
    fun k _ w hw => by rw [outputs_periodic f hw]]
  unfold meanG
  rw [← mean_mul, ← (family_size f).1]
  refine mean_congr fun w hw => ?_
  beta_reduce
  rw [quarter f hw, str_bitAt, layered_congr (g := grid f.layers N w) (g' := angle N w) f.rings 0]
  · simp only [List.length_singleton, Nat.mod_one, List.getD_cons_zero]
    unfold sqEx
    ring
  · intro s hs j hj k hk
    unfold grid
    rw [if_pos ⟨by have := (family_size (N := N) f).2; omega, hj, hk⟩]

/-- The number of factors that pass a layer on the way through the circuit. -/
def Family.steps : Family → ℕ
  | .qnn => 13
  | .qcnn => 23
  | .free => 23

/-- How far the way goes from qubit to qubit. -/
def Family.reach : Family → ℕ
  | .qnn => 6
  | .qcnn => 7
  | .free => 7

theorem ones_pair (a b : ℕ) : ones (bitAt N a + bitAt N b) ≤ 2 :=
  (ones_add _ _).trans (add_le_add (ones_bitAt _) (ones_bitAt _))

theorem ones_four (a b c d : ℕ) : ones (bitAt N a + bitAt N b + (bitAt N c + bitAt N d)) ≤ 4 :=
  (ones_add _ _).trans (add_le_add (ones_pair _ _) (ones_pair _ _))

theorem qnn_route {q : ℕ} (hq : q + 6 < N) : ∃ x, Route N (bitAt N q) [1, 1, 2, 2] x 13 := by
  obtain ⟨σ, hσ, s1, s2⟩ := pulls_of (N := N) (Or.inl rfl) (by omega)
  obtain ⟨τ, hτ, t1, t2⟩ := pulls_of (N := N) (Or.inr rfl) (by omega)
  have r0 := Route.nil (N := N) (x := bitAt N q) (ones_bitAt q)
  have r1 := r0.cons (Or.inr rfl) (t1 q (by omega) ▸ hτ _) (ones_pair _ _)
  have r2 := r1.cons (Or.inr rfl) (t2 q (by omega) ▸ hτ _) (ones_pair _ _)
  have r3 := r2.cons (Or.inl rfl) (x'' := bitAt N q + bitAt N (q + 1) + (bitAt N (q + 4) + bitAt N (q + 4 + 1)))
    (by have := hσ (bitAt N q + bitAt N (q + 1) + (bitAt N (q + 4) + bitAt N (q + 4 + 1)))
        rwa [map_add, s1 q (by omega), s1 (q + 4) (by omega)] at this) (ones_four _ _ _ _)
  have r4 := r3.cons (Or.inl rfl) (x'' := bitAt N q + bitAt N (q + 2 * 1) + (bitAt N (q + 4) + bitAt N (q + 4 + 2 * 1)))
    (by have := hσ (bitAt N q + bitAt N (q + 2 * 1) + (bitAt N (q + 4) + bitAt N (q + 4 + 2 * 1)))
        rwa [map_add, s2 q (by omega), s2 (q + 4) (by omega)] at this) (ones_four _ _ _ _)
  exact ⟨_, r4⟩

theorem qcnn_route {q : ℕ} (hq : q + 7 < N) : ∃ x, Route N (bitAt N q) [1, 1, 2, 2, 1] x 23 := by
  obtain ⟨σ, hσ, s1, s2⟩ := pulls_of (N := N) (Or.inl rfl) (by omega)
  obtain ⟨τ, hτ, t1, t2⟩ := pulls_of (N := N) (Or.inr rfl) (by omega)
  have r0 := Route.nil (N := N) (x := bitAt N q) (ones_bitAt q)
  have r1 := r0.cons (Or.inl rfl) (s1 q (by omega) ▸ hσ _) (ones_pair _ _)
  have r2 := r1.cons (Or.inr rfl) (x'' := bitAt N q + bitAt N (q + 2) + (bitAt N (q + 1) + bitAt N (q + 1 + 2)))
    (by have := hτ (bitAt N q + bitAt N (q + 2) + (bitAt N (q + 1) + bitAt N (q + 1 + 2)))
        rwa [map_add, t1 q (by omega), t1 (q + 1) (by omega)] at this) (ones_four _ _ _ _)
  have r3 := r2.cons (Or.inr rfl) (x'' := bitAt N q + bitAt N (q + 1) + (bitAt N (q + 4) + bitAt N (q + 4 + 1)))
    (by have := hτ (bitAt N q + bitAt N (q + 2 * 2) + (bitAt N (q + 1) + bitAt N (q + 1 + 2 * 2)))
        rw [map_add, t2 q (by omega), t2 (q + 1) (by omega)] at this
        convert this using 1
        rw [show q + 2 * 2 = q + 4 by omega, show q + 1 + 2 * 2 = q + 4 + 1 by omega]
        abel) (ones_four _ _ _ _)
  have r4 := r3.cons (Or.inl rfl) (x'' := bitAt N q + bitAt N (q + 2 * 1) + (bitAt N (q + 4) + bitAt N (q + 4 + 2 * 1)))
    (by have := hσ (bitAt N q + bitAt N (q + 2 * 1) + (bitAt N (q + 4) + bitAt N (q + 4 + 2 * 1)))
        rwa [map_add, s2 q (by omega), s2 (q + 4) (by omega)] at this) (ones_four _ _ _ _)
  have r5 := r4.cons (Or.inl rfl) (x'' := (bitAt N q + bitAt N (q + 1) + (bitAt N (q + 2) + bitAt N (q + 2 + 1))) +
      (bitAt N (q + 4) + bitAt N (q + 4 + 1) + (bitAt N (q + 6) + bitAt N (q + 6 + 1))))
    (by have := hσ ((bitAt N q + bitAt N (q + 1) + (bitAt N (q + 2) + bitAt N (q + 2 + 1))) +
          (bitAt N (q + 4) + bitAt N (q + 4 + 1) + (bitAt N (q + 6) + bitAt N (q + 6 + 1))))
        rwa [map_add, map_add σ (bitAt N q + bitAt N (q + 1)), map_add σ (bitAt N (q + 4) + bitAt N (q + 4 + 1)), s1 q (by omega), s1 (q + 2) (by omega), s1 (q + 4) (by omega), s1 (q + 6) (by omega)] at this)
    ((ones_add _ _).trans (add_le_add (ones_four _ _ _ _) (ones_four _ _ _ _)))
  exact ⟨_, r5⟩

theorem family_route (f : Family) {q : ℕ} (hq : q + f.reach < N) : ∃ x, Route N (bitAt N q) f.rings x f.steps := by
  cases f
  exacts [qnn_route hq, qcnn_route hq, qcnn_route hq]

/-- C101: the mean square of an output over the random weights is at least a constant that does not depend on the number of
qubits. -/
theorem C101_variance (f : Family) (x : List ℝ) (i : Fin N) (hi : (i : ℕ) + f.reach < N) :
    16 * (3 / 8) ^ f.steps ≤ mean (f.perQubit * N) (fun w => outputs f w x i ^ 2) := by
  rw [C100_distribution f (fun o => o i ^ 2) x [Real.pi / 2], square_mean]
  obtain ⟨y, hy⟩ := family_route f hi
  have h3 : 3 ≤ N := by cases f <;> simp only [Family.reach] at hi <;> omega
  have := route_keep (m := f.layers) h3 hy (r := 0) (by have := (family_size (N := N) f).2; omega)
    (V := fun _ => onEach (fun _ : Fin N => rot Spec.Y (Real.pi / 2)) *ᵥ ket0 N) continuous_const fun _ _ _ _ _ _ => rfl
  simp only [plus_state] at this
  unfold meanG at this
  rw [mean_const, mul_one] at this
  unfold meanG
  linarith

/-- The derivative with respect to the last weight is the output after a quarter turn. -/
theorem last_deriv (f : Family) {w : List ℝ} (hw : w.length = f.perQubit * N) (x : List ℝ) (i : Fin N) :
    deriv (fun t => outputs f (shiftBy (only (f.lastWeight N i) t) w) x i) 0 =
      outputs f (shiftBy (only (f.lastWeight N i) (Real.pi / 2)) w) x i := by
  simp only [outputs_last f hw, turn_same]
  generalize (braket (onQubit i Spec.Z) _).re = a
  generalize (braket (onQubit i Spec.X) _).re = b
  have h := ((((Real.hasDerivAt_cos 0).mul_const a).sub ((Real.hasDerivAt_sin 0).mul_const b)).const_mul 4).deriv
  simp only [Real.sin_zero, Real.cos_zero, Real.cos_pi_div_two, Real.sin_pi_div_two] at h ⊢
  refine h.trans ?_
  ring

/-- C101: the gradients do not vanish: the mean square of the derivative of an output with respect to the last weight of
its qubit is that of the output, and at least a constant that does not depend on the number of qubits. -/
theorem C101_gradient (f : Family) (x : List ℝ) (i : Fin N) :
    mean (f.perQubit * N) (fun w => deriv (fun t => outputs f (shiftBy (only (f.lastWeight N i) t) w) x i) 0 ^ 2) =
      mean (f.perQubit * N) (fun w => outputs f w x i ^ 2) ∧
    ((i : ℕ) + f.reach < N → 16 * (3 / 8) ^ f.steps ≤
      mean (f.perQubit * N) (fun w => deriv (fun t => outputs f (shiftBy (only (f.lastWeight N i) t) w) x i) 0 ^ 2)) := by
  have e : mean (f.perQubit * N) (fun w => deriv (fun t => outputs f (shiftBy (only (f.lastWeight N i) t) w) x i) 0 ^ 2) =
      mean (f.perQubit * N) (fun w => outputs f w x i ^ 2) := by
    rw [← mean_shift (only (f.lastWeight N i) (Real.pi / 2)) (fun w => outputs f w x i ^ 2)
      fun k _ w hw => by rw [outputs_periodic f hw]]
    exact mean_congr fun w hw => by rw [last_deriv f hw]
  exact ⟨e, fun hi => e ▸ C101_variance f x i hi⟩

/-- C101 for the forward pass of the demos. -/
theorem C101_forward (d : Demo) (batch : List (List ℝ)) (hb : GoodSamples N batch) (k : Fin batch.length) (i : Fin N)
    (hi : (i : ℕ) + d.family.reach < N) :
    16 * (3 / 8) ^ d.family.steps ≤ mean (d.perQubit * N) (fun w => entry (d.pass N w batch) [(k : ℕ), (i : ℕ)] ^ 2) := by
  have hd := (demo_family d).1
  have hN : 2 ≤ N := by
    have : 6 ≤ d.family.reach := by cases d <;> simp [Demo.family, Family.reach]
    omega
  rw [mean_congr fun w hw => by rw [(pass_entry d hN hw hb k i).2], ← hd]
  exact C101_variance d.family batch[k] i hi

/-- With ten qubits the bound holds for the first outputs, and it holds with the same constant for a thousand. -/
example : (16 : ℝ) * (3 / 8) ^ 13 ≤ mean (15 * 10) (fun w => outputs .qnn w [1, 2] (3 : Fin 10) ^ 2) ∧
    (16 : ℝ) * (3 / 8) ^ 13 ≤ mean (15 * 1000) (fun w => outputs .qnn w [1, 2] (3 : Fin 1000) ^ 2) :=
  ⟨C101_variance .qnn [1, 2] (3 : Fin 10) (by decide), C101_variance .qnn [1, 2] (3 : Fin 1000) (by decide)⟩

end QTN.Props
