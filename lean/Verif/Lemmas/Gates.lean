import Verif.Build
import Verif.Lemmas.Kron
import Verif.Lemmas.SpecOps

/-! # `U_expand` of the gates represents the specified operators -/

namespace QTN

open Spec Matrix Complex

variable {N : ℕ}

theorem represents2_ofRows (a b c d : ℂ) :
    Represents2 (Tensor.ofRows [[a, b], [c, d]]) !![a, b; c, d] := by
  refine ⟨rfl, fun x y => ?_⟩
  have h : inB [2, 2] [(x : ℕ), (y : ℕ)] = true := by
    have := x.2; have := y.2; simp [inB, *]
  refine (Tensor.get_ofFn (s := [2, 2]) h).trans ?_
  fin_cases x <;> fin_cases y <;> simp

theorem multi_kron_rep' (hN : 0 < N) (f : Fin N → Tensor ℂ) (g : Fin N → Mat2)
    (h : ∀ i, Represents2 (f i) (g i)) :
    ∃ t, multi_kron (List.ofFn f) = .ok t ∧ Represents t (onEach g) := by
  obtain ⟨n, rfl⟩ : ∃ n, N = n + 1 := ⟨N - 1, by omega⟩
  exact multi_kron_rep f g h

theorem rep2_update {f : Fin N → Tensor ℂ} {g : Fin N → Mat2} (h : ∀ i, Represents2 (f i) (g i))
    (i : Fin N) {t : Tensor ℂ} {m : Mat2} (ht : Represents2 t m) :
    ∀ j, Represents2 (Function.update f i t j) (Function.update g i m j) := by
  intro j
  by_cases hj : j = i
  · subst hj; simpa using ht
  · simpa [Function.update_of_ne hj] using h j

theorem rep2_const : ∀ i : Fin N, Represents2 ((fun _ => Tensor.eye 2 : Fin N → Tensor ℂ) i)
    ((fun _ => 1 : Fin N → Mat2) i) := fun _ => represents2_eye

theorem Fin.castInt_le (i : Fin N) : ((i : ℕ) : ℤ) ≤ (N : ℤ) - 1 := by have := i.2; omega

theorem gate_expand_rep (i : Fin N) {t : Tensor ℂ} {m : Mat2} (ht : Represents2 t m) :
    ∃ U, gate_expand_1toN t N ((i : ℕ) : ℤ) = .ok U ∧ Represents U (onQubit i m) := by
  have hN : 0 < N := i.pos
  have hi := Fin.castInt_le i
  obtain ⟨U, hU, hr⟩ := multi_kron_rep' hN _ _ (rep2_update rep2_const i ht)
  refine ⟨U, ?_, hr.congr (onEach_update_one i m)⟩
  unfold gate_expand_1toN
  rw [raiseIf_false (by omega), raiseIf_false (by omega), pyRep_nat]
  simp only [Py.ok_bind, pySet_ofFn]
  exact hU

theorem two_qubit_control_rep {c t : Fin N} (hct : c ≠ t) {u : Tensor ℂ} {m : Mat2}
    (hu : Represents2 u m) :
    ∃ U, two_qubit_control_gate u N ((c : ℕ) : ℤ) ((t : ℕ) : ℤ) = .ok U ∧
      Represents U (controlled [c] t m) := by
  have hN : 0 < N := c.pos
  have hc := Fin.castInt_le c
  have ht := Fin.castInt_le t
  have hne : ((c : ℕ) : ℤ) ≠ ((t : ℕ) : ℤ) := by
    intro h; exact hct (Fin.ext (by exact_mod_cast h))
  obtain ⟨U1, hU1, hr1⟩ := multi_kron_rep' hN _ _
    (rep2_update rep2_const c (represents2_ofRows 1 0 0 0))
  obtain ⟨U2, hU2, hr2⟩ := multi_kron_rep' hN _ _
    (rep2_update (rep2_update rep2_const c (represents2_ofRows 0 0 0 1)) t hu)
  obtain ⟨U, hU, hr⟩ := hr1.add hr2
  refine ⟨U, ?_, hr.congr (controlled_eq hct m).symm⟩
  unfold two_qubit_control_gate zero_zero one_one
  rw [raiseIf_false (by omega), raiseIf_false (by omega), raiseIf_false (by omega),
    raiseIf_false hne, pyRep_nat]
  simp only [Py.ok_bind, pySet_ofFn, hU1, hU2]
  exact hU

/-- Wire numbers of qubits. -/
def wireList (l : List (Fin N)) : List ℤ := l.map (fun c : Fin N => ((c : ℕ) : ℤ))

theorem foldlM_pySet (cs : List (Fin N)) (f : Fin N → Tensor ℂ) (v : Tensor ℂ) :
    (wireList cs).foldlM (fun l each => pySet l each v) (List.ofFn f) =
      (Except.ok (List.ofFn (fun j => if j ∈ cs then v else f j)) : Py _) := by
  induction cs generalizing f with
  | nil => simp [wireList]
  | cons c cs ih =>
    simp only [wireList, List.map_cons, List.foldlM_cons] at ih ⊢
    rw [pySet_ofFn, Py.ok_bind, ih]
    congr 2
    funext j
    by_cases h : j = c
    · subst h; simp
    · simp [h]

theorem foldl_max_bound (l : List ℤ) (x b : ℤ) (hx : x ≤ b) (hl : ∀ y ∈ l, y ≤ b) :
    l.foldl max x ≤ b := by
  induction l generalizing x with
  | nil => simpa
  | cons y l ih =>
    simp only [List.foldl_cons]
    exact ih _ (max_le hx (hl y (by simp))) (fun z hz => hl z (by simp [hz]))

theorem foldl_min_bound (l : List ℤ) (x b : ℤ) (hx : b ≤ x) (hl : ∀ y ∈ l, b ≤ y) :
    b ≤ l.foldl min x := by
  induction l generalizing x with
  | nil => simpa
  | cons y l ih =>
    simp only [List.foldl_cons]
    exact ih _ (le_min hx (hl y (by simp))) (fun z hz => hl z (by simp [hz]))

theorem pyMax_wires {cs : List (Fin N)} (h : cs ≠ []) :
    ∃ m, pyMax (wireList cs) = .ok m ∧ m ≤ (N : ℤ) - 1 := by
  obtain ⟨c, cs, rfl⟩ := List.exists_cons_of_ne_nil h
  refine ⟨_, rfl, foldl_max_bound _ _ _ (Fin.castInt_le c) ?_⟩
  intro y hy
  obtain ⟨d, -, rfl⟩ := List.mem_map.1 hy
  exact Fin.castInt_le d

theorem pyMin_wires {cs : List (Fin N)} (h : cs ≠ []) :
    ∃ m, pyMin (wireList cs) = .ok m ∧ 0 ≤ m := by
  obtain ⟨c, cs, rfl⟩ := List.exists_cons_of_ne_nil h
  refine ⟨_, rfl, foldl_min_bound _ _ _ (by positivity) ?_⟩
  intro y hy
  obtain ⟨d, -, rfl⟩ := List.mem_map.1 hy
  positivity

theorem multi_control_rep {cs : List (Fin N)} {t : Fin N} (hcs : cs ≠ []) (ht : t ∉ cs)
    {u : Tensor ℂ} {m : Mat2} (hu : Represents2 u m) :
    ∃ U, multi_control_gate u N (wireList cs) ((t : ℕ) : ℤ) = .ok U ∧
      Represents U (controlled cs t m) := by
  have hN : 0 < N := t.pos
  have ht' := Fin.castInt_le t
  obtain ⟨mx, hmx, hmx'⟩ := pyMax_wires hcs
  obtain ⟨mn, hmn, hmn'⟩ := pyMin_wires hcs
  have hmem : ¬ ∃ each ∈ wireList cs, each = ((t : ℕ) : ℤ) := by
    rintro ⟨e, he, rfl⟩
    obtain ⟨d, hd, hde⟩ := List.mem_map.1 he
    have : d = t := Fin.ext (by exact_mod_cast hde)
    exact ht (this ▸ hd)
  have hp : ∀ j, Represents2 ((fun j => if j ∈ cs then one_one else Tensor.eye 2 :
      Fin N → Tensor ℂ) j) (ctrlProj cs j) := by
    intro j
    by_cases hj : j ∈ cs
    · simpa [ctrlProj, hj, one_one, P1] using represents2_ofRows 0 0 0 1
    · simpa [ctrlProj, hj] using represents2_eye
  obtain ⟨U2, hU2, hr2⟩ := multi_kron_rep' hN _ _ (rep2_const (N := N))
  obtain ⟨U3, hU3, hr3⟩ := multi_kron_rep' hN _ _ hp
  obtain ⟨U1, hU1, hr1⟩ := multi_kron_rep' hN _ _ (rep2_update hp t hu)
  obtain ⟨S, hS, hrS⟩ := (hr2.congr onEach_one).sub hr3
  obtain ⟨U, hU, hr⟩ := hrS.add hr1
  refine ⟨U, ?_, hr.congr (controlled_multi_eq cs ht m).symm⟩
  unfold multi_control_gate
  rw [raiseIf_false (by omega), hmx, hmn]
  simp only [Py.ok_bind]
  rw [raiseIf_false (by omega), raiseIf_false (by omega), raiseIf_false hmem, pyRep_nat,
    foldlM_pySet]
  simp only [Py.ok_bind, pySet_ofFn, hU1, hU2, hU3, hS]
  exact hU

/-! ## Matrices of the single-qubit gates -/

theorem represents2_cast {t : Tensor ℂ} {m m' : Mat2} (h : Represents2 t m) (e : m = m') :
    Represents2 t m' := e ▸ h

theorem pauliXMat_rep : Represents2 pauliXMat Spec.X := represents2_ofRows _ _ _ _
theorem pauliYMat_rep : Represents2 pauliYMat Spec.Y := represents2_ofRows _ _ _ _
theorem pauliZMat_rep : Represents2 pauliZMat Spec.Z := represents2_ofRows _ _ _ _

theorem hadamardMat_rep : Represents2 hadamardMat Spec.H := by
  refine represents2_cast ((represents2_ofRows 1 1 1 (-1)).smul _) ?_
  have h : Real.sqrt 0.5 = 1 / Real.sqrt 2 := by
    rw [show (0.5 : ℝ) = 1 / 2 by norm_num, Real.sqrt_div (by norm_num), Real.sqrt_one]
  rw [h]
  ext i j
  fin_cases i <;> fin_cases j <;> simp [Spec.H]

theorem rotMat_rep {P : Tensor ℂ} {m : Mat2} (h : Represents2 P m) (θ : ℝ) :
    Represents2 (rotMat P θ) (Spec.rot m θ) :=
  (represents2_eye.smul _).subT (h.smul _)

theorem expI_eq (θ : ℝ) : expI θ = exp (θ * I) := by
  rw [expI, Complex.exp_mul_I]; push_cast; ring

theorem phaseMat_rep (θ : ℝ) : Represents2 (phaseMat θ) (Spec.phase θ) := by
  refine represents2_cast (represents2_ofRows _ _ _ _) ?_
  rw [expI_eq]; rfl

theorem u1Mat_rep (θ : ℝ) : Represents2 (u1Mat θ) (Spec.phase θ) := by
  refine represents2_cast (((represents2_eye.smul _).subT
    ((represents2_ofRows 1 0 0 (-1)).smul _)).smul _) ?_
  have hh : (0.5 : ℝ) * θ = θ / 2 := by norm_num; ring
  have h1 : ((Real.cos (0.5 * θ) : ℝ) : ℂ) + I * ((Real.sin (0.5 * θ) : ℝ) : ℂ) =
      exp ((θ / 2 : ℝ) * I) := by rw [hh, Complex.exp_mul_I]; push_cast; ring
  have h2 : ((Real.cos (0.5 * θ) : ℝ) : ℂ) - I * ((Real.sin (0.5 * θ) : ℝ) : ℂ) =
      exp (-((θ / 2 : ℝ) * I)) := by
    rw [hh, ← neg_mul, Complex.exp_mul_I, Complex.cos_neg, Complex.sin_neg]; push_cast; ring
  rw [h1]
  ext i j
  fin_cases i <;> fin_cases j
  · simp only [Fin.zero_eta, Matrix.smul_apply, Matrix.sub_apply, Matrix.one_apply_eq,
      Matrix.of_apply, Matrix.cons_val_zero, smul_eq_mul, mul_one, h2, Spec.phase,
      Matrix.cons_val', Matrix.empty_val']
    rw [← Complex.exp_add]; simp
  · simp [Spec.phase]
  · simp [Spec.phase]
  · have e : ((Real.cos (0.5 * θ) : ℝ) : ℂ) * 1 - I * ((Real.sin (0.5 * θ) : ℝ) : ℂ) * (-1) =
      exp ((θ / 2 : ℝ) * I) := by rw [← h1]; ring
    simp only [Fin.mk_one, Matrix.smul_apply, Matrix.sub_apply, Matrix.one_apply_eq,
      Matrix.of_apply, Matrix.cons_val_one, smul_eq_mul, e, Spec.phase,
      Matrix.cons_val', Matrix.empty_val', Matrix.cons_val_fin_one]
    rw [← Complex.exp_add]; congr 1; push_cast; ring

theorem rot_Z_eq (θ : ℝ) : Spec.rot Spec.Z θ =
    !![exp (-((θ / 2 : ℝ) * I)), 0; 0, exp ((θ / 2 : ℝ) * I)] := by
  ext i j
  fin_cases i <;> fin_cases j
  · simp [Spec.rot, Spec.Z, ← neg_mul, Complex.exp_mul_I]; ring
  · simp [Spec.rot, Spec.Z]
  · simp [Spec.rot, Spec.Z]
  · simp [Spec.rot, Spec.Z, Complex.exp_mul_I]; ring

theorem rot_X_eq (θ : ℝ) : Spec.rot Spec.X θ =
    !![(Real.cos (θ / 2) : ℂ), -(I * (Real.sin (θ / 2) : ℂ));
      -(I * (Real.sin (θ / 2) : ℂ)), (Real.cos (θ / 2) : ℂ)] := by
  ext i j
  fin_cases i <;> fin_cases j <;> simp [Spec.rot, Spec.X]

theorem rot_Y_eq (θ : ℝ) : Spec.rot Spec.Y θ =
    !![(Real.cos (θ / 2) : ℂ), -(Real.sin (θ / 2) : ℂ);
      (Real.sin (θ / 2) : ℂ), (Real.cos (θ / 2) : ℂ)] := by
  have hI : I * I = -1 := Complex.I_mul_I
  ext i j
  fin_cases i <;> fin_cases j
  · simp [Spec.rot, Spec.Y]
  · simp [Spec.rot, Spec.Y]; linear_combination (sin (↑θ / 2)) * hI
  · simp [Spec.rot, Spec.Y]; linear_combination (- sin (↑θ / 2)) * hI
  · simp [Spec.rot, Spec.Y]

theorem rot_X_Z_X (θ : ℝ) : Spec.rot Spec.X (-0.5 * Real.pi) * Spec.rot Spec.Z θ *
    Spec.rot Spec.X (0.5 * Real.pi) = Spec.rot Spec.Y θ := by
  have e1 : (-0.5 * Real.pi) / 2 = -(Real.pi / 4) := by norm_num; ring
  have e2 : (0.5 * Real.pi) / 2 = Real.pi / 4 := by norm_num; ring
  have h2 : ((Real.sqrt 2 : ℝ) : ℂ) * ((Real.sqrt 2 : ℝ) : ℂ) = 2 := by
    rw [← Complex.ofReal_mul, Real.mul_self_sqrt (by norm_num)]; norm_num
  have hI : I * I = -1 := Complex.I_mul_I
  have ep : exp ((θ / 2 : ℝ) * I) = cos ((θ / 2 : ℝ) : ℂ) + sin ((θ / 2 : ℝ) : ℂ) * I :=
    Complex.exp_mul_I _
  have em : exp (-((θ / 2 : ℝ) * I)) = cos ((θ / 2 : ℝ) : ℂ) - sin ((θ / 2 : ℝ) : ℂ) * I := by
    rw [← neg_mul, Complex.exp_mul_I, Complex.cos_neg, Complex.sin_neg]; ring
  rw [rot_X_eq, rot_X_eq, rot_Z_eq, rot_Y_eq, e1, e2, Real.cos_neg, Real.sin_neg,
    Real.cos_pi_div_four, Real.sin_pi_div_four, ep, em, Complex.ofReal_cos, Complex.ofReal_sin]
  generalize cos ((θ / 2 : ℝ) : ℂ) = c
  generalize sin ((θ / 2 : ℝ) : ℂ) = s
  push_cast
  generalize ((Real.sqrt 2 : ℝ) : ℂ) = r at h2
  have hr : r ^ 2 = 2 := by rw [pow_two, h2]
  have hI2 : I ^ 2 = -1 := by rw [pow_two, hI]
  have hI3 : I ^ 3 = -I := by rw [pow_succ, hI2]; ring
  ext i j
  fin_cases i <;> fin_cases j <;>
    simp [Matrix.mul_apply, Fin.sum_univ_two] <;> ring_nf <;> simp only [hr, hI2, hI3] <;> ring

theorem U3_eq (θ φ l : ℝ) :
    Spec.rot Spec.Z φ * Spec.rot Spec.Y θ * Spec.rot Spec.Z l = Spec.U3 θ φ l := by
  have k1 : exp (-((φ / 2 : ℝ) * I)) * exp (-((l / 2 : ℝ) * I)) = exp (-((φ + l) / 2 : ℝ) * I) := by
    rw [← Complex.exp_add]; congr 1; push_cast; ring
  have k2 : exp (-((φ / 2 : ℝ) * I)) * exp (((l / 2 : ℝ) * I)) =
      exp (-((φ + l) / 2 : ℝ) * I) * exp (l * I) := by
    rw [← Complex.exp_add, ← Complex.exp_add]; congr 1; push_cast; ring
  have k3 : exp (((φ / 2 : ℝ) * I)) * exp (-((l / 2 : ℝ) * I)) =
      exp (-((φ + l) / 2 : ℝ) * I) * exp (φ * I) := by
    rw [← Complex.exp_add, ← Complex.exp_add]; congr 1; push_cast; ring
  have k4 : exp (((φ / 2 : ℝ) * I)) * exp (((l / 2 : ℝ) * I)) =
      exp (-((φ + l) / 2 : ℝ) * I) * exp ((φ + l : ℝ) * I) := by
    rw [← Complex.exp_add, ← Complex.exp_add]; congr 1; push_cast; ring
  rw [rot_Z_eq, rot_Z_eq, rot_Y_eq, Spec.U3]
  generalize exp (-((φ + l) / 2 : ℝ) * I) = g at *
  generalize exp (-((φ / 2 : ℝ) * I)) = a at *
  generalize exp (-((l / 2 : ℝ) * I)) = b at *
  generalize exp (((φ / 2 : ℝ) * I)) = a' at *
  generalize exp (((l / 2 : ℝ) * I)) = b' at *
  generalize exp ((φ + l : ℝ) * I) = g4 at *
  generalize exp (l * I) = g2 at *
  generalize exp (φ * I) = g3 at *
  generalize ((Real.cos (θ / 2) : ℝ) : ℂ) = c
  generalize ((Real.sin (θ / 2) : ℝ) : ℂ) = s
  ext i j
  fin_cases i <;> fin_cases j <;> simp [Matrix.mul_apply, Fin.sum_univ_two]
  · linear_combination c * k1
  · linear_combination s * k2
  · linear_combination s * k3
  · linear_combination c * k4

theorem u3Mat_rep (θ φ l : ℝ) : ∃ u, u3Mat [θ, φ, l] = .ok u ∧ Represents2 u (Spec.U3 θ φ l) := by
  obtain ⟨a, ha, ra⟩ := (rotMat_rep pauliZMat_rep φ).matmul
    (rotMat_rep pauliXMat_rep (-0.5 * Real.pi))
  obtain ⟨b, hb, rb⟩ := ra.matmul (rotMat_rep pauliZMat_rep θ)
  obtain ⟨c, hc, rc⟩ := rb.matmul (rotMat_rep pauliXMat_rep (0.5 * Real.pi))
  obtain ⟨d, hd, rd⟩ := rc.matmul (rotMat_rep pauliZMat_rep l)
  refine ⟨d, ?_, represents2_cast rd ?_⟩
  · have h0 : pyGet [θ, φ, l] 0 = .ok θ := rfl
    have h1 : pyGet [θ, φ, l] 1 = .ok φ := rfl
    have h2 : pyGet [θ, φ, l] 2 = .ok l := rfl
    simp only [u3Mat, h0, h1, h2, Py.ok_bind, ha, hb, hc, hd]
  · rw [← U3_eq, ← rot_X_Z_X]; simp only [mul_assoc]

/-! ## `U_expand` -/

theorem guard_ok {g : Gate} {i : ℕ} (hn : g.nqubits = (N : ℤ)) (hw : g.wires = .int (i : ℤ)) :
    g.guard = .ok () := by
  unfold Gate.guard
  rw [raiseIf_false]
  rw [hn, hw]
  simp only [Wires.int.injEq, not_or]
  omega

theorem guard_list {g : Gate} {l : List ℤ} (hn : g.nqubits = (N : ℤ)) (hw : g.wires = .list l) :
    g.guard = .ok () := by
  unfold Gate.guard
  rw [raiseIf_false]
  rw [hn, hw]
  simp only [not_or, reduceCtorEq, not_false_eq_true, and_true]

theorem single_rep {g : Gate} (i : Fin N) {m : Mat2} (hn : g.nqubits = (N : ℤ))
    (hw : g.wires = .int ((i : ℕ) : ℤ)) (hm : Represents2 g.matrix m) :
    ∃ U, g.single_U_expand = .ok U ∧ Represents U (onQubit i m) := by
  obtain ⟨U, hU, hr⟩ := gate_expand_rep i hm
  refine ⟨U, ?_, hr⟩
  unfold Gate.single_U_expand
  rw [guard_ok hn hw, hw, hn]
  simpa [Wires.asInt] using hU

theorem ctrl_rep {g : Gate} {c t : Fin N} (hct : c ≠ t) {u : Tensor ℂ} {m : Mat2}
    (hn : g.nqubits = (N : ℤ)) (hw : g.wires = .list [((c : ℕ) : ℤ), ((t : ℕ) : ℤ)])
    (hm : Represents2 u m) :
    ∃ U, g.ctrl_U_expand u = .ok U ∧ Represents U (controlled [c] t m) := by
  obtain ⟨U, hU, hr⟩ := two_qubit_control_rep hct hm
  refine ⟨U, ?_, hr⟩
  unfold Gate.ctrl_U_expand
  rw [guard_list hn hw, hw, hn]
  have h0 : pyGet [((c : ℕ) : ℤ), ((t : ℕ) : ℤ)] 0 = .ok ((c : ℕ) : ℤ) := rfl
  have h1 : pyGet [((c : ℕ) : ℤ), ((t : ℕ) : ℤ)] 1 = .ok ((t : ℕ) : ℤ) := rfl
  simpa [Wires.asList, h0, h1] using hU

theorem pyGet_last (l : List ℤ) (x : ℤ) : pyGet (l ++ [x]) (-1) = .ok x := by
  have : wrapIdx (l ++ [x]).length (-1) = .ok l.length := by
    simp [wrapIdx]
  simp only [pyGet, this, Py.ok_bind]
  simp

theorem mc_rep {g : Gate} {cs : List (Fin N)} {t : Fin N} (hcs : cs ≠ []) (ht : t ∉ cs)
    (hn : g.nqubits = (N : ℤ)) (hw : g.wires = .list (wireList (cs ++ [t]))) :
    ∃ U, g.mc_U_expand = .ok U ∧ Represents U (controlled cs t Spec.X) := by
  obtain ⟨U, hU, hr⟩ := multi_control_rep hcs ht pauliXMat_rep
  refine ⟨U, ?_, hr⟩
  have e : wireList (cs ++ [t]) = wireList cs ++ [((t : ℕ) : ℤ)] := by simp [wireList]
  unfold Gate.mc_U_expand
  rw [guard_list hn hw, hw, hn, e]
  simpa [Wires.asList, pyGet_last] using hU

theorem rot2_rep {g : Gate} {p q : Fin N} (hpq : p ≠ q) {P : Tensor ℂ} {m : Mat2} {θ : ℝ}
    (hn : g.nqubits = (N : ℤ)) (hw : g.wires = .list [((p : ℕ) : ℤ), ((q : ℕ) : ℤ)])
    (hp : g.params = [θ]) (hP : Represents2 P m) :
    ∃ U, g.rot2_U_expand P = .ok U ∧ Represents U (Spec.rot2 m θ p q) := by
  have hN : 0 < N := p.pos
  have hp' := Fin.castInt_le p
  have hne : ((p : ℕ) : ℤ) ≠ ((q : ℕ) : ℤ) := by
    intro h; exact hpq (Fin.ext (by exact_mod_cast h))
  obtain ⟨U1, hU1, hr1⟩ := multi_kron_rep' hN _ _ (rep2_const (N := N))
  obtain ⟨U2, hU2, hr2⟩ := multi_kron_rep' hN _ _ (rep2_update (rep2_update rep2_const p hP) q hP)
  obtain ⟨U, hU, hr⟩ := ((hr1.congr onEach_one).smul ((Real.cos (θ / 2) : ℝ) : ℂ)).sub
    (hr2.smul (I * ((Real.sin (θ / 2) : ℝ) : ℂ)))
  refine ⟨U, ?_, hr.congr ?_⟩
  · unfold Gate.rot2_U_expand
    rw [guard_list hn hw, hw, hn, hp]
    have h0 : pyGet [((p : ℕ) : ℤ), ((q : ℕ) : ℤ)] 0 = .ok ((p : ℕ) : ℤ) := rfl
    have h1 : pyGet [((p : ℕ) : ℤ), ((q : ℕ) : ℤ)] 1 = .ok ((q : ℕ) : ℤ) := rfl
    have h2 : pyGet [θ] 0 = .ok θ := rfl
    rw [raiseIf_false (by omega)]
    simp only [Wires.asList, h0, h1, h2, Py.ok_bind]
    rw [raiseIf_false (by omega), raiseIf_false hne, pyRep_nat]
    simp only [Py.ok_bind, pySet_ofFn, hU1, hU2]
    exact hU
  · rw [Spec.rot2, onQubit_mul_onQubit hpq]

theorem swap_rep {g : Gate} {p q : Fin N} (hpq : p ≠ q)
    (hn : g.nqubits = (N : ℤ)) (hw : g.wires = .list [((p : ℕ) : ℤ), ((q : ℕ) : ℤ)]) :
    ∃ U, g.swap_U_expand = .ok U ∧ Represents U (Spec.swap p q) := by
  have hN : 0 < N := p.pos
  have H := fun a b c d a' b' c' d' : ℂ => multi_kron_rep' hN _ _ (rep2_update
    (rep2_update rep2_const p (represents2_ofRows a b c d)) q (represents2_ofRows a' b' c' d'))
  obtain ⟨U1, hU1, hr1⟩ := H 1 0 0 0 1 0 0 0
  obtain ⟨U2, hU2, hr2⟩ := H 0 0 1 0 0 1 0 0
  obtain ⟨U3, hU3, hr3⟩ := H 0 1 0 0 0 0 1 0
  obtain ⟨U4, hU4, hr4⟩ := H 0 0 0 1 0 0 0 1
  obtain ⟨V1, hV1, hs1⟩ := hr1.add hr2
  obtain ⟨V2, hV2, hs2⟩ := hs1.add hr3
  obtain ⟨V3, hV3, hs3⟩ := hs2.add hr4
  refine ⟨V3, ?_, hs3.congr (swap_eq hpq).symm⟩
  unfold Gate.swap_U_expand
  rw [guard_list hn hw, hw, hn]
  have h0 : pyGet [((p : ℕ) : ℤ), ((q : ℕ) : ℤ)] 0 = .ok ((p : ℕ) : ℤ) := rfl
  have h1 : pyGet [((p : ℕ) : ℤ), ((q : ℕ) : ℤ)] 1 = .ok ((q : ℕ) : ℤ) := rfl
  simp only [Wires.asList, h0, h1, Py.ok_bind, pyRep_nat, pySet_ofFn, zero_zero, one_one, zero_one,
    one_zero, hU1, hU2, hU3, hU4, hV1, hV2]
  exact hV3

end QTN
