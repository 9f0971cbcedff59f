import Verif.Lemmas.RoundCircuit

/-! # Rounding of angles -/

namespace QTN

open Spec Matrix Complex Finset

variable {N : ℕ}

namespace Arith

variable (A : Arith)

theorem build_mapAngles (ins : Instr N) : A.build (ins.mapAngles A.fl) = A.build ins := by
  cases ins <;> simp only [Instr.mapAngles, build, rotMat, u1Mat, A.fl_fl]

theorem wf_mapAngles (f : ℝ → ℝ) (ins : Instr N) (h : ins.WF) : (ins.mapAngles f).WF := by
  cases ins <;> exact h

theorem angles_mapAngles (f : ℝ → ℝ) (ins : Instr N) : (ins.mapAngles f).angles = ins.angles.map f := by
  cases ins <;> rfl

theorem cost_mapAngles (f : ℝ → ℝ) (u δ : ℝ) (ins : Instr N) : (ins.mapAngles f).cost u δ = ins.cost u δ := by
  cases ins <;> rfl

theorem roundBound_mapAngles (f : ℝ → ℝ) (u δ : ℝ) (l : List (Instr N)) :
    roundBound u δ (l.map (Instr.mapAngles f)) = roundBound u δ l := by
  unfold roundBound
  rw [List.map_map]
  congr 2
  refine List.map_congr_left fun ins _ => ?_
  rw [Function.comp, cost_mapAngles]

theorem mapAngles_of (ins : Instr N) {f : ℝ → ℝ} (h : ∀ θ ∈ ins.angles, f θ = θ) : ins.mapAngles f = ins := by
  cases ins <;> simp_all [Instr.mapAngles, Instr.angles]

theorem mapM_congr {α β : Type} {f g : α → Py β} {l : List α} (h : ∀ x ∈ l, f x = g x) : l.mapM f = l.mapM g := by
  induction l with
  | nil => rfl
  | cons x l ih => rw [List.mapM_cons, List.mapM_cons, h x (by simp), ih fun y hy => h y (by simp [hy])]

theorem mapM_map {α β γ : Type} (f : α → β) (g : β → Py γ) (l : List α) : (l.map f).mapM g = l.mapM (fun x => g (f x)) := by
  induction l with
  | nil => rfl
  | cons x l ih => rw [List.map_cons, List.mapM_cons, List.mapM_cons, ih]

theorem build_list (l : List (Instr N)) : (l.map (Instr.mapAngles A.fl)).mapM A.build = l.mapM A.build := by
  rw [mapM_map]
  exact mapM_congr fun ins _ => A.build_mapAngles ins

theorem eye_rep : Represents (Tensor.eye (2 ^ N) : Tensor ℂ) (1 : QOp N) := represents_eye

/-- The computed unitary, compared with the operator for the rounded angles. -/
theorem circuitU_round (l : List (Instr N)) (hw : ∀ ins ∈ l, ins.WF) :
    ∃ gates U W, l.mapM A.build = .ok gates ∧ A.circuitU N gates = .ok U ∧ Represents U W ∧ RepM A W ∧
      ∀ b, dist2 (column W b) (column (gateSeqOp (l.map (Instr.mapAngles A.fl))) b) ≤ roundBound A.u A.δ l := by
  obtain ⟨gates, U, W, h1, h2, h3, h4, h5⟩ := circuit_round A (l.map (Instr.mapAngles A.fl))
    (fun ins h => by
      obtain ⟨i, hi, rfl⟩ := List.mem_map.1 h
      exact wf_mapAngles _ i (hw i hi))
    (fun ins h θ hθ => by
      obtain ⟨i, hi, rfl⟩ := List.mem_map.1 h
      rw [angles_mapAngles] at hθ
      obtain ⟨x, -, rfl⟩ := List.mem_map.1 hθ
      exact A.fl_fl x)
    (acc := Tensor.eye (2 ^ N)) (W := 1) (V := 1) eye_rep signM_one.rep isUnitaryOp_one (e := 1)
    (fun b => by simp [norm2])
  rw [build_list] at h1
  refine ⟨gates, U, W, h1, h2, h3, h4, fun b => ?_⟩
  rw [← roundBound_mapAngles A.fl]
  unfold roundBound gateSeqOp
  have := h5 b
  rw [mul_one, one_mul] at this
  have e : dist2 (column W b) (column (timeOrdered ((l.map (Instr.mapAngles A.fl)).map Instr.op)) b) =
      norm2 (fun a => W a b - (timeOrdered ((l.map (Instr.mapAngles A.fl)).map Instr.op)) a b) := rfl
  rw [e]
  linarith

theorem gateSeqOp_unitary (l : List (Instr N)) (hw : ∀ ins ∈ l, ins.WF) : IsUnitaryOp (gateSeqOp l) :=
  timeOrdered_unitary fun u hu => by
    obtain ⟨i, hi, rfl⟩ := List.mem_map.1 hu
    exact instr_unitary i (hw i hi)

theorem near_phase1 {cs : List (Fin N)} {t : Fin N} (ht : t ∉ cs) (α β : ℝ) :
    NearOp 1 |α - β| (controlled cs t (Spec.phase α)) (controlled cs t (Spec.phase β)) := by
  refine ⟨controlled_unitary (phase_u2 _) ht, controlled_unitary (phase_u2 _) ht, by simp, fun v => ?_⟩
  rw [one_smul, ← Matrix.sub_mulVec]
  refine ((bnd_controlled_sub ht _ _).mono ?_) v
  have e2 : frob (Spec.phase α - Spec.phase β) = ‖exp (α * I) - exp (β * I)‖ := by
    unfold frob
    rw [Real.sqrt_eq_iff_mul_self_eq (Finset.sum_nonneg fun _ _ => Finset.sum_nonneg fun _ _ => by positivity)
      (norm_nonneg _)]
    simp [Fin.sum_univ_two, Spec.phase]; ring
  rw [e2]
  exact norm_exp_sub α β

theorem near_angles (ins : Instr N) (hw : ins.WF) :
    NearOp 1 (A.u * (ins.angles.map abs).sum) ins.op (ins.mapAngles A.fl).op := by
  have hX : IsAxis Spec.X := Or.inl rfl
  have hY : IsAxis Spec.Y := Or.inr (Or.inl rfl)
  have hZ : IsAxis Spec.Z := Or.inr (Or.inr rfl)
  have hu := A.u_nonneg
  have d : ∀ θ, |θ - A.fl θ| ≤ A.u * |θ| := fun θ => by rw [abs_sub_comm]; exact A.fl_err θ
  have half : ∀ θ, |θ - A.fl θ| / 2 ≤ A.u * ([θ].map abs).sum := fun θ => by
    have := d θ
    have h2 : 0 ≤ A.u * |θ| := by positivity
    simp only [List.map_cons, List.map_nil, List.sum_cons, List.sum_nil, add_zero]
    linarith
  have full : ∀ θ, |θ - A.fl θ| ≤ A.u * ([θ].map abs).sum := fun θ => by
    have := d θ
    simp only [List.map_cons, List.map_nil, List.sum_cons, List.sum_nil, add_zero]
    linarith
  have three : ∀ θ φ l, (|θ - A.fl θ| + |φ - A.fl φ| + |l - A.fl l|) / 2 ≤ A.u * ([θ, φ, l].map abs).sum := fun θ φ l => by
    have h1 := d θ
    have h2 := d φ
    have h3 := d l
    have h4 : 0 ≤ A.u * |θ| := by positivity
    have h5 : 0 ≤ A.u * |φ| := by positivity
    have h6 : 0 ≤ A.u * |l| := by positivity
    simp only [List.map_cons, List.map_nil, List.sum_cons, List.sum_nil, add_zero]
    linarith
  have same : ∀ {i : Instr N}, i.WF → i.angles = [] → i.mapAngles A.fl = i →
      NearOp 1 (A.u * (i.angles.map abs).sum) i.op (i.mapAngles A.fl).op := by
    intro i h h0 h1
    rw [h0, h1]
    simpa using NearOp.refl (instr_unitary i h)
  have nil : ∀ (t : Fin N) (M : Mat2), onQubit t M = controlled [] t M := fun t M => (Props.controlled_nil t M).symm
  cases ins with
  | h i => exact same hw rfl rfl
  | x i => exact same hw rfl rfl
  | y i => exact same hw rfl rfl
  | z i => exact same hw rfl rfl
  | rx θ i => exact (near_rot1 hX i θ _).mono (half θ)
  | ry θ i => exact (near_rot1 hY i θ _).mono (half θ)
  | rz θ i => exact (near_rot1 hZ i θ _).mono (half θ)
  | u1 θ i =>
    show NearOp 1 _ (onQubit i _) (onQubit i _)
    rw [nil, nil]
    exact (near_phase1 (by simp) θ _).mono (full θ)
  | u3 θ φ l i =>
    show NearOp 1 _ (onQubit i _) (onQubit i _)
    rw [nil, nil]
    exact (near_U3 (by simp) θ φ l _ _ _).mono (three θ φ l)
  | rxx θ p q => exact (near_rot2 hX hw θ _).mono (half θ)
  | ryy θ p q => exact (near_rot2 hY hw θ _).mono (half θ)
  | rzz θ p q => exact (near_rot2 hZ hw θ _).mono (half θ)
  | cnot c t => exact same hw rfl rfl
  | cz c t => exact same hw rfl rfl
  | cphase θ c t => exact (near_phase1 (by simpa using Ne.symm hw) θ _).mono (full θ)
  | cu3 θ φ l c t => exact (near_U3 (by simpa using Ne.symm hw) θ φ l _ _ _).mono (three θ φ l)
  | swap p q => exact same hw rfl rfl
  | toffoli a b t => exact same hw rfl rfl
  | mcnot cs t => exact same hw rfl rfl

theorem near_gates (l : List (Instr N)) (hw : ∀ ins ∈ l, ins.WF) :
    NearOp 1 (A.u * angleSum l) (gateSeqOp l) (gateSeqOp (l.map (Instr.mapAngles A.fl))) := by
  induction l with
  | nil => simpa [angleSum, gateSeqOp] using NearOp.refl (N := N) isUnitaryOp_one
  | cons ins l ih =>
    have h1 := A.near_angles ins (hw ins (by simp))
    have h2 := ih fun i hi => hw i (by simp [hi])
    have e : ∀ (i : Instr N) (l : List (Instr N)), gateSeqOp (i :: l) = gateSeqOp l * i.op := fun i l => by
      unfold gateSeqOp; rw [List.map_cons, timeOrdered_cons]
    rw [List.map_cons, e, e]
    refine (h2.mul1 h1).mono (le_of_eq ?_)
    unfold angleSum
    rw [List.map_cons, List.sum_cons]
    ring

/-- The computed unitary, compared with the operator for the angles as given. -/
theorem circuitU_round' (l : List (Instr N)) (hw : ∀ ins ∈ l, ins.WF) :
    ∃ gates U W, l.mapM A.build = .ok gates ∧ A.circuitU N gates = .ok U ∧ Represents U W ∧ RepM A W ∧
      (∀ b, dist2 (column W b) (column (gateSeqOp (l.map (Instr.mapAngles A.fl))) b) ≤ roundBound A.u A.δ l) ∧
      ∀ b, dist2 (column W b) (column (gateSeqOp l) b) ≤ roundBound A.u A.δ l + A.u * angleSum l := by
  obtain ⟨gates, U, W, h1, h2, h3, h4, h5⟩ := A.circuitU_round l hw
  refine ⟨gates, U, W, h1, h2, h3, h4, h5, fun b => ?_⟩
  obtain ⟨-, -, -, h6⟩ := A.near_gates l hw
  have e : ∀ M : QOp N, column M b = M *ᵥ Pi.single b 1 := fun M => by funext a; simp [column]
  have h7 := h6 (Pi.single b 1)
  have h8 : norm2 (Pi.single b 1 : QState N) = 1 := by
    have := norm2_col (isUnitaryOp_one (N := N)) b
    rw [← this]
    have := e 1
    rw [Matrix.one_mulVec] at this
    rw [← this]; rfl
  rw [one_smul, h8, mul_one, ← e, ← e] at h7
  have h9 := dist2_triangle (column W b) (column (gateSeqOp (l.map (Instr.mapAngles A.fl))) b) (column (gateSeqOp l) b)
  have h10 : dist2 (column (gateSeqOp (l.map (Instr.mapAngles A.fl))) b) (column (gateSeqOp l) b) ≤ A.u * angleSum l := by
    rw [dist2_comm, dist2_eq]; exact h7
  linarith [h5 b]

end Arith

end QTN
