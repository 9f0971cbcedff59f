import Verif.SpecInstr
import Verif.Lemmas.SpecOps
import Verif.Lemmas.Gates

/-! # The specified operators are unitary; adjoints -/

namespace QTN

open Spec Matrix Complex

variable {N : ℕ}

theorem P1_mul : P1 * P1 = P1 := by
  ext i j; fin_cases i <;> fin_cases j <;> simp [P1, Matrix.mul_apply, Fin.sum_univ_two]

theorem P1_conj : P1ᴴ = P1 := by
  ext i j; fin_cases i <;> fin_cases j <;> simp [P1]

theorem ctrlProj_mul (cs : List (Fin N)) (j : Fin N) : ctrlProj cs j * ctrlProj cs j = ctrlProj cs j := by
  unfold ctrlProj; split_ifs <;> simp [P1_mul]

theorem ctrlProj_conj (cs : List (Fin N)) (j : Fin N) : (ctrlProj cs j)ᴴ = ctrlProj cs j := by
  unfold ctrlProj; split_ifs <;> simp [P1_conj]

theorem controlled_mul {cs : List (Fin N)} {t : Fin N} (ht : t ∉ cs) (g h : Mat2) :
    controlled cs t g * controlled cs t h = controlled cs t (g * h) := by
  have ht1 : ctrlProj cs t = 1 := by simp [ctrlProj, ht]
  have e1 : onEach (ctrlProj cs) * onEach (ctrlProj cs) = onEach (ctrlProj cs) := by
    rw [onEach_mul]; congr 1; funext j; exact ctrlProj_mul cs j
  have e2 : onEach (ctrlProj cs) * onEach (Function.update (ctrlProj cs) t h) =
      onEach (Function.update (ctrlProj cs) t h) := by
    rw [onEach_mul]; congr 1; funext j
    by_cases hj : j = t
    · subst hj; simp [ht1]
    · simp [Function.update_of_ne hj, ctrlProj_mul]
  have e3 : onEach (Function.update (ctrlProj cs) t g) * onEach (ctrlProj cs) =
      onEach (Function.update (ctrlProj cs) t g) := by
    rw [onEach_mul]; congr 1; funext j
    by_cases hj : j = t
    · subst hj; simp [ht1]
    · simp [Function.update_of_ne hj, ctrlProj_mul]
  have e4 : onEach (Function.update (ctrlProj cs) t g) * onEach (Function.update (ctrlProj cs) t h) =
      onEach (Function.update (ctrlProj cs) t (g * h)) := by
    rw [onEach_mul]; congr 1; funext j
    by_cases hj : j = t
    · subst hj; simp
    · simp [Function.update_of_ne hj, ctrlProj_mul]
  rw [controlled_multi_eq cs ht, controlled_multi_eq cs ht, controlled_multi_eq cs ht]
  simp only [add_mul, mul_add, sub_mul, mul_sub, one_mul, mul_one, e1, e2, e3, e4]
  abel

theorem controlled_one {cs : List (Fin N)} {t : Fin N} (ht : t ∉ cs) :
    controlled cs t 1 = (1 : QOp N) := by
  rw [controlled_multi_eq cs ht]
  have : Function.update (ctrlProj cs) t 1 = ctrlProj cs := by
    funext j
    by_cases hj : j = t
    · subst hj; simp [ctrlProj, ht]
    · simp [Function.update_of_ne hj]
  rw [this]; abel

theorem controlled_conjTranspose {cs : List (Fin N)} {t : Fin N} (ht : t ∉ cs) (g : Mat2) :
    (controlled cs t g)ᴴ = controlled cs t gᴴ := by
  rw [controlled_multi_eq cs ht, controlled_multi_eq cs ht, conjTranspose_add, conjTranspose_sub,
    conjTranspose_one, onEach_conjTranspose, onEach_conjTranspose]
  congr 3
  · funext j; exact ctrlProj_conj cs j
  · funext j
    by_cases hj : j = t
    · subst hj; simp
    · simp [Function.update_of_ne hj, ctrlProj_conj]

/-- A 2×2 matrix is unitary. -/
def IsU2 (g : Mat2) : Prop := g * gᴴ = 1 ∧ gᴴ * g = 1

theorem IsU2.of_left {g : Mat2} (h : g * gᴴ = 1) : IsU2 g := ⟨h, mul_eq_one_comm.1 h⟩

theorem isUnitaryOp_of_left {M : QOp N} (h : M * Mᴴ = 1) : IsUnitaryOp M :=
  ⟨h, mul_eq_one_comm.1 h⟩

theorem isUnitaryOp_one : IsUnitaryOp (1 : QOp N) := isUnitaryOp_of_left (by simp)

theorem Spec.IsUnitaryOp.mul {M M' : QOp N} (h : IsUnitaryOp M) (h' : IsUnitaryOp M') :
    IsUnitaryOp (M * M') := by
  apply isUnitaryOp_of_left
  rw [conjTranspose_mul, mul_assoc, ← mul_assoc M', h'.1, one_mul, h.1]

theorem Spec.IsUnitaryOp.adj {M : QOp N} (h : IsUnitaryOp M) : IsUnitaryOp Mᴴ :=
  ⟨by rw [conjTranspose_conjTranspose]; exact h.2, by rw [conjTranspose_conjTranspose]; exact h.1⟩

theorem onQubit_unitary {g : Mat2} (h : IsU2 g) (i : Fin N) : IsUnitaryOp (onQubit i g) :=
  isUnitaryOp_of_left (by rw [onQubit_conjTranspose, onQubit_mul, h.1, onQubit_one])

theorem controlled_unitary {g : Mat2} (h : IsU2 g) {cs : List (Fin N)} {t : Fin N} (ht : t ∉ cs) :
    IsUnitaryOp (controlled cs t g) :=
  isUnitaryOp_of_left (by rw [controlled_conjTranspose ht, controlled_mul ht, h.1, controlled_one ht])

theorem onEach_unitary {g : Fin N → Mat2} (h : ∀ i, IsU2 (g i)) : IsUnitaryOp (onEach g) :=
  isUnitaryOp_of_left (by
    rw [onEach_conjTranspose, onEach_mul]
    simp only [fun i => (h i).1]
    exact onEach_one)

theorem swap_conjTranspose (p q : Fin N) : (Spec.swap p q)ᴴ = Spec.swap p q := by
  ext a b
  simp only [conjTranspose_apply, Spec.swap]
  have : (b = a ∘ Equiv.swap p q) ↔ (a = b ∘ Equiv.swap p q) := by
    constructor <;> · rintro rfl; funext j; simp
  by_cases h : a = b ∘ Equiv.swap p q
  · rw [if_pos (this.2 h), if_pos h]; simp
  · rw [if_neg (fun hh => h (this.1 hh)), if_neg h]; simp

theorem swap_mul_self (p q : Fin N) : Spec.swap p q * Spec.swap p q = (1 : QOp N) := by
  ext a b
  simp only [Matrix.mul_apply, Spec.swap, Matrix.one_apply, mul_ite, mul_one, mul_zero]
  rw [Finset.sum_ite_eq' Finset.univ (b ∘ Equiv.swap p q)]
  simp only [Finset.mem_univ, if_true]
  have : (b ∘ Equiv.swap p q) ∘ Equiv.swap p q = b := by funext j; simp
  rw [this]

theorem swap_unitary (p q : Fin N) : IsUnitaryOp (Spec.swap p q) :=
  isUnitaryOp_of_left (by rw [swap_conjTranspose, swap_mul_self])

/-! ## 2×2 matrices -/

theorem X_conj : Spec.Xᴴ = Spec.X := by
  ext i j; fin_cases i <;> fin_cases j <;> simp [Spec.X]
theorem Y_conj : Spec.Yᴴ = Spec.Y := by
  ext i j; fin_cases i <;> fin_cases j <;> simp [Spec.Y]
theorem Z_conj : Spec.Zᴴ = Spec.Z := by
  ext i j; fin_cases i <;> fin_cases j <;> simp [Spec.Z]
theorem X_sq : Spec.X * Spec.X = 1 := by
  ext i j; fin_cases i <;> fin_cases j <;> simp [Spec.X, Matrix.mul_apply, Fin.sum_univ_two]
theorem Y_sq : Spec.Y * Spec.Y = 1 := by
  ext i j; fin_cases i <;> fin_cases j <;> simp [Spec.Y, Matrix.mul_apply, Fin.sum_univ_two]
theorem Z_sq : Spec.Z * Spec.Z = 1 := by
  ext i j; fin_cases i <;> fin_cases j <;> simp [Spec.Z, Matrix.mul_apply, Fin.sum_univ_two]
theorem H_conj : Spec.Hᴴ = Spec.H := by
  ext i j; fin_cases i <;> fin_cases j <;> simp [Spec.H, Complex.conj_ofReal]
theorem H_sq : Spec.H * Spec.H = 1 := by
  have h2 : ((Real.sqrt 2 : ℝ) : ℂ)⁻¹ * ((Real.sqrt 2 : ℝ) : ℂ)⁻¹ = 1 / 2 := by
    rw [← mul_inv, ← Complex.ofReal_mul, Real.mul_self_sqrt (by norm_num)]; norm_num
  ext i j
  fin_cases i <;> fin_cases j <;> simp [Spec.H, Matrix.mul_apply, Fin.sum_univ_two, h2] <;> norm_num

theorem X_u2 : IsU2 Spec.X := IsU2.of_left (by rw [X_conj, X_sq])
theorem Y_u2 : IsU2 Spec.Y := IsU2.of_left (by rw [Y_conj, Y_sq])
theorem Z_u2 : IsU2 Spec.Z := IsU2.of_left (by rw [Z_conj, Z_sq])
theorem H_u2 : IsU2 Spec.H := IsU2.of_left (by rw [H_conj, H_sq])

theorem cos_sq_add_sin_sq_c (x : ℝ) : ((Real.cos x : ℝ) : ℂ) ^ 2 + ((Real.sin x : ℝ) : ℂ) ^ 2 = 1 := by
  rw [← Complex.ofReal_pow, ← Complex.ofReal_pow, ← Complex.ofReal_add, Real.cos_sq_add_sin_sq]; simp

theorem rot_conj {P : Mat2} (hP : Pᴴ = P) (θ : ℝ) : (Spec.rot P θ)ᴴ = Spec.rot P (-θ) := by
  have e : -θ / 2 = -(θ / 2) := by ring
  unfold Spec.rot
  rw [conjTranspose_sub, conjTranspose_smul, conjTranspose_smul, conjTranspose_one, hP, e,
    Real.cos_neg, Real.sin_neg]
  simp [Complex.conj_ofReal, Complex.conj_I, -Complex.ofReal_cos, -Complex.ofReal_sin]

theorem exp_form_mul {n : Type} [Fintype n] [DecidableEq n] {P : Matrix n n ℂ} (hP : P * P = 1)
    (c s c' s' : ℂ) :
    (c • (1 : Matrix n n ℂ) - (I * s) • P) * (c' • (1 : Matrix n n ℂ) - (I * s') • P) =
      (c * c' - s * s') • (1 : Matrix n n ℂ) - (I * (s * c' + c * s')) • P := by
  have hI : I * I = -1 := Complex.I_mul_I
  simp only [sub_mul, mul_sub, smul_mul_smul_comm, mul_one, one_mul, hP]
  have h1 : I * s * (I * s') = -(s * s') := by linear_combination (s * s') * hI
  rw [h1]
  module

theorem rot_mul {P : Mat2} (hP : P * P = 1) (α β : ℝ) :
    Spec.rot P α * Spec.rot P β = Spec.rot P (α + β) := by
  unfold Spec.rot
  rw [exp_form_mul hP, add_div, Real.cos_add, Real.sin_add]
  push_cast; rfl

theorem rot_zero (P : Mat2) : Spec.rot P 0 = 1 := by simp [Spec.rot]

theorem rot_u2 {P : Mat2} (hP : Pᴴ = P) (hP2 : P * P = 1) (θ : ℝ) : IsU2 (Spec.rot P θ) :=
  IsU2.of_left (by rw [rot_conj hP, rot_mul hP2]; simp [rot_zero])

theorem IsU2.mul {g h : Mat2} (hg : IsU2 g) (hh : IsU2 h) : IsU2 (g * h) :=
  IsU2.of_left (by rw [conjTranspose_mul, mul_assoc, ← mul_assoc h, hh.1, one_mul, hg.1])

theorem U3_u2 (θ φ l : ℝ) : IsU2 (Spec.U3 θ φ l) := by
  rw [← U3_eq]
  exact ((rot_u2 Z_conj Z_sq φ).mul (rot_u2 Y_conj Y_sq θ)).mul (rot_u2 Z_conj Z_sq l)

theorem U3_conj (θ φ l : ℝ) : (Spec.U3 θ φ l)ᴴ = Spec.U3 (-θ) (-l) (-φ) := by
  rw [← U3_eq, ← U3_eq, conjTranspose_mul, conjTranspose_mul, rot_conj Z_conj, rot_conj Y_conj,
    rot_conj Z_conj, mul_assoc]

theorem phase_conj (θ : ℝ) : (Spec.phase θ)ᴴ = Spec.phase (-θ) := by
  ext i j
  fin_cases i <;> fin_cases j <;> simp [Spec.phase, ← Complex.exp_conj]

theorem phase_mul (α β : ℝ) : Spec.phase α * Spec.phase β = Spec.phase (α + β) := by
  ext i j
  fin_cases i <;> fin_cases j <;>
    simp [Spec.phase, Matrix.mul_apply, Fin.sum_univ_two, ← Complex.exp_add, add_mul]

theorem phase_zero : Spec.phase 0 = 1 := by
  ext i j
  fin_cases i <;> fin_cases j <;> simp [Spec.phase]

theorem phase_u2 (θ : ℝ) : IsU2 (Spec.phase θ) :=
  IsU2.of_left (by rw [phase_conj, phase_mul]; simp [phase_zero])

/-! ## Two-qubit rotations -/

theorem pp_sq {P : Mat2} (hP : P * P = 1) {p q : Fin N} (h : p ≠ q) :
    (onQubit p P * onQubit q P) * (onQubit p P * onQubit q P) = 1 := by
  rw [mul_assoc, ← mul_assoc (onQubit q P), ← onQubit_comm h, mul_assoc, onQubit_mul, ← mul_assoc,
    onQubit_mul, hP, onQubit_one, onQubit_one, mul_one]

theorem pp_conj {P : Mat2} (hP : Pᴴ = P) {p q : Fin N} (h : p ≠ q) :
    (onQubit p P * onQubit q P)ᴴ = onQubit p P * onQubit q P := by
  rw [conjTranspose_mul, onQubit_conjTranspose, onQubit_conjTranspose, hP, onQubit_comm h]

theorem rot2_conj {P : Mat2} (hP : Pᴴ = P) {p q : Fin N} (h : p ≠ q) (θ : ℝ) :
    (Spec.rot2 P θ p q)ᴴ = Spec.rot2 P (-θ) p q := by
  have e : -θ / 2 = -(θ / 2) := by ring
  unfold Spec.rot2
  rw [conjTranspose_sub, conjTranspose_smul, conjTranspose_smul, conjTranspose_one, pp_conj hP h, e,
    Real.cos_neg, Real.sin_neg]
  simp [Complex.conj_ofReal, Complex.conj_I, -Complex.ofReal_cos, -Complex.ofReal_sin]

theorem rot2_mul {P : Mat2} (hP : P * P = 1) {p q : Fin N} (h : p ≠ q) (α β : ℝ) :
    Spec.rot2 P α p q * Spec.rot2 P β p q = Spec.rot2 P (α + β) p q := by
  unfold Spec.rot2
  rw [exp_form_mul (pp_sq hP h), add_div, Real.cos_add, Real.sin_add]
  push_cast; rfl

theorem rot2_zero (P : Mat2) (p q : Fin N) : Spec.rot2 P 0 p q = 1 := by simp [Spec.rot2]

theorem rot2_unitary {P : Mat2} (hP : Pᴴ = P) (hP2 : P * P = 1) {p q : Fin N} (h : p ≠ q) (θ : ℝ) :
    IsUnitaryOp (Spec.rot2 P θ p q) :=
  isUnitaryOp_of_left (by rw [rot2_conj hP h, rot2_mul hP2 h]; simp [rot2_zero])

/-- Every gate of the library is unitary. -/
theorem instr_unitary (ins : Instr N) (h : ins.WF) : IsUnitaryOp ins.op := by
  cases ins with
  | h i => exact onQubit_unitary H_u2 i
  | x i => exact onQubit_unitary X_u2 i
  | y i => exact onQubit_unitary Y_u2 i
  | z i => exact onQubit_unitary Z_u2 i
  | rx θ i => exact onQubit_unitary (rot_u2 X_conj X_sq θ) i
  | ry θ i => exact onQubit_unitary (rot_u2 Y_conj Y_sq θ) i
  | rz θ i => exact onQubit_unitary (rot_u2 Z_conj Z_sq θ) i
  | u1 θ i => exact onQubit_unitary (phase_u2 θ) i
  | u3 θ φ l i => exact onQubit_unitary (U3_u2 θ φ l) i
  | rxx θ p q => exact rot2_unitary X_conj X_sq h θ
  | ryy θ p q => exact rot2_unitary Y_conj Y_sq h θ
  | rzz θ p q => exact rot2_unitary Z_conj Z_sq h θ
  | cnot c t => exact controlled_unitary X_u2 (by simpa using Ne.symm h)
  | cz c t => exact controlled_unitary Z_u2 (by simpa using Ne.symm h)
  | cphase θ c t => exact controlled_unitary (phase_u2 θ) (by simpa using Ne.symm h)
  | cu3 θ φ l c t => exact controlled_unitary (U3_u2 θ φ l) (by simpa using Ne.symm h)
  | swap p q => exact swap_unitary p q
  | toffoli a b t => exact controlled_unitary X_u2 (by simpa using ⟨Ne.symm h.2.1, Ne.symm h.2.2⟩)
  | mcnot cs t => exact controlled_unitary X_u2 h.2

/-- The constructor call succeeds and `U_expand` computes the specified operator. -/
theorem build_ok (ins : Instr N) (h : ins.WF) :
    ∃ g, build ins = .ok g ∧ Computes g.U_expand ins.op := by
  cases ins with
  | h i => exact ⟨_, rfl, single_rep i rfl rfl hadamardMat_rep⟩
  | x i => exact ⟨_, rfl, single_rep i rfl rfl pauliXMat_rep⟩
  | y i => exact ⟨_, rfl, single_rep i rfl rfl pauliYMat_rep⟩
  | z i => exact ⟨_, rfl, single_rep i rfl rfl pauliZMat_rep⟩
  | rx θ i => exact ⟨_, rfl, single_rep i rfl rfl (rotMat_rep pauliXMat_rep θ)⟩
  | ry θ i => exact ⟨_, rfl, single_rep i rfl rfl (rotMat_rep pauliYMat_rep θ)⟩
  | rz θ i => exact ⟨_, rfl, single_rep i rfl rfl (rotMat_rep pauliZMat_rep θ)⟩
  | u1 θ i => exact ⟨_, rfl, single_rep i rfl rfl (u1Mat_rep θ)⟩
  | u3 θ φ l i =>
    obtain ⟨u, hu, hr⟩ := u3Mat_rep θ φ l
    refine ⟨⟨.u3, N, .int (wire i), [θ, φ, l], u, noMat⟩, ?_, single_rep i rfl rfl hr⟩
    simp only [build, mkU3, hu, Py.ok_bind]
  | rxx θ p q => exact ⟨_, rfl, rot2_rep h rfl rfl rfl pauliXMat_rep⟩
  | ryy θ p q => exact ⟨_, rfl, rot2_rep h rfl rfl rfl pauliYMat_rep⟩
  | rzz θ p q => exact ⟨_, rfl, rot2_rep h rfl rfl rfl pauliZMat_rep⟩
  | cnot c t => exact ⟨_, rfl, ctrl_rep h rfl rfl pauliXMat_rep⟩
  | cz c t => exact ⟨_, rfl, ctrl_rep h rfl rfl pauliZMat_rep⟩
  | cphase θ c t =>
    refine ⟨_, rfl, ?_⟩
    have hg : (mkCphase θ N (.list [wire c, wire t])).guard = .ok () := guard_list rfl rfl
    have h0 : pyGet [θ] 0 = .ok θ := rfl
    obtain ⟨U, hU, hr⟩ := ctrl_rep (g := mkCphase θ N (.list [wire c, wire t])) h rfl rfl
      (phaseMat_rep θ)
    refine ⟨U, ?_, hr⟩
    have hp : (mkCphase θ N (.list [wire c, wire t])).params = [θ] := rfl
    have hc : (mkCphase θ N (.list [wire c, wire t])).cls = .cphase := rfl
    simp only [Gate.U_expand, hc, hg, hp, h0, Py.ok_bind, hU]
  | cu3 θ φ l c t =>
    obtain ⟨u, hu, hr⟩ := u3Mat_rep θ φ l
    obtain ⟨m, hm, -⟩ := two_qubit_control_rep (N := 2) (c := 0) (t := 1) (by decide) hr
    refine ⟨⟨.cu3, N, .list [wire c, wire t], [θ, φ, l], m, u⟩, ?_, ctrl_rep h rfl rfl hr⟩
    have hm' : two_qubit_control_gate u 2 0 1 = .ok m := by simpa using hm
    simp only [build, mkCu3, hu, Py.ok_bind, hm']
  | swap p q => exact ⟨_, rfl, swap_rep h rfl rfl⟩
  | toffoli a b t =>
    refine ⟨_, rfl, mc_rep (cs := [a, b]) (t := t) (by simp) ?_ rfl rfl⟩
    simpa using ⟨Ne.symm h.2.1, Ne.symm h.2.2⟩
  | mcnot cs t =>
    refine ⟨⟨.mcnot, N, .list (cs.map wire ++ [wire t]), [], noMat, noMat⟩, ?_,
      mc_rep (cs := cs) (t := t) h.1 h.2 rfl ?_⟩
    · simp only [build, mkMcnot, Wires.asList, Py.ok_bind, pyGet_last]
    · simp [wireList]

end QTN
