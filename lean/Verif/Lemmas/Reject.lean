import Verif.Lemmas.Unitary
import Mathlib.Tactic.IntervalCases

/-! # Rejection of invalid wires by `U_expand`; parameter updates; adjoint gates -/

namespace QTN

open Spec

theorem raiseIf_raises {α : Type} {c : Prop} [Decidable c] {e : PyErr} {f : Unit → Py α}
    (h : c) : (raiseIf c e >>= f) = .error e := by simp [raiseIf, h]

theorem bind_raises {α β : Type} {p : Py α} {f : α → Py β} (h : ∀ a, p = .ok a → Raises (f a)) :
    Raises (p >>= f) := by
  cases p with
  | error e => exact ⟨e, rfl⟩
  | ok a => exact h a rfl

theorem error_raises {α : Type} (e : PyErr) : Raises (.error e : Py α) := ⟨e, rfl⟩

theorem gate_expand_raises (t : Tensor ℂ) (N i : ℤ) (h : i < 0 ∨ N ≤ i) :
    gate_expand_1toN t N i = .error .valueError := by
  unfold gate_expand_1toN
  by_cases hN : N < 1
  · rw [raiseIf_raises hN]
  · rw [raiseIf_false hN, Py.ok_bind, raiseIf_raises (by omega)]

theorem guard_cases (g : Gate) : g.guard = .ok () ∨ g.guard = .error .valueError := by
  unfold Gate.guard raiseIf; split_ifs <;> simp

theorem single_raises {g : Gate} {i : ℤ} (hw : g.wires = .int i) (h : i < 0 ∨ g.nqubits ≤ i) :
    g.single_U_expand = .error .valueError := by
  unfold Gate.single_U_expand
  rcases guard_cases g with hg | hg
  · rw [hg, hw]; simpa [Wires.asInt] using gate_expand_raises g.matrix g.nqubits i h
  · rw [hg]; rfl

theorem two_qubit_control_raises (u : Tensor ℂ) (N c t : ℤ)
    (h : c = t ∨ c < 0 ∨ t < 0 ∨ N ≤ c ∨ N ≤ t) :
    two_qubit_control_gate u N c t = .error .valueError := by
  unfold two_qubit_control_gate
  by_cases h1 : N < 1
  · rw [raiseIf_raises h1]
  rw [raiseIf_false h1, Py.ok_bind]
  by_cases h2 : max c t > N - 1
  · rw [raiseIf_raises h2]
  rw [raiseIf_false h2, Py.ok_bind]
  by_cases h3 : min c t < 0
  · rw [raiseIf_raises h3]
  rw [raiseIf_false h3, Py.ok_bind, raiseIf_raises (by omega)]

theorem ctrl_raises {g : Gate} {c t : ℤ} (u : Tensor ℂ) (hw : g.wires = .list [c, t])
    (h : c = t ∨ c < 0 ∨ t < 0 ∨ g.nqubits ≤ c ∨ g.nqubits ≤ t) :
    g.ctrl_U_expand u = .error .valueError := by
  unfold Gate.ctrl_U_expand
  rcases guard_cases g with hg | hg
  · have h0 : pyGet [c, t] 0 = .ok c := rfl
    have h1 : pyGet [c, t] 1 = .ok t := rfl
    rw [hg, hw]
    simpa [Wires.asList, h0, h1] using two_qubit_control_raises u g.nqubits c t h
  · rw [hg]; rfl

theorem foldl_max_ge (l : List ℤ) (x : ℤ) : x ≤ l.foldl max x ∧ ∀ y ∈ l, y ≤ l.foldl max x := by
  induction l generalizing x with
  | nil => simp
  | cons a l ih =>
    obtain ⟨h1, h2⟩ := ih (max x a)
    simp only [List.foldl_cons, List.mem_cons, forall_eq_or_imp]
    exact ⟨le_trans (le_max_left _ _) h1, le_trans (le_max_right _ _) h1, h2⟩

theorem foldl_min_le (l : List ℤ) (x : ℤ) : l.foldl min x ≤ x ∧ ∀ y ∈ l, l.foldl min x ≤ y := by
  induction l generalizing x with
  | nil => simp
  | cons a l ih =>
    obtain ⟨h1, h2⟩ := ih (min x a)
    simp only [List.foldl_cons, List.mem_cons, forall_eq_or_imp]
    exact ⟨le_trans h1 (min_le_left _ _), le_trans h1 (min_le_right _ _), h2⟩

theorem multi_control_raises (u : Tensor ℂ) (N : ℤ) (cs : List ℤ) (t : ℤ)
    (h : t ∈ cs ∨ cs = [] ∨ (∃ w ∈ t :: cs, w < 0 ∨ N ≤ w)) :
    multi_control_gate u N cs t = .error .valueError := by
  unfold multi_control_gate
  by_cases h1 : N < 1
  · rw [raiseIf_raises h1]
  rw [raiseIf_false h1, Py.ok_bind]
  cases cs with
  | nil => rfl
  | cons c cs =>
    simp only [pyMax, pyMin, Py.ok_bind]
    have hM := foldl_max_ge cs c
    have hm := foldl_min_le cs c
    by_cases h2 : max (cs.foldl max c) t > N - 1
    · rw [raiseIf_raises h2]
    rw [raiseIf_false h2, Py.ok_bind]
    by_cases h3 : min (cs.foldl min c) t < 0
    · rw [raiseIf_raises h3]
    rw [raiseIf_false h3, Py.ok_bind, raiseIf_raises]
    rcases h with h | h | ⟨w, hw, h⟩
    · exact ⟨t, h, rfl⟩
    · cases h
    · exfalso
      simp only [List.mem_cons] at hw
      rcases hw with rfl | rfl | hw
      · omega
      · have := hM.1; have := hm.1; omega
      · have := hM.2 w hw; have := hm.2 w hw; omega

theorem mc_raises {g : Gate} {cs : List ℤ} {t : ℤ} (hw : g.wires = .list (cs ++ [t]))
    (h : t ∈ cs ∨ cs = [] ∨ (∃ w ∈ t :: cs, w < 0 ∨ g.nqubits ≤ w)) :
    g.mc_U_expand = .error .valueError := by
  unfold Gate.mc_U_expand
  rcases guard_cases g with hg | hg
  · rw [hg, hw]
    simpa [Wires.asList, pyGet_last] using multi_control_raises pauliXMat g.nqubits cs t h
  · rw [hg]; rfl

theorem wrapIdx_raises {n : ℕ} {i : ℤ} (h : (n : ℤ) ≤ i) : wrapIdx n i = .error .indexError := by
  unfold wrapIdx
  rw [if_pos (by omega), if_neg (by omega)]

theorem rot2_raises {g : Gate} {p q : ℤ} (P : Tensor ℂ) (hw : g.wires = .list [p, q])
    (h : p = q ∨ p < 0 ∨ q < 0 ∨ g.nqubits ≤ p ∨ g.nqubits ≤ q) :
    Raises (g.rot2_U_expand P) := by
  have h0 : pyGet [p, q] 0 = .ok p := rfl
  have h1 : pyGet [p, q] 1 = .ok q := rfl
  unfold Gate.rot2_U_expand
  rcases guard_cases g with hg | hg
  swap
  · rw [hg]; exact error_raises _
  rw [hg, hw]
  simp only [Wires.asList, h0, h1, Py.ok_bind]
  by_cases hN : g.nqubits < 1
  · rw [raiseIf_raises hN]; exact error_raises _
  rw [raiseIf_false hN, Py.ok_bind]
  by_cases h2 : p < 0 ∨ p > g.nqubits - 1 ∨ q < 0 ∨ p > g.nqubits - 1
  · rw [raiseIf_raises h2]; exact error_raises _
  rw [raiseIf_false h2, Py.ok_bind]
  by_cases h3 : p = q
  · rw [raiseIf_raises h3]; exact error_raises _
  rw [raiseIf_false h3, Py.ok_bind]
  refine bind_raises (fun θ _ => ?_)
  refine bind_raises (fun l hl => ?_)
  have hlen : l.length = g.nqubits.toNat := by
    unfold pySet at hl
    cases hk : wrapIdx (pyRep (Tensor.eye 2 : Tensor ℂ) g.nqubits).length p with
    | error e => rw [hk] at hl; cases hl
    | ok k => rw [hk] at hl; cases hl; simp [pyRep]
  have : pySet l q P = .error .indexError := by
    unfold pySet
    rw [wrapIdx_raises (by rw [hlen]; omega)]; rfl
  rw [this]; exact error_raises _

theorem inB_two {m n : ℕ} {idx : List ℕ} (h : inB [m, n] idx = true) :
    ∃ i, i < m ∧ ∃ j, j < n ∧ idx = [i, j] := by
  have hl := inB_length h
  obtain ⟨i, j, rfl⟩ := List.length_eq_two.1 hl
  simp only [inB_cons, inB_nil, Bool.and_eq_true, decide_eq_true_eq, and_true] at h
  exact ⟨i, h.1, j, h.2, rfl⟩

/-! ## Parameter updates -/

theorem phaseMat_eq_u1Mat (θ : ℝ) : phaseMat θ = u1Mat θ := (phaseMat_rep θ).ext (u1Mat_rep θ)

theorem cphaseMat_eq (θ : ℝ) : cphaseMatUpd θ = cphaseMat θ := by
  apply Tensor.ext'
  · rfl
  · intro idx h
    obtain ⟨i, hi, j, hj, rfl⟩ := inB_two (m := 4) (n := 4) h
    have hs : (Tensor.eye 4 : Tensor ℂ).shape = (Tensor.smul (expI θ - 1)
      (Tensor.ofRows [[0, 0, 0, 0], [0, 0, 0, 0], [0, 0, 0, 0], [0, 0, 0, 1]])).shape := rfl
    have hr : ∀ a00 a01 a02 a03 a10 a11 a12 a13 a20 a21 a22 a23 a30 a31 a32 a33 : ℂ,
      (Tensor.ofRows [[a00, a01, a02, a03], [a10, a11, a12, a13], [a20, a21, a22, a23],
        [a30, a31, a32, a33]]).get [i, j] = ([[a00, a01, a02, a03], [a10, a11, a12, a13],
        [a20, a21, a22, a23], [a30, a31, a32, a33]].getD i []).getD j 0 := by
      intros
      exact Tensor.get_ofFn (s := [4, 4]) (by simp [inB, hi, hj])
    rw [cphaseMatUpd, cphaseMat, Tensor.addT_get hs, Tensor.eye_get hi hj, Tensor.smul_get, hr, hr]
    interval_cases i <;> interval_cases j <;> simp

/-- The adjoint of a gate as a gate. -/
noncomputable def Instr.adj {N : ℕ} : Instr N → Instr N
  | .rx θ i => .rx (-θ) i
  | .ry θ i => .ry (-θ) i
  | .rz θ i => .rz (-θ) i
  | .u1 θ i => .u1 (-θ) i
  | .u3 θ φ l i => .u3 (-θ) (-l) (-φ) i
  | .rxx θ p q => .rxx (-θ) p q
  | .ryy θ p q => .ryy (-θ) p q
  | .rzz θ p q => .rzz (-θ) p q
  | .cphase θ c t => .cphase (-θ) c t
  | .cu3 θ φ l c t => .cu3 (-θ) (-l) (-φ) c t
  | i => i

theorem Instr.adj_WF {N : ℕ} {ins : Instr N} (h : ins.WF) : (Instr.adj ins).WF := by
  cases ins <;> exact h

open Matrix in
theorem Instr.adj_op {N : ℕ} (ins : Instr N) (h : ins.WF) : (Instr.adj ins).op = (ins.op)ᴴ := by
  cases ins with
  | h i => exact (by rw [Instr.op, onQubit_conjTranspose, H_conj]; rfl)
  | x i => exact (by rw [Instr.op, onQubit_conjTranspose, X_conj]; rfl)
  | y i => exact (by rw [Instr.op, onQubit_conjTranspose, Y_conj]; rfl)
  | z i => exact (by rw [Instr.op, onQubit_conjTranspose, Z_conj]; rfl)
  | rx θ i => exact (by rw [Instr.op, onQubit_conjTranspose, rot_conj X_conj]; rfl)
  | ry θ i => exact (by rw [Instr.op, onQubit_conjTranspose, rot_conj Y_conj]; rfl)
  | rz θ i => exact (by rw [Instr.op, onQubit_conjTranspose, rot_conj Z_conj]; rfl)
  | u1 θ i => exact (by rw [Instr.op, onQubit_conjTranspose, phase_conj]; rfl)
  | u3 θ φ l i => exact (by rw [Instr.op, onQubit_conjTranspose, U3_conj]; rfl)
  | rxx θ p q => exact (rot2_conj X_conj h θ).symm
  | ryy θ p q => exact (rot2_conj Y_conj h θ).symm
  | rzz θ p q => exact (rot2_conj Z_conj h θ).symm
  | cnot c t =>
    exact (by rw [Instr.op, controlled_conjTranspose (by simpa using Ne.symm h), X_conj]; rfl)
  | cz c t =>
    exact (by rw [Instr.op, controlled_conjTranspose (by simpa using Ne.symm h), Z_conj]; rfl)
  | cphase θ c t =>
    exact (by rw [Instr.op, controlled_conjTranspose (by simpa using Ne.symm h), phase_conj]; rfl)
  | cu3 θ φ l c t =>
    exact (by rw [Instr.op, controlled_conjTranspose (by simpa using Ne.symm h), U3_conj]; rfl)
  | swap p q => exact (swap_conjTranspose p q).symm
  | toffoli a b t =>
    exact (by rw [Instr.op, controlled_conjTranspose
      (by simpa using ⟨Ne.symm h.2.1, Ne.symm h.2.2⟩), X_conj]; rfl)
  | mcnot cs t => exact (by rw [Instr.op, controlled_conjTranspose h.2, X_conj]; rfl)

theorem build_cls {N : ℕ} {ins : Instr N} {g : Gate} (h : build ins = .ok g) :
    g.operation_dagger = build (Instr.adj ins) := by
  have h0 : ∀ θ : ℝ, pyGet [θ] 0 = .ok θ := fun _ => rfl
  have h30 : ∀ a b c : ℝ, pyGet [a, b, c] 0 = .ok a := fun _ _ _ => rfl
  have h31 : ∀ a b c : ℝ, pyGet [a, b, c] 1 = .ok b := fun _ _ _ => rfl
  have h32 : ∀ a b c : ℝ, pyGet [a, b, c] 2 = .ok c := fun _ _ _ => rfl
  cases ins with
  | h i => cases h; rfl
  | x i => cases h; rfl
  | y i => cases h; rfl
  | z i => cases h; rfl
  | rx θ i => cases h; simp [Gate.operation_dagger, mkRx, h0, build, Instr.adj]
  | ry θ i => cases h; simp [Gate.operation_dagger, mkRy, h0, build, Instr.adj]
  | rz θ i => cases h; simp [Gate.operation_dagger, mkRz, h0, build, Instr.adj]
  | u1 θ i => cases h; simp [Gate.operation_dagger, mkU1, h0, build, Instr.adj]
  | u3 θ φ l i =>
    obtain ⟨u, hu, -⟩ := u3Mat_rep θ φ l
    simp only [build, mkU3, hu, Py.ok_bind] at h
    cases h
    simp [Gate.operation_dagger, h30, h31, h32, build, Instr.adj]
  | rxx θ p q => cases h; simp [Gate.operation_dagger, mkRxx, h0, build, Instr.adj]
  | ryy θ p q => cases h; simp [Gate.operation_dagger, mkRyy, h0, build, Instr.adj]
  | rzz θ p q => cases h; simp [Gate.operation_dagger, mkRzz, h0, build, Instr.adj]
  | cnot c t => cases h; rfl
  | cz c t => cases h; rfl
  | cphase θ c t => cases h; simp [Gate.operation_dagger, mkCphase, h0, build, Instr.adj]
  | cu3 θ φ l c t =>
    obtain ⟨u, hu, hr⟩ := u3Mat_rep θ φ l
    obtain ⟨m, hm, -⟩ := two_qubit_control_rep (N := 2) (c := 0) (t := 1) (by decide) hr
    have hm' : two_qubit_control_gate u 2 0 1 = .ok m := by simpa using hm
    simp only [build, mkCu3, hu, Py.ok_bind, hm'] at h
    cases h
    simp [Gate.operation_dagger, h30, h31, h32, build, Instr.adj]
  | swap p q => cases h; rfl
  | toffoli a b t =>
    have : build (.toffoli a b t) = .ok ⟨.toffoli, N, .list [wire a, wire b, wire t], [], toffoliMat,
      noMat⟩ := rfl
    rw [this] at h; cases h; rfl
  | mcnot cs t =>
    have : build (.mcnot cs t) = .ok ⟨.mcnot, N, .list (cs.map wire ++ [wire t]), [], noMat, noMat⟩ := by
      simp only [build, mkMcnot, Wires.asList, Py.ok_bind, pyGet_last]
    rw [this] at h; cases h; exact this.symm

end QTN
