import Verif.Lemmas.Reject

/-!
# Properties of the gates: C01–C08, C52 (and the `U_expand` part of C54)

`Computes p M` says that the call `p` returns a `2^N × 2^N` matrix equal to the operator `M`;
`wire i` is the Python integer of qubit `i`.
-/

namespace QTN.Props

open QTN Spec Matrix Complex

/-! ## C01 -/

/-- C01: a single-qubit gate on wire `i` of `N` qubits applies its 2×2 matrix to qubit `i` and the
identity to every other qubit. -/
theorem C01_single_qubit_gate (N : ℕ) (i : Fin N) (θ φ l : ℝ) :
    Computes (mkHadamard N (.int (wire i))).U_expand (onQubit i H) ∧
    Computes (mkPauliX N (.int (wire i))).U_expand (onQubit i X) ∧
    Computes (mkPauliY N (.int (wire i))).U_expand (onQubit i Y) ∧
    Computes (mkPauliZ N (.int (wire i))).U_expand (onQubit i Z) ∧
    Computes (mkRx θ N (.int (wire i))).U_expand (onQubit i (rot X θ)) ∧
    Computes (mkRy θ N (.int (wire i))).U_expand (onQubit i (rot Y θ)) ∧
    Computes (mkRz θ N (.int (wire i))).U_expand (onQubit i (rot Z θ)) ∧
    Computes (mkU1 θ N (.int (wire i))).U_expand (onQubit i (phase θ)) ∧
    Computes (do (← mkU3 [θ, φ, l] N (.int (wire i))).U_expand) (onQubit i (U3 θ φ l)) := by
  refine ⟨?_, ?_, ?_, ?_, ?_, ?_, ?_, ?_, ?_⟩
  · exact single_rep i rfl rfl hadamardMat_rep
  · exact single_rep i rfl rfl pauliXMat_rep
  · exact single_rep i rfl rfl pauliYMat_rep
  · exact single_rep i rfl rfl pauliZMat_rep
  · exact single_rep i rfl rfl (rotMat_rep pauliXMat_rep θ)
  · exact single_rep i rfl rfl (rotMat_rep pauliYMat_rep θ)
  · exact single_rep i rfl rfl (rotMat_rep pauliZMat_rep θ)
  · exact single_rep i rfl rfl (u1Mat_rep θ)
  · obtain ⟨g, hg, hc⟩ := build_ok (.u3 θ φ l i) trivial
    have hg' : mkU3 [θ, φ, l] N (.int (wire i)) = .ok g := hg
    rw [hg']; exact hc

/-- C01, error branch: with a wire outside `0..N-1` every single-qubit gate raises ValueError. -/
theorem C01_rejects (N i : ℤ) (h : i < 0 ∨ N ≤ i) (θ : ℝ) :
    (mkHadamard N (.int i)).U_expand = .error .valueError ∧
    (mkPauliX N (.int i)).U_expand = .error .valueError ∧
    (mkPauliY N (.int i)).U_expand = .error .valueError ∧
    (mkPauliZ N (.int i)).U_expand = .error .valueError ∧
    (mkRx θ N (.int i)).U_expand = .error .valueError ∧
    (mkRy θ N (.int i)).U_expand = .error .valueError ∧
    (mkRz θ N (.int i)).U_expand = .error .valueError ∧
    (mkU1 θ N (.int i)).U_expand = .error .valueError ∧
    (∀ a b c, (do (← mkU3 [a, b, c] N (.int i)).U_expand) = .error .valueError) ∧
    (∀ p, Raises (do (← mkU3 p N (.int i)).U_expand)) := by
  refine ⟨single_raises rfl h, single_raises rfl h, single_raises rfl h, single_raises rfl h,
    single_raises rfl h, single_raises rfl h, single_raises rfl h, single_raises rfl h, fun a b c => ?_, fun p => ?_⟩
  · obtain ⟨u, hu, -⟩ := u3Mat_rep a b c
    unfold mkU3
    rw [hu]
    exact single_raises rfl h
  refine bind_raises (fun g hg => ⟨.valueError, ?_⟩)
  unfold mkU3 at hg
  cases hu : u3Mat p with
  | error e => rw [hu] at hg; cases hg
  | ok u => rw [hu] at hg; cases hg; exact single_raises rfl h

/-- Non-vacuity: Hadamard on the middle qubit of three; wire 3 of three qubits is invalid. -/
example : (∃ i : Fin 3, wire i = 1) ∧ ((3 : ℤ) < 0 ∨ (3 : ℤ) ≤ 3) := ⟨⟨1, rfl⟩, by norm_num⟩

/-! ## C02 -/

/-- C02: controlled gates apply the 2×2 gate to the target exactly when the control is 1. -/
theorem C02_controlled_gates (N : ℕ) (c t : Fin N) (hct : c ≠ t) (θ φ l : ℝ) :
    Computes (mkCnot N (.list [wire c, wire t])).U_expand (controlled [c] t X) ∧
    Computes (mkCz N (.list [wire c, wire t])).U_expand (controlled [c] t Z) ∧
    Computes (mkCphase θ N (.list [wire c, wire t])).U_expand (controlled [c] t (phase θ)) ∧
    Computes (do (← mkCu3 [θ, φ, l] N (.list [wire c, wire t])).U_expand)
      (controlled [c] t (U3 θ φ l)) := by
  refine ⟨ctrl_rep hct rfl rfl pauliXMat_rep, ctrl_rep hct rfl rfl pauliZMat_rep, ?_, ?_⟩
  · obtain ⟨g, hg, hc⟩ := build_ok (.cphase θ c t) hct
    cases hg; exact hc
  · obtain ⟨g, hg, hc⟩ := build_ok (.cu3 θ φ l c t) hct
    have hg' : mkCu3 [θ, φ, l] N (.list [wire c, wire t]) = .ok g := hg
    rw [hg']; exact hc

/-- C02 read on basis states: column `b` of the CNOT matrix is the basis state `b` if the control
bit is 0 and `b` with the target bit flipped if it is 1. -/
theorem C02_cnot_on_basis (N : ℕ) (c t : Fin N) (hct : c ≠ t) :
    ∃ U, (mkCnot N (.list [wire c, wire t])).U_expand = .ok U ∧ ∀ a b : Bits N,
      U.get [enc a, enc b] =
        if a = (if b c = 1 then Function.update b t (1 - b t) else b) then 1 else 0 := by
  obtain ⟨U, hU, hr⟩ := (C02_controlled_gates N c t hct 0 0 0).1
  refine ⟨U, hU, fun a b => ?_⟩
  rw [hr.2]
  simp only [controlled, List.mem_singleton, forall_eq, onQubit, Matrix.one_apply]
  have key : ∀ x : Fin 2, x = 0 ∨ x = 1 := by decide
  by_cases hb : b c = 1
  · simp only [hb, if_true]
    by_cases hh : ∀ j, j ≠ t → a j = b j
    · rw [if_pos hh]
      have : a = Function.update b t (1 - b t) ↔ a t = 1 - b t := by
        constructor
        · intro h; rw [h]; simp
        · intro h
          funext j
          by_cases hj : j = t
          · subst hj; simpa using h
          · simpa [Function.update_of_ne hj] using hh j hj
      rw [if_congr this rfl rfl]
      rcases key (a t) with h1 | h1 <;> rcases key (b t) with h2 | h2 <;>
        simp [h1, h2, Spec.X]
    · rw [if_neg hh, if_neg]
      rintro rfl
      exact hh (fun j hj => by simp [Function.update_of_ne hj])
  · simp [hb]

/-- C02, error branch: equal or out-of-range wires raise ValueError. -/
theorem C02_rejects (N c t : ℤ) (h : c = t ∨ c < 0 ∨ t < 0 ∨ N ≤ c ∨ N ≤ t) (θ : ℝ) (p : List ℝ) :
    (mkCnot N (.list [c, t])).U_expand = .error .valueError ∧
    (mkCz N (.list [c, t])).U_expand = .error .valueError ∧
    (mkCphase θ N (.list [c, t])).U_expand = .error .valueError ∧
    (∀ a b l, (do (← mkCu3 [a, b, l] N (.list [c, t])).U_expand) = .error .valueError) ∧
    Raises (do (← mkCu3 p N (.list [c, t])).U_expand) := by
  refine ⟨ctrl_raises _ rfl h, ctrl_raises _ rfl h, ?_, fun a b l => ?_, ?_⟩
  · have hc : (mkCphase θ N (.list [c, t])).U_expand = (do
        (mkCphase θ N (.list [c, t])).guard
        let theta ← pyGet [θ] 0
        (mkCphase θ N (.list [c, t])).ctrl_U_expand (phaseMat theta)) := rfl
    rw [hc]
    rcases guard_cases (mkCphase θ N (.list [c, t])) with hg | hg
    · rw [hg]; exact ctrl_raises _ rfl h
    · rw [hg]; rfl
  · obtain ⟨u, hu, hr⟩ := u3Mat_rep a b l
    obtain ⟨m, hm, -⟩ := two_qubit_control_rep (N := 2) (c := 0) (t := 1) (by decide) hr
    have hm : two_qubit_control_gate u 2 0 1 = .ok m := by simpa using hm
    unfold mkCu3
    rw [hu, Py.ok_bind, hm]
    exact ctrl_raises _ rfl h
  · refine bind_raises (fun g hg => ⟨.valueError, ?_⟩)
    unfold mkCu3 at hg
    cases hu : u3Mat p with
    | error e => rw [hu] at hg; cases hg
    | ok u =>
      rw [hu, Py.ok_bind] at hg
      cases hm : two_qubit_control_gate u 2 0 1 with
      | error e => rw [hm] at hg; cases hg
      | ok m => rw [hm] at hg; cases hg; exact ctrl_raises _ rfl h

example : ((2 : Fin 3) ≠ 0) ∧ ((1 : ℤ) = 1 ∨ (1 : ℤ) < 0 ∨ (1 : ℤ) < 0 ∨ (3 : ℤ) ≤ 1 ∨ (3 : ℤ) ≤ 1) :=
  ⟨by decide, Or.inl rfl⟩

/-! ## C03 -/

/-- C03: Toffoli and multi-controlled NOT, any number of controls in any order (repetitions
allowed for the multi-controlled NOT). -/
theorem C03_multi_controlled_not (N : ℕ) :
    (∀ a b t : Fin N, a ≠ t → b ≠ t →
      Computes (do (← mkToffoli N (.list [wire a, wire b, wire t])).U_expand)
        (controlled [a, b] t X)) ∧
    (∀ (cs : List (Fin N)) (t : Fin N), cs ≠ [] → t ∉ cs →
      Computes (do (← mkMcnot N (.list (cs.map wire ++ [wire t]))).U_expand)
        (controlled cs t X)) := by
  constructor
  · intro a b t hat hbt
    exact mc_rep (g := ⟨.toffoli, N, .list [wire a, wire b, wire t], [], toffoliMat, noMat⟩)
      (cs := [a, b]) (t := t) (by simp) (by simpa using ⟨Ne.symm hat, Ne.symm hbt⟩) rfl rfl
  · intro cs t hcs ht
    obtain ⟨g, hg, hc⟩ := build_ok (.mcnot cs t) ⟨hcs, ht⟩
    have hg' : mkMcnot N (.list (cs.map wire ++ [wire t])) = .ok g := hg
    rw [hg']; exact hc

/-- C03 read on basis states: a basis state goes to the state with bit `t` flipped iff all control
bits are 1. -/
theorem C03_on_basis (N : ℕ) (cs : List (Fin N)) (t : Fin N) (a b : Bits N) :
    controlled cs t X a b =
      if a = (if ∀ c ∈ cs, b c = 1 then Function.update b t (1 - b t) else b) then 1 else 0 := by
  have key : ∀ x : Fin 2, x = 0 ∨ x = 1 := by decide
  unfold controlled
  by_cases hb : ∀ c ∈ cs, b c = 1
  · rw [if_pos hb, if_pos hb]
    unfold onQubit
    by_cases hh : ∀ j, j ≠ t → a j = b j
    · rw [if_pos hh]
      have : a = Function.update b t (1 - b t) ↔ a t = 1 - b t := by
        constructor
        · intro h; rw [h]; simp
        · intro h
          funext j
          by_cases hj : j = t
          · subst hj; simpa using h
          · simpa [Function.update_of_ne hj] using hh j hj
      rw [if_congr this rfl rfl]
      rcases key (a t) with h1 | h1 <;> rcases key (b t) with h2 | h2 <;>
        simp [h1, h2, Spec.X]
    · rw [if_neg hh, if_neg]
      rintro rfl
      exact hh (fun j hj => by simp [Function.update_of_ne hj])
  · rw [if_neg hb, if_neg hb, Matrix.one_apply]

/-- C03, error branch. -/
theorem C03_rejects (N : ℤ) (cs : List ℤ) (t : ℤ)
    (h : t ∈ cs ∨ cs = [] ∨ ∃ w ∈ t :: cs, w < 0 ∨ N ≤ w) :
    (do (← mkToffoli N (.list (cs ++ [t]))).U_expand) = .error .valueError ∧
    (do (← mkMcnot N (.list (cs ++ [t]))).U_expand) = .error .valueError := by
  constructor
  · unfold mkToffoli
    rw [if_pos (by simp)]
    simp only [Wires.asList, Py.ok_bind]
    by_cases hl : (cs ++ [t]).length ≠ 3
    · simp only [raiseIf, if_pos hl]; rfl
    · simp only [raiseIf, if_neg hl]
      exact mc_raises (g := ⟨.toffoli, N, .list (cs ++ [t]), [], toffoliMat, noMat⟩) rfl h
  · simp only [mkMcnot, Wires.asList, Py.ok_bind, pyGet_last]
    exact mc_raises (g := ⟨.mcnot, N, .list (cs ++ [t]), [], noMat, noMat⟩) rfl h

example : (2 : Fin 5) ∉ [(4 : Fin 5), 0, 4] ∧ [(4 : Fin 5), 0, 4] ≠ [] := by decide

/-! ## C04 -/

/-- C04: SWAP on two distinct wires maps the basis state `b` to `b` with bits `p`, `q` exchanged. -/
theorem C04_swap (N : ℕ) (p q : Fin N) (hpq : p ≠ q) :
    Computes (mkSwap N (.list [wire p, wire q])).U_expand (Spec.swap p q) :=
  swap_rep hpq rfl rfl

/-- C04: SWAP is symmetric in its wires. -/
theorem C04_symmetric (N : ℕ) (p q : Fin N) (hpq : p ≠ q) :
    (mkSwap N (.list [wire p, wire q])).U_expand = (mkSwap N (.list [wire q, wire p])).U_expand := by
  obtain ⟨U, hU, hr⟩ := C04_swap N p q hpq
  obtain ⟨V, hV, hs⟩ := C04_swap N q p hpq.symm
  rw [hU, hV]
  refine congrArg _ (hr.ext (hs.congr ?_))
  ext a b
  simp [Spec.swap, Equiv.swap_comm]

/-- C04, the expectation that equal wires are rejected is FALSE: `SWAP(N,[i,i]).U_expand()` returns a
matrix, namely the all-ones 2×2 matrix on qubit `i`, which is not unitary. -/
theorem C04_equal_wires_accepted (N : ℕ) (i : Fin N) :
    Computes (mkSwap N (.list [wire i, wire i])).U_expand (onQubit i !![1, 1; 1, 1]) ∧
      ¬ IsUnitaryOp (onQubit i !![1, 1; 1, 1]) := by
  constructor
  · have hN : 0 < N := i.pos
    have H := fun a b c d : ℂ => multi_kron_rep' hN _ _
      (rep2_update rep2_const i (represents2_ofRows a b c d))
    obtain ⟨U1, hU1, hr1⟩ := H 1 0 0 0
    obtain ⟨U2, hU2, hr2⟩ := H 0 1 0 0
    obtain ⟨U3, hU3, hr3⟩ := H 0 0 1 0
    obtain ⟨U4, hU4, hr4⟩ := H 0 0 0 1
    obtain ⟨V1, hV1, hs1⟩ := hr1.add hr2
    obtain ⟨V2, hV2, hs2⟩ := hs1.add hr3
    obtain ⟨V3, hV3, hs3⟩ := hs2.add hr4
    refine ⟨V3, ?_, hs3.congr ?_⟩
    · have h0 : pyGet [wire i, wire i] 0 = .ok (wire i) := rfl
      have h1 : pyGet [wire i, wire i] 1 = .ok (wire i) := rfl
      have hg : (mkSwap N (.list [wire i, wire i])).guard = .ok () := guard_list rfl rfl
      have e1 : (mkSwap N (.list [wire i, wire i])).wires = .list [wire i, wire i] := rfl
      have e2 : (mkSwap N (.list [wire i, wire i])).nqubits = (N : ℤ) := rfl
      show Gate.swap_U_expand _ = _
      unfold Gate.swap_U_expand
      rw [hg, e1, e2]
      simp only [Wires.asList, h0, h1, Py.ok_bind, pyRep_nat, pySet_ofFn, zero_zero, one_one,
        zero_one, one_zero, Function.update_idem, hU1, hU2, hU3, hU4, hV1, hV2]
      exact hV3
    · simp only [onEach_update_one]
      ext a b
      simp only [Matrix.add_apply, onQubit]
      split_ifs
      · have key : ∀ x : Fin 2, x = 0 ∨ x = 1 := by decide
        rcases key (a i) with h1 | h1 <;> rcases key (b i) with h2 | h2 <;> simp [h1, h2]
      · simp
  · rintro ⟨h, -⟩
    rw [onQubit_conjTranspose, onQubit_mul] at h
    have := congrFun (congrFun h (fun _ => 0)) (Function.update (fun _ => 0) i 1)
    rw [Matrix.one_apply_ne, onQubit, if_pos (fun j hj => by simp [Function.update_of_ne hj])] at this
    · simp [Matrix.mul_apply, Fin.sum_univ_two] at this
    · intro hh
      have := congrFun hh i
      simp at this

example : ∃ p q : Fin 4, p ≠ q ∧ wire p = 3 ∧ wire q = 1 := ⟨3, 1, by decide, rfl, rfl⟩

/-! ## C05 -/

/-- C05: `rxx/ryy/rzz` are `cos(θ/2) I - i sin(θ/2) P_a P_b`. -/
theorem C05_pauli_rotations (N : ℕ) (p q : Fin N) (hpq : p ≠ q) (θ : ℝ) :
    Computes (mkRxx θ N (.list [wire p, wire q])).U_expand (rot2 X θ p q) ∧
    Computes (mkRyy θ N (.list [wire p, wire q])).U_expand (rot2 Y θ p q) ∧
    Computes (mkRzz θ N (.list [wire p, wire q])).U_expand (rot2 Z θ p q) :=
  ⟨rot2_rep hpq rfl rfl rfl pauliXMat_rep, rot2_rep hpq rfl rfl rfl pauliYMat_rep,
    rot2_rep hpq rfl rfl rfl pauliZMat_rep⟩

/-- C05: the order of the wires does not matter. -/
theorem C05_symmetric (N : ℕ) (p q : Fin N) (hpq : p ≠ q) (θ : ℝ) :
    (mkRxx θ N (.list [wire p, wire q])).U_expand = (mkRxx θ N (.list [wire q, wire p])).U_expand ∧
    (mkRyy θ N (.list [wire p, wire q])).U_expand = (mkRyy θ N (.list [wire q, wire p])).U_expand ∧
    (mkRzz θ N (.list [wire p, wire q])).U_expand = (mkRzz θ N (.list [wire q, wire p])).U_expand := by
  have key : ∀ {x y : Py (Tensor ℂ)} {P : Mat2}, Computes x (rot2 P θ p q) →
      Computes y (rot2 P θ q p) → x = y := by
    rintro x y P ⟨U, rfl, hr⟩ ⟨V, rfl, hs⟩
    refine congrArg _ (hr.ext (hs.congr ?_))
    rw [rot2, rot2, onQubit_comm hpq]
  obtain ⟨a1, a2, a3⟩ := C05_pauli_rotations N p q hpq θ
  obtain ⟨b1, b2, b3⟩ := C05_pauli_rotations N q p hpq.symm θ
  exact ⟨key a1 b1, key a2 b2, key a3 b3⟩

/-- C05, error branch: equal or out-of-range wires raise (ValueError, or IndexError when only the
second wire is too large because the source tests the first wire twice). -/
theorem C05_rejects (N p q : ℤ) (h : p = q ∨ p < 0 ∨ q < 0 ∨ N ≤ p ∨ N ≤ q) (θ : ℝ) :
    Raises (mkRxx θ N (.list [p, q])).U_expand ∧ Raises (mkRyy θ N (.list [p, q])).U_expand ∧
      Raises (mkRzz θ N (.list [p, q])).U_expand :=
  ⟨rot2_raises _ rfl h, rot2_raises _ rfl h, rot2_raises _ rfl h⟩

example : ∃ p q : Fin 4, p ≠ q ∧ wire p = 3 ∧ wire q = 1 := ⟨3, 1, by decide, rfl, rfl⟩

/-! ## C06 -/

/-- C06 for gates: every gate on valid wires has a unitary matrix for all real parameters.  (Layers:
`C06_layers_unitary`.) -/
theorem C06_gates_unitary (N : ℕ) (ins : Instr N) (h : ins.WF) :
    ∃ g U, ∃ M : QOp N, build ins = .ok g ∧ g.U_expand = .ok U ∧ Represents U M ∧
      IsUnitaryOp M := by
  obtain ⟨g, hg, U, hU, hr⟩ := build_ok ins h
  exact ⟨g, U, ins.op, hg, hU, hr, instr_unitary ins h⟩

example : (Instr.cu3 1 2 3 (2 : Fin 3) 0).WF ∧ (Instr.mcnot [(2 : Fin 3), 0] 1).WF :=
  ⟨by unfold Instr.WF; decide, by unfold Instr.WF; decide⟩

/-! ## C07 -/

/-- C07 for gates: `operation_dagger()` of every gate returns a gate whose matrix is the conjugate
transpose.  (Layers: `C07_layers_dagger`.) -/
theorem C07_gates_dagger (N : ℕ) (ins : Instr N) (h : ins.WF) :
    ∃ g g' U, ∃ M : QOp N, build ins = .ok g ∧ g.operation_dagger = .ok g' ∧ g.U_expand = .ok U ∧
      Represents U M ∧ Computes g'.U_expand (Mᴴ : QOp N) := by
  obtain ⟨g, hg, U, hU, hr⟩ := build_ok ins h
  obtain ⟨g', hg', hc⟩ := build_ok (Instr.adj ins) (Instr.adj_WF h)
  refine ⟨g, g', U, ins.op, hg, ?_, hU, hr, ?_⟩
  · rw [build_cls hg, hg']
  · rw [Instr.adj_op ins h] at hc; exact hc

example : (Instr.u3 1 2 3 (0 : Fin 1)).WF ∧ (Instr.cphase 1 (1 : Fin 2) 0).WF :=
  ⟨trivial, by unfold Instr.WF; decide⟩

/-! ## C08 -/

/-- C08 for one update: a gate after `params_update` is identical, in every stored attribute, to a
freshly constructed gate with the new parameters. -/
theorem C08_params_update (N : ℤ) (w : Wires) (θ θ' : ℝ) (p p' : List ℝ) :
    (mkRx θ N w).params_update [θ'] = .ok (mkRx θ' N w) ∧
    (mkRy θ N w).params_update [θ'] = .ok (mkRy θ' N w) ∧
    (mkRz θ N w).params_update [θ'] = .ok (mkRz θ' N w) ∧
    (mkU1 θ N w).params_update [θ'] = .ok (mkU1 θ' N w) ∧
    (mkRxx θ N w).params_update [θ'] = .ok (mkRxx θ' N w) ∧
    (mkRyy θ N w).params_update [θ'] = .ok (mkRyy θ' N w) ∧
    (mkRzz θ N w).params_update [θ'] = .ok (mkRzz θ' N w) ∧
    (mkCphase θ N w).params_update [θ'] = .ok (mkCphase θ' N w) ∧
    (∀ g, mkU3 p N w = .ok g → g.params_update p' = mkU3 p' N w) ∧
    (∀ g, mkCu3 p N w = .ok g → g.params_update p' = mkCu3 p' N w) := by
  refine ⟨rfl, rfl, rfl, ?_, rfl, rfl, rfl, ?_, ?_, ?_⟩
  · simp [Gate.params_update, mkU1, phaseMat_eq_u1Mat]
  · simp [Gate.params_update, mkCphase, cphaseMat_eq]
  · intro g hg
    unfold mkU3 at hg
    cases hu : u3Mat p with
    | error e => rw [hu] at hg; cases hg
    | ok u => rw [hu] at hg; cases hg; rfl
  · intro g hg
    unfold mkCu3 at hg
    cases hu : u3Mat p with
    | error e => rw [hu] at hg; cases hg
    | ok u =>
      rw [hu, Py.ok_bind] at hg
      cases hm : two_qubit_control_gate u 2 0 1 with
      | error e => rw [hm] at hg; cases hg
      | ok m => rw [hm] at hg; cases hg; rfl

/-- The constructor of each parametrised class, from a parameter list. -/
noncomputable def parametrised : GateCls → Option (List ℝ → ℤ → Wires → Py Gate)
  | .rx => some fun p N w => match p with | [θ] => .ok (mkRx θ N w) | _ => .error .typeError
  | .ry => some fun p N w => match p with | [θ] => .ok (mkRy θ N w) | _ => .error .typeError
  | .rz => some fun p N w => match p with | [θ] => .ok (mkRz θ N w) | _ => .error .typeError
  | .u1 => some fun p N w => match p with | [θ] => .ok (mkU1 θ N w) | _ => .error .typeError
  | .rxx => some fun p N w => match p with | [θ] => .ok (mkRxx θ N w) | _ => .error .typeError
  | .ryy => some fun p N w => match p with | [θ] => .ok (mkRyy θ N w) | _ => .error .typeError
  | .rzz => some fun p N w => match p with | [θ] => .ok (mkRzz θ N w) | _ => .error .typeError
  | .cphase => some fun p N w => match p with | [θ] => .ok (mkCphase θ N w) | _ => .error .typeError
  | .u3 => some mkU3
  | .cu3 => some mkCu3
  | _ => none

/-- C08 for every history: after any sequence of updates, all of which succeed, the gate is identical
to one constructed with the last parameters, so every method behaves identically. -/
theorem C08_update_history (cls : GateCls) (mk : List ℝ → ℤ → Wires → Py Gate)
    (hmk : parametrised cls = some mk) (N : ℤ) (w : Wires) (p0 : List ℝ) (g0 : Gate)
    (h0 : mk p0 N w = .ok g0) (history : List (List ℝ)) (g : Gate)
    (h : history.foldlM (fun g p => Gate.params_update g p) g0 = .ok g) :
    mk ((p0 :: history).getLast (by simp)) N w = .ok g := by
  have step : ∀ p p' g g', mk p N w = .ok g → g.params_update p' = .ok g' → mk p' N w = .ok g' := by
    intro p p' g g' hg hg'
    cases cls <;> simp only [parametrised, Option.some.injEq, reduceCtorEq] at hmk <;> subst hmk
    all_goals first
      | exact (((C08_params_update N w 0 0 p p').2.2.2.2.2.2.2.2.1 g hg).symm.trans hg')
      | exact (((C08_params_update N w 0 0 p p').2.2.2.2.2.2.2.2.2 g hg).symm.trans hg')
      | (obtain ⟨θ, rfl⟩ : ∃ θ, p = [θ] := by
          match p, hg with
          | [θ], _ => exact ⟨θ, rfl⟩
         cases hg
         obtain ⟨θ', rfl⟩ : ∃ θ', p' = [θ'] := by
          match p', hg' with
          | [θ'], _ => exact ⟨θ', rfl⟩
         have H := C08_params_update N w θ θ' [] []
         first
          | exact H.1.symm.trans hg'
          | exact H.2.1.symm.trans hg'
          | exact H.2.2.1.symm.trans hg'
          | exact H.2.2.2.1.symm.trans hg'
          | exact H.2.2.2.2.1.symm.trans hg'
          | exact H.2.2.2.2.2.1.symm.trans hg'
          | exact H.2.2.2.2.2.2.1.symm.trans hg'
          | exact H.2.2.2.2.2.2.2.1.symm.trans hg')
  induction history generalizing p0 g0 with
  | nil => simp only [List.foldlM_nil] at h; cases h; simpa using h0
  | cons p ps ih =>
    simp only [List.foldlM_cons] at h
    cases hp : g0.params_update p with
    | error e => rw [hp] at h; cases h
    | ok g1 =>
      rw [hp] at h
      have := ih p g1 (step _ _ _ _ h0 hp) h
      rw [List.getLast_cons (by simp)]
      exact this

/-- Non-vacuity: a `u1` gate updated twice. -/
example : parametrised .u1 ≠ none ∧
    ∃ g, [[1.0], [2.0]].foldlM (fun g p => Gate.params_update g p) (mkU1 0 3 (.int 1)) = .ok g :=
  ⟨by simp [parametrised], _, rfl⟩

/-! ## C52 -/

/-- C52: the stored matrices of `u1` and `u3`, before and after an update. -/
theorem C52_u1_u3_matrices (N : ℤ) (w : Wires) (θ φ l θ' φ' l' : ℝ) :
    Represents2 (mkU1 θ N w).matrix !![1, 0; 0, exp (θ * I)] ∧
    (∃ g, (mkU1 θ N w).params_update [θ'] = .ok g ∧
      Represents2 g.matrix !![1, 0; 0, exp (θ' * I)]) ∧
    (∃ g, mkU3 [θ, φ, l] N w = .ok g ∧ Represents2 g.matrix (U3 θ φ l) ∧
      ∃ g', g.params_update [θ', φ', l'] = .ok g' ∧ Represents2 g'.matrix (U3 θ' φ' l')) := by
  refine ⟨u1Mat_rep θ, ⟨_, rfl, phaseMat_rep θ'⟩, ?_⟩
  obtain ⟨u, hu, hr⟩ := u3Mat_rep θ φ l
  obtain ⟨u', hu', hr'⟩ := u3Mat_rep θ' φ' l'
  refine ⟨⟨.u3, N, w, [θ, φ, l], u, noMat⟩, by simp [mkU3, hu], hr,
    ⟨.u3, N, w, [θ', φ', l'], u', noMat⟩, by simp [Gate.params_update, hu'], hr'⟩

/-- Non-vacuity: at `θ = π` the `u1` matrix is Pauli Z, not the identity. -/
example : (!![1, 0; 0, exp ((Real.pi : ℂ) * I)] : Mat2) = Z := by
  rw [Complex.exp_pi_mul_I]; rfl

end QTN.Props
