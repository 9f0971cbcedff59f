import Verif.Lemmas.Sim
import Verif.Props.Cdo

/-! # The circuit of test_CDO.py as rotations and NOTs, and its symbolic evaluation -/

namespace QTN.Props

open QTN QTN.Spec QTN.Cdo Matrix

/-! ## The circuit as rotations and NOTs -/

/-- The first rotations of part 1. -/
noncomputable def sgA : List (SG 10) :=
  [.ry (Real.pi/2.0) [] 1, .ry 0.98 [] 2, .ry 1.45 [] 3, .ry 1.5 [] 4, .ry 0 [] 1, .ry (-0.125) [] 2,
   .ry (-0.191) [] 3, .ry (-0.116) [] 4]

/-- Part 1: qubit 0 depends on qubit 1. -/
noncomputable def sgB : List (SG 10) :=
  [.x [1] 0, .ry 0.791 [] 0, .x [1] 0, .ry (Real.pi/2.0) [] 0, .x [1] 0, .ry 0 [] 0, .x [1] 0, .ry 0 [] 0]

/-! Part 1: the qubits 2, 3 and 4 depend on the qubits 0 and 1. -/

noncomputable def sgC1 : List (SG 10) :=
  [.x [0] 2, .ry 0.125 [] 2, .x [0] 2, .ry (-0.251) [] 2, .x [0] 3, .x [1] 2]

noncomputable def sgC2 : List (SG 10) :=
  [.ry 0.191 [] 3, .ry 0.251 [] 2, .x [0] 3, .x [1] 2, .ry (-0.383) [] 3]

noncomputable def sgC3 : List (SG 10) :=
  [.x [0] 4, .x [1] 3, .ry 0.116 [] 4, .ry 0.383 [] 3, .x [0] 4]

noncomputable def sgC4 : List (SG 10) :=
  [.x [1] 3, .ry (-0.231) [] 4, .x [1] 4, .ry 0.231 [] 4, .x [1] 4]

/-- Adds the qubit `c` to the counter of the qubits 6 (low) and 7 (high), with qubit 8 for the carry. -/
def sgAdd (c : Fin 10) : List (SG 10) := [.x [c, 6] 8, .x [c] 6, .x [c, 8] 7, .x [] 6, .x [c, 6] 8, .x [] 6]

/-- The same backwards. -/
def sgSub (c : Fin 10) : List (SG 10) := [.x [] 6, .x [c, 6] 8, .x [] 6, .x [c, 8] 7, .x [c] 6, .x [c, 6] 8]

/-! Part 3: qubit 5 depends on the counter. -/

noncomputable def sg3a : List (SG 10) :=
  [.ry (3.0*Real.pi/8) [] 5, .x [6] 9, .x [] 7, .x [] 8, .x [] 9, .x [7, 9] 8, .x [] 7, .x [] 9]

noncomputable def sg3b : List (SG 10) :=
  [.ry (-Real.pi/12.0) [8] 5, .x [6] 9, .ry (Real.pi/24.0) [8] 5, .x [6, 8] 5, .ry (-Real.pi/24.0) [8] 5,
   .x [6, 8] 5, .ry (Real.pi/12.0) [8] 5]

noncomputable def sg3c : List (SG 10) :=
  [.x [6] 9, .x [7, 8] 5, .x [] 9, .ry (-Real.pi/12.0) [8] 5, .x [7, 8] 5]

noncomputable def sg3d : List (SG 10) :=
  [.x [] 7, .x [7, 9] 8, .x [] 7, .x [] 8, .x [] 9, .x [6] 9]

/-- Parts 2 to 4. -/
noncomputable def sg234 : List (SG 10) :=
  sgAdd 2 ++ (sgAdd 3 ++ (sgAdd 4 ++ (sg3a ++ (sg3b ++ (sg3c ++ (sg3d ++ (sgSub 4 ++ (sgSub 3 ++ sgSub 2))))))))

/-- The last gates of part 1. -/
noncomputable def sgC : List (SG 10) := sgC1 ++ (sgC2 ++ (sgC3 ++ sgC4))

theorem controlled_nil {N : ℕ} (t : Fin N) (g : Mat2) : controlled [] t g = onQubit t g := by
  ext a b
  simp [controlled]

theorem qU_ry (θ : ℝ) : qU θ 0 0 = rot Spec.Y θ := by
  ext i j
  fin_cases i <;> fin_cases j <;> simp [qU, rot, Spec.Y] <;> ring_nf <;> simp [Complex.I_sq]

theorem qU_not : qU Real.pi 0 Real.pi = Spec.X := by
  ext i j
  fin_cases i <;> fin_cases j <;> simp [qU, Spec.X, Complex.exp_pi_mul_I]

theorem qU_not' : qU (-Real.pi) (-Real.pi) 0 = Spec.X := by
  ext i j
  have e : Complex.exp (-(Real.pi : ℂ) * Complex.I) = -1 := by
    rw [neg_mul, Complex.exp_neg, Complex.exp_pi_mul_I]
    norm_num
  fin_cases i <;> fin_cases j <;> simp [qU, Spec.X, neg_div, e]

theorem phase_zero : phase 0 = rot Spec.Y 0 := by
  ext i j
  fin_cases i <;> fin_cases j <;> simp [phase, rot]

theorem sgA_sim : simulate sgA (List.replicate 10 (.bit false)) =
    some [.bit false, .rot (Real.pi / 2), .rot (0.98 - 0.125), .rot (1.45 - 0.191), .rot (1.5 - 0.116), .bit false,
      .bit false, .bit false, .bit false, .bit false] := by
  unfold sgA
  simp [simulate, SG.step, ctrls, Q.turn, Q.angle, List.replicate]
  norm_num

theorem sgB_sim (b1 : Bool) (α β γ : ℝ) :
    simulate sgB [.bit false, .bit b1, .rot α, .rot β, .rot γ, .bit false, .bit false, .bit false, .bit false, .bit false] =
      some [.rot (Real.pi / 2 + if b1 then -0.791 else 0.791), .bit b1, .rot α, .rot β, .rot γ, .bit false, .bit false,
        .bit false, .bit false, .bit false] := by
  unfold sgB
  cases b1 <;> simp [simulate, SG.step, ctrls, Q.turn, Q.angle, Q.flip, Q.ctrl] <;> norm_num <;> ring

theorem simulate_append {N : ℕ} (l1 l2 : List (SG N)) {s s1 : List Q} (h : simulate l1 s = some s1) :
    simulate (l1 ++ l2) s = simulate l2 s1 := by
  induction l1 generalizing s with
  | nil => cases h; rfl
  | cons g l ih =>
    rw [List.cons_append]
    rw [simulate] at h ⊢
    cases hg : g.step s with
    | none => rw [hg] at h; cases h
    | some s' =>
      rw [hg] at h
      exact ih h

theorem sgC_sim (b0 b1 : Bool) (α β γ : ℝ) :
    simulate sgC [.bit b0, .bit b1, .rot α, .rot β, .rot γ, .bit false, .bit false, .bit false, .bit false, .bit false] =
      some [.bit b0, .bit b1, .rot (α + 0.125 - (if b0 then 0.25 else 0) - (if b1 then 0.502 else 0)),
        .rot (β + 0.191 - (if b0 then 0.382 else 0) - (if b1 then 0.766 else 0)),
        .rot (γ + 0.116 - (if b0 then 0.232 else 0) - (if b1 then 0.462 else 0)), .bit false, .bit false, .bit false,
        .bit false, .bit false] := by
  have aux : ∀ {s : List Q} {s1 s2 s3 s4 : List Q}, simulate sgC1 s = some s1 → simulate sgC2 s1 = some s2 →
      simulate sgC3 s2 = some s3 → simulate sgC4 s3 = some s4 → simulate sgC s = some s4 :=
    fun h1 h2 h3 h4 => (simulate_append _ _ h1).trans ((simulate_append _ _ h2).trans ((simulate_append _ _ h3).trans h4))
  cases b0 <;> cases b1
  · refine (aux
      (s1 := [.bit false, .bit false, .rot (((α) + 0.125) + (-0.251)), .rot (β), .rot (γ), .bit false, .bit false,
         .bit false, .bit false, .bit false])
      (s2 := [.bit false, .bit false, .rot ((((α) + 0.125) + (-0.251)) + 0.251), .rot (((β) + 0.191) + (-0.383)),
         .rot (γ), .bit false, .bit false, .bit false, .bit false, .bit false])
      (s3 := [.bit false, .bit false, .rot ((((α) + 0.125) + (-0.251)) + 0.251),
         .rot ((((β) + 0.191) + (-0.383)) + 0.383), .rot ((γ) + 0.116), .bit false, .bit false, .bit false,
         .bit false, .bit false])
      (s4 := [.bit false, .bit false, .rot ((((α) + 0.125) + (-0.251)) + 0.251),
         .rot ((((β) + 0.191) + (-0.383)) + 0.383), .rot ((((γ) + 0.116) + (-0.231)) + 0.231), .bit false,
         .bit false, .bit false, .bit false, .bit false])
      rfl rfl rfl rfl).trans ?_
    simp only [Option.some.injEq, List.cons.injEq, Q.rot.injEq, true_and, and_true]
    refine ⟨?_, ?_, ?_⟩ <;> simp <;> ring
  · refine (aux
      (s1 := [.bit false, .bit true, .rot (Real.pi - (((α) + 0.125) + (-0.251))), .rot (β), .rot (γ), .bit false,
         .bit false, .bit false, .bit false, .bit false])
      (s2 := [.bit false, .bit true, .rot (Real.pi - ((Real.pi - (((α) + 0.125) + (-0.251))) + 0.251)),
         .rot (((β) + 0.191) + (-0.383)), .rot (γ), .bit false, .bit false, .bit false, .bit false, .bit false])
      (s3 := [.bit false, .bit true, .rot (Real.pi - ((Real.pi - (((α) + 0.125) + (-0.251))) + 0.251)),
         .rot ((Real.pi - (((β) + 0.191) + (-0.383))) + 0.383), .rot ((γ) + 0.116), .bit false, .bit false,
         .bit false, .bit false, .bit false])
      (s4 := [.bit false, .bit true, .rot (Real.pi - ((Real.pi - (((α) + 0.125) + (-0.251))) + 0.251)),
         .rot (Real.pi - ((Real.pi - (((β) + 0.191) + (-0.383))) + 0.383)),
         .rot (Real.pi - ((Real.pi - (((γ) + 0.116) + (-0.231))) + 0.231)), .bit false, .bit false, .bit false,
         .bit false, .bit false])
      rfl rfl rfl rfl).trans ?_
    simp only [Option.some.injEq, List.cons.injEq, Q.rot.injEq, true_and, and_true]
    refine ⟨?_, ?_, ?_⟩ <;> simp <;> ring
  · refine (aux
      (s1 := [.bit true, .bit false, .rot ((Real.pi - ((Real.pi - (α)) + 0.125)) + (-0.251)), .rot (Real.pi - (β)),
         .rot (γ), .bit false, .bit false, .bit false, .bit false, .bit false])
      (s2 := [.bit true, .bit false, .rot (((Real.pi - ((Real.pi - (α)) + 0.125)) + (-0.251)) + 0.251),
         .rot ((Real.pi - ((Real.pi - (β)) + 0.191)) + (-0.383)), .rot (γ), .bit false, .bit false, .bit false,
         .bit false, .bit false])
      (s3 := [.bit true, .bit false, .rot (((Real.pi - ((Real.pi - (α)) + 0.125)) + (-0.251)) + 0.251),
         .rot (((Real.pi - ((Real.pi - (β)) + 0.191)) + (-0.383)) + 0.383),
         .rot (Real.pi - ((Real.pi - (γ)) + 0.116)), .bit false, .bit false, .bit false, .bit false, .bit false])
      (s4 := [.bit true, .bit false, .rot (((Real.pi - ((Real.pi - (α)) + 0.125)) + (-0.251)) + 0.251),
         .rot (((Real.pi - ((Real.pi - (β)) + 0.191)) + (-0.383)) + 0.383),
         .rot (((Real.pi - ((Real.pi - (γ)) + 0.116)) + (-0.231)) + 0.231), .bit false, .bit false, .bit false,
         .bit false, .bit false])
      rfl rfl rfl rfl).trans ?_
    simp only [Option.some.injEq, List.cons.injEq, Q.rot.injEq, true_and, and_true]
    refine ⟨?_, ?_, ?_⟩ <;> simp <;> ring
  · refine (aux
      (s1 := [.bit true, .bit true, .rot (Real.pi - ((Real.pi - ((Real.pi - (α)) + 0.125)) + (-0.251))),
         .rot (Real.pi - (β)), .rot (γ), .bit false, .bit false, .bit false, .bit false, .bit false])
      (s2 := [.bit true, .bit true,
         .rot (Real.pi - ((Real.pi - ((Real.pi - ((Real.pi - (α)) + 0.125)) + (-0.251))) + 0.251)),
         .rot ((Real.pi - ((Real.pi - (β)) + 0.191)) + (-0.383)), .rot (γ), .bit false, .bit false, .bit false,
         .bit false, .bit false])
      (s3 := [.bit true, .bit true,
         .rot (Real.pi - ((Real.pi - ((Real.pi - ((Real.pi - (α)) + 0.125)) + (-0.251))) + 0.251)),
         .rot ((Real.pi - ((Real.pi - ((Real.pi - (β)) + 0.191)) + (-0.383))) + 0.383),
         .rot (Real.pi - ((Real.pi - (γ)) + 0.116)), .bit false, .bit false, .bit false, .bit false, .bit false])
      (s4 := [.bit true, .bit true,
         .rot (Real.pi - ((Real.pi - ((Real.pi - ((Real.pi - (α)) + 0.125)) + (-0.251))) + 0.251)),
         .rot (Real.pi - ((Real.pi - ((Real.pi - ((Real.pi - (β)) + 0.191)) + (-0.383))) + 0.383)),
         .rot (Real.pi - ((Real.pi - ((Real.pi - ((Real.pi - (γ)) + 0.116)) + (-0.231))) + 0.231)), .bit false,
         .bit false, .bit false, .bit false, .bit false])
      rfl rfl rfl rfl).trans ?_
    simp only [Option.some.injEq, List.cons.injEq, Q.rot.injEq, true_and, and_true]
    refine ⟨?_, ?_, ?_⟩ <;> simp <;> ring

theorem sgAdd2_sim (b0 b1 b2 b3 b4 y z : Bool) (q r : Q) :
    simulate (sgAdd 2) [.bit b0, .bit b1, .bit b2, .bit b3, .bit b4, q, .bit y, .bit z, .bit false, r] =
      some [.bit b0, .bit b1, .bit b2, .bit b3, .bit b4, q, .bit (xor y b2), .bit (xor z (b2 && y)), .bit false, r] := by
  cases b2 <;> cases y <;> cases z <;> rfl

theorem sgAdd3_sim (b0 b1 b2 b3 b4 y z : Bool) (q r : Q) :
    simulate (sgAdd 3) [.bit b0, .bit b1, .bit b2, .bit b3, .bit b4, q, .bit y, .bit z, .bit false, r] =
      some [.bit b0, .bit b1, .bit b2, .bit b3, .bit b4, q, .bit (xor y b3), .bit (xor z (b3 && y)), .bit false, r] := by
  cases b3 <;> cases y <;> cases z <;> rfl

theorem sgAdd4_sim (b0 b1 b2 b3 b4 y z : Bool) (q r : Q) :
    simulate (sgAdd 4) [.bit b0, .bit b1, .bit b2, .bit b3, .bit b4, q, .bit y, .bit z, .bit false, r] =
      some [.bit b0, .bit b1, .bit b2, .bit b3, .bit b4, q, .bit (xor y b4), .bit (xor z (b4 && y)), .bit false, r] := by
  cases b4 <;> cases y <;> cases z <;> rfl

theorem sgSub2_sim (b0 b1 b2 b3 b4 y z : Bool) (q : Q) :
    simulate (sgSub 2) [.bit b0, .bit b1, .bit b2, .bit b3, .bit b4, q, .bit y, .bit z, .bit false, .bit false] =
      some [.bit b0, .bit b1, .bit b2, .bit b3, .bit b4, q, .bit (xor y b2), .bit (xor z (b2 && !y)), .bit false,
        .bit false] := by
  cases b2 <;> cases y <;> cases z <;> rfl

theorem sgSub3_sim (b0 b1 b2 b3 b4 y z : Bool) (q : Q) :
    simulate (sgSub 3) [.bit b0, .bit b1, .bit b2, .bit b3, .bit b4, q, .bit y, .bit z, .bit false, .bit false] =
      some [.bit b0, .bit b1, .bit b2, .bit b3, .bit b4, q, .bit (xor y b3), .bit (xor z (b3 && !y)), .bit false,
        .bit false] := by
  cases b3 <;> cases y <;> cases z <;> rfl

theorem sgSub4_sim (b0 b1 b2 b3 b4 y z : Bool) (q : Q) :
    simulate (sgSub 4) [.bit b0, .bit b1, .bit b2, .bit b3, .bit b4, q, .bit y, .bit z, .bit false, .bit false] =
      some [.bit b0, .bit b1, .bit b2, .bit b3, .bit b4, q, .bit (xor y b4), .bit (xor z (b4 && !y)), .bit false,
        .bit false] := by
  cases b4 <;> cases y <;> cases z <;> rfl

theorem sg3a_sim (b0 b1 b2 b3 b4 y z : Bool) :
    simulate sg3a [.bit b0, .bit b1, .bit b2, .bit b3, .bit b4, .bit false, .bit y, .bit z, .bit false, .bit false] =
      some [.bit b0, .bit b1, .bit b2, .bit b3, .bit b4, .rot (3 * Real.pi / 8), .bit y, .bit z, .bit (y || z), .bit y] := by
  cases y <;> cases z
  · refine congrArg (fun t : ℝ => some ([.bit b0, .bit b1, .bit b2, .bit b3, .bit b4, .rot (t), .bit false, .bit false, .bit false, .bit false] : List Q))
      (?_ : (0) + (3.0*Real.pi/8) = _)
    norm_num
  · refine congrArg (fun t : ℝ => some ([.bit b0, .bit b1, .bit b2, .bit b3, .bit b4, .rot (t), .bit false, .bit true, .bit true, .bit false] : List Q))
      (?_ : (0) + (3.0*Real.pi/8) = _)
    norm_num
  · refine congrArg (fun t : ℝ => some ([.bit b0, .bit b1, .bit b2, .bit b3, .bit b4, .rot (t), .bit true, .bit false, .bit true, .bit true] : List Q))
      (?_ : (0) + (3.0*Real.pi/8) = _)
    norm_num
  · refine congrArg (fun t : ℝ => some ([.bit b0, .bit b1, .bit b2, .bit b3, .bit b4, .rot (t), .bit true, .bit true, .bit true, .bit true] : List Q))
      (?_ : (0) + (3.0*Real.pi/8) = _)
    norm_num

theorem sg3b_sim (b0 b1 b2 b3 b4 y z : Bool) (θ : ℝ) :
    simulate sg3b [.bit b0, .bit b1, .bit b2, .bit b3, .bit b4, .rot θ, .bit y, .bit z, .bit (y || z), .bit y] =
      some [.bit b0, .bit b1, .bit b2, .bit b3, .bit b4, .rot (θ + if y then Real.pi / 12 else 0), .bit y, .bit z, .bit (y || z),
        .bit false] := by
  cases y <;> cases z
  · refine congrArg (fun t : ℝ => some ([.bit b0, .bit b1, .bit b2, .bit b3, .bit b4, .rot (t), .bit false, .bit false, .bit false, .bit false] : List Q))
      (?_ : θ = _)
    norm_num
    try ring
  · refine congrArg (fun t : ℝ => some ([.bit b0, .bit b1, .bit b2, .bit b3, .bit b4, .rot (t), .bit false, .bit true, .bit true, .bit false] : List Q))
      (?_ : ((((θ) + (-Real.pi/12.0)) + (Real.pi/24.0)) + (-Real.pi/24.0)) + (Real.pi/12.0) = _)
    norm_num
    try ring
  · refine congrArg (fun t : ℝ => some ([.bit b0, .bit b1, .bit b2, .bit b3, .bit b4, .rot (t), .bit true, .bit false, .bit true, .bit false] : List Q))
      (?_ : (Real.pi - ((Real.pi - (((θ) + (-Real.pi/12.0)) + (Real.pi/24.0))) + (-Real.pi/24.0))) + (Real.pi/12.0) = _)
    norm_num
    try ring
  · refine congrArg (fun t : ℝ => some ([.bit b0, .bit b1, .bit b2, .bit b3, .bit b4, .rot (t), .bit true, .bit true, .bit true, .bit false] : List Q))
      (?_ : (Real.pi - ((Real.pi - (((θ) + (-Real.pi/12.0)) + (Real.pi/24.0))) + (-Real.pi/24.0))) + (Real.pi/12.0) = _)
    norm_num
    try ring

theorem sg3c_sim (b0 b1 b2 b3 b4 y z : Bool) (θ : ℝ) :
    simulate sg3c [.bit b0, .bit b1, .bit b2, .bit b3, .bit b4, .rot θ, .bit y, .bit z, .bit (y || z), .bit false] =
      some [.bit b0, .bit b1, .bit b2, .bit b3, .bit b4, .rot (θ + if z then Real.pi / 12 else if y then -Real.pi / 12 else 0), .bit y,
        .bit z, .bit (y || z), .bit (!y)] := by
  cases y <;> cases z
  · refine congrArg (fun t : ℝ => some ([.bit b0, .bit b1, .bit b2, .bit b3, .bit b4, .rot (t), .bit false, .bit false, .bit false, .bit true] : List Q))
      (?_ : θ = _)
    norm_num
    try ring
  · refine congrArg (fun t : ℝ => some ([.bit b0, .bit b1, .bit b2, .bit b3, .bit b4, .rot (t), .bit false, .bit true, .bit true, .bit true] : List Q))
      (?_ : Real.pi - ((Real.pi - (θ)) + (-Real.pi/12.0)) = _)
    norm_num
    try ring
  · refine congrArg (fun t : ℝ => some ([.bit b0, .bit b1, .bit b2, .bit b3, .bit b4, .rot (t), .bit true, .bit false, .bit true, .bit false] : List Q))
      (?_ : (θ) + (-Real.pi/12.0) = _)
    norm_num
    try ring
  · refine congrArg (fun t : ℝ => some ([.bit b0, .bit b1, .bit b2, .bit b3, .bit b4, .rot (t), .bit true, .bit true, .bit true, .bit false] : List Q))
      (?_ : Real.pi - ((Real.pi - (θ)) + (-Real.pi/12.0)) = _)
    norm_num
    try ring

theorem sg3d_sim (b0 b1 b2 b3 b4 y z : Bool) (q : Q) :
    simulate sg3d [.bit b0, .bit b1, .bit b2, .bit b3, .bit b4, q, .bit y, .bit z, .bit (y || z), .bit (!y)] =
      some [.bit b0, .bit b1, .bit b2, .bit b3, .bit b4, q, .bit y, .bit z, .bit false, .bit false] := by
  cases y <;> cases z <;> rfl

theorem sg234_sim (b0 b1 b2 b3 b4 : Bool) :
    simulate sg234 [.bit b0, .bit b1, .bit b2, .bit b3, .bit b4, .bit false, .bit false, .bit false, .bit false, .bit false] =
      some [.bit b0, .bit b1, .bit b2, .bit b3, .bit b4,
        .rot (3 * Real.pi / 8 + ((b2.toNat + b3.toNat + b4.toNat - 1 : ℕ) : ℝ) * (Real.pi / 12)), .bit false, .bit false,
        .bit false, .bit false] := by
  unfold sg234
  rw [simulate_append _ _ (sgAdd2_sim ..), simulate_append _ _ (sgAdd3_sim ..), simulate_append _ _ (sgAdd4_sim ..),
    simulate_append _ _ (sg3a_sim ..), simulate_append _ _ (sg3b_sim ..), simulate_append _ _ (sg3c_sim ..),
    simulate_append _ _ (sg3d_sim ..), simulate_append _ _ (sgSub4_sim ..), simulate_append _ _ (sgSub3_sim ..),
    sgSub2_sim]
  cases b2 <;> cases b3 <;> cases b4 <;> norm_num <;> ring

/-! ## The operators of the script -/

/-- The whole circuit. -/
noncomputable def sgAll : List (SG 10) := sgA ++ (sgB ++ (sgC ++ sg234))

theorem sgAll_op : qScript.map qCallOp = sgAll.map SG.op := by
  unfold qScript qpart1 qpart2 qpart3 qpart4 sgAll sgA sgB sgC sgC1 sgC2 sgC3 sgC4 sg234 sgAdd sgSub sg3a sg3b sg3c sg3d
  simp only [List.cons_append, List.nil_append, List.map_cons, List.map_nil, List.map_append, qCallOp, SG.op,
    controlled_nil, qU_ry, qU_not, qU_not', phase_zero, Complex.ofReal_zero, zero_mul, Complex.exp_zero, one_smul]

/-! ## Evaluation from the end -/

/-- The operator of a list of gates. -/
noncomputable def sgOp (l : List (SG 10)) : QOp 10 := timeOrdered (l.map SG.op)

theorem sgOp_append (l1 l2 : List (SG 10)) {s s1 : List Q} (hs : s.length = 10) (h : simulate l1 s = some s1) :
    sgOp (l1 ++ l2) *ᵥ stOf 10 s = sgOp l2 *ᵥ stOf 10 s1 := by
  unfold sgOp
  rw [List.map_append, timeOrdered_append, ← mulVec_mulVec, (simulate_sound l1 hs h).2]

/-- The value of a qubit of `a`. -/
def bitOf {N : ℕ} (a : Bits N) (j : Fin N) : Bool := decide (a j = 1)

/-- The angle of the last rotation. -/
noncomputable def lossAngle (b2 b3 b4 : Bool) : ℝ :=
  3 * Real.pi / 8 + ((b2.toNat + b3.toNat + b4.toNat - 1 : ℕ) : ℝ) * (Real.pi / 12)

/-- The states of the last level. -/
noncomputable def endState (b0 b1 b2 b3 b4 : Bool) : QState 10 :=
  stOf 10 [.bit b0, .bit b1, .bit b2, .bit b3, .bit b4, .rot (lossAngle b2 b3 b4), .bit false, .bit false, .bit false,
    .bit false]

theorem eval5 (b0 b1 b2 b3 b4 : Bool) (a : Bits 10) :
    (sgOp sg234 *ᵥ stOf 10 [.bit b0, .bit b1, .bit b2, .bit b3, .bit b4, .bit false, .bit false, .bit false, .bit false, .bit false]) a =
      endState b0 b1 b2 b3 b4 a :=
  congrFun (simulate_sound sg234 rfl (sg234_sim b0 b1 b2 b3 b4)).2 a

theorem eval4 (b0 b1 b2 b3 : Bool) (γ : ℝ) (a : Bits 10) :
    (sgOp sg234 *ᵥ stOf 10 [.bit b0, .bit b1, .bit b2, .bit b3, .rot γ, .bit false, .bit false, .bit false, .bit false, .bit false]) a =
      ryAmp γ (a 4) * endState b0 b1 b2 b3 (bitOf a 4) a := by
  refine (split_eval (sgOp sg234) (s := [.bit b0, .bit b1, .bit b2, .bit b3, .bit false, .bit false, .bit false, .bit false, .bit false, .bit false])
    rfl 4 (.rot γ) a fun b hb => (eval5 b0 b1 b2 b3 b a).trans (stOf_zero 4 rfl hb)).trans ?_
  exact congrArg _ (eval5 ..)

theorem eval3 (b0 b1 b2 : Bool) (β γ : ℝ) (a : Bits 10) :
    (sgOp sg234 *ᵥ stOf 10 [.bit b0, .bit b1, .bit b2, .rot β, .rot γ, .bit false, .bit false, .bit false, .bit false, .bit false]) a =
      ryAmp β (a 3) * (ryAmp γ (a 4) * endState b0 b1 b2 (bitOf a 3) (bitOf a 4) a) := by
  refine (split_eval (sgOp sg234) (s := [.bit b0, .bit b1, .bit b2, .bit false, .rot γ, .bit false, .bit false, .bit false, .bit false, .bit false])
    rfl 3 (.rot β) a fun b hb => (eval4 b0 b1 b2 b γ a).trans ?_).trans ?_
  · rw [show endState b0 b1 b2 b (bitOf a 4) a = 0 from stOf_zero 3 rfl hb, mul_zero]
  · exact congrArg _ (eval4 ..)

theorem eval2 (b0 b1 : Bool) (α β γ : ℝ) (a : Bits 10) :
    (sgOp sg234 *ᵥ stOf 10 [.bit b0, .bit b1, .rot α, .rot β, .rot γ, .bit false, .bit false, .bit false, .bit false, .bit false]) a =
      ryAmp α (a 2) * (ryAmp β (a 3) * (ryAmp γ (a 4) *
        endState b0 b1 (bitOf a 2) (bitOf a 3) (bitOf a 4) a)) := by
  refine (split_eval (sgOp sg234) (s := [.bit b0, .bit b1, .bit false, .rot β, .rot γ, .bit false, .bit false, .bit false, .bit false, .bit false])
    rfl 2 (.rot α) a fun b hb => (eval3 b0 b1 b β γ a).trans ?_).trans ?_
  · rw [show endState b0 b1 b (bitOf a 3) (bitOf a 4) a = 0 from stOf_zero 2 rfl hb, mul_zero, mul_zero]
  · exact congrArg _ (eval3 ..)

/-- The factors of the qubits 2, 3 and 4. -/
noncomputable def assets (b0 b1 : Bool) (α β γ : ℝ) (a : Bits 10) : ℝ :=
  ryAmp (α + 0.125 - (if b0 then 0.25 else 0) - (if b1 then 0.502 else 0)) (a 2) *
    (ryAmp (β + 0.191 - (if b0 then 0.382 else 0) - (if b1 then 0.766 else 0)) (a 3) *
      ryAmp (γ + 0.116 - (if b0 then 0.232 else 0) - (if b1 then 0.462 else 0)) (a 4))

theorem evalC (b0 b1 : Bool) (α β γ : ℝ) (a : Bits 10) :
    (sgOp (sgC ++ sg234) *ᵥ stOf 10 [.bit b0, .bit b1, .rot α, .rot β, .rot γ, .bit false, .bit false, .bit false, .bit false, .bit false]) a =
      assets b0 b1 α β γ a * endState b0 b1 (bitOf a 2) (bitOf a 3) (bitOf a 4) a := by
  rw [sgOp_append sgC sg234 rfl (sgC_sim b0 b1 α β γ), eval2]
  unfold assets
  push_cast
  ring

theorem eval0 (b1 : Bool) (δ α β γ : ℝ) (a : Bits 10) :
    (sgOp (sgC ++ sg234) *ᵥ stOf 10 [.rot δ, .bit b1, .rot α, .rot β, .rot γ, .bit false, .bit false, .bit false, .bit false, .bit false]) a =
      ryAmp δ (a 0) * (assets (bitOf a 0) b1 α β γ a *
        endState (bitOf a 0) b1 (bitOf a 2) (bitOf a 3) (bitOf a 4) a) := by
  refine (split_eval (sgOp (sgC ++ sg234)) (s := [.bit false, .bit b1, .rot α, .rot β, .rot γ, .bit false, .bit false, .bit false, .bit false, .bit false])
    rfl 0 (.rot δ) a fun b hb => (evalC b b1 α β γ a).trans ?_).trans ?_
  · rw [show endState b b1 (bitOf a 2) (bitOf a 3) (bitOf a 4) a = 0 from stOf_zero 0 rfl hb, mul_zero]
  · exact congrArg _ (evalC ..)

theorem evalB (b1 : Bool) (α β γ : ℝ) (a : Bits 10) :
    (sgOp (sgB ++ (sgC ++ sg234)) *ᵥ stOf 10 [.bit false, .bit b1, .rot α, .rot β, .rot γ, .bit false, .bit false, .bit false, .bit false, .bit false]) a =
      ryAmp (Real.pi / 2 + if b1 then -0.791 else 0.791) (a 0) * (assets (bitOf a 0) b1 α β γ a *
        endState (bitOf a 0) b1 (bitOf a 2) (bitOf a 3) (bitOf a 4) a) := by
  rw [sgOp_append sgB _ rfl (sgB_sim b1 α β γ), eval0]

theorem eval1 (ε α β γ : ℝ) (a : Bits 10) :
    (sgOp (sgB ++ (sgC ++ sg234)) *ᵥ stOf 10 [.bit false, .rot ε, .rot α, .rot β, .rot γ, .bit false, .bit false, .bit false, .bit false, .bit false]) a =
      ryAmp ε (a 1) * (ryAmp (Real.pi / 2 + if bitOf a 1 then -0.791 else 0.791) (a 0) *
        (assets (bitOf a 0) (bitOf a 1) α β γ a *
          endState (bitOf a 0) (bitOf a 1) (bitOf a 2) (bitOf a 3) (bitOf a 4) a)) := by
  refine (split_eval (sgOp (sgB ++ (sgC ++ sg234)))
    (s := [.bit false, .bit false, .rot α, .rot β, .rot γ, .bit false, .bit false, .bit false, .bit false, .bit false])
    rfl 1 (.rot ε) a fun b hb => (evalB b α β γ a).trans ?_).trans ?_
  · rw [show endState (bitOf a 0) b (bitOf a 2) (bitOf a 3) (bitOf a 4) a = 0 from stOf_zero 1 rfl hb, mul_zero,
      mul_zero]
  · exact congrArg _ (evalB ..)

theorem evalA (a : Bits 10) :
    (sgOp sgAll *ᵥ stOf 10 (List.replicate 10 (.bit false))) a =
      ryAmp (Real.pi / 2) (a 1) * (ryAmp (Real.pi / 2 + if bitOf a 1 then -0.791 else 0.791) (a 0) *
        (assets (bitOf a 0) (bitOf a 1) (0.98 - 0.125) (1.45 - 0.191) (1.5 - 0.116) a *
          endState (bitOf a 0) (bitOf a 1) (bitOf a 2) (bitOf a 3) (bitOf a 4) a)) := by
  unfold sgAll
  rw [sgOp_append sgA _ rfl sgA_sim, eval1]

end QTN.Props
