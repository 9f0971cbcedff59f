import Verif.Lemmas.RoundAngles
import Verif.Lemmas.RoundBinary
import Mathlib.NumberTheory.Real.Irrational

/-!
# C103: what rounding does to the matrix of a circuit

`Arith` is an arbitrary floating-point arithmetic (Model/Round.lean).  The computed unitary is compared with
the operator of the textbook, once for the angles as stored (rounded) and once for the angles as given.
-/

namespace QTN.Props

open QTN Spec Matrix Complex Finset Arith

variable {N : ℕ}

/-- Building a circuit gate by gate and calling `U()` never raises, and every column of the computed matrix is
within `roundBound` of the column of the operator for the angles stored, and within that plus `u` times the sum
of the absolute angles of the operator for the angles given.  The bound does not depend on the number of
qubits. -/
theorem C103_U (A : Arith) (l : List (Instr N)) (hw : ∀ ins ∈ l, ins.WF) :
    ∃ gates U W, l.mapM A.build = .ok gates ∧ A.circuitU N gates = .ok U ∧ Represents U W ∧
      (∀ b, dist2 (column W b) (column (gateSeqOp (l.map (Instr.mapAngles A.fl))) b) ≤ roundBound A.u A.δ l) ∧
      ∀ b, dist2 (column W b) (column (gateSeqOp l) b) ≤ roundBound A.u A.δ l + A.u * angleSum l := by
  obtain ⟨gates, U, W, h1, h2, h3, -, h5, h6⟩ := A.circuitU_round' l hw
  exact ⟨gates, U, W, h1, h2, h3, h5, h6⟩

/-- In single precision a Hadamard, a rotation and a NOT on three qubits. -/
example : ∃ gates U W, [Instr.h (0 : Fin 3), .rx 0.3 1, .cnot 0 2].mapM (binary 24 (by norm_num)).build = .ok gates ∧
    (binary 24 (by norm_num)).circuitU 3 gates = .ok U ∧ Represents U W ∧
    (∀ b, dist2 (column W b) (column (gateSeqOp ([Instr.h (0 : Fin 3), .rx 0.3 1, .cnot 0 2].map
      (Instr.mapAngles (binary 24 (by norm_num)).fl))) b) ≤
      roundBound (binary 24 (by norm_num)).u (binary 24 (by norm_num)).δ [Instr.h (0 : Fin 3), .rx 0.3 1, .cnot 0 2]) ∧
    ∀ b, dist2 (column W b) (column (gateSeqOp [Instr.h (0 : Fin 3), .rx 0.3 1, .cnot 0 2]) b) ≤
      roundBound (binary 24 (by norm_num)).u (binary 24 (by norm_num)).δ [Instr.h (0 : Fin 3), .rx 0.3 1, .cnot 0 2] +
      (binary 24 (by norm_num)).u * angleSum [Instr.h (0 : Fin 3), .rx 0.3 1, .cnot 0 2] :=
  C103_U _ _ (by simp [Instr.WF])

theorem exact_angles {ins : Instr N} (h : ins.exact = true) : ins.angles = [] := by
  cases ins <;> simp_all [Instr.exact, Instr.angles]

/-- Circuits of Pauli gates, CNOT, CZ, SWAP, Toffoli and multi-controlled NOT: the computed matrix is exactly the
matrix of the operator, in every arithmetic. -/
theorem C103_exact (A : Arith) (l : List (Instr N)) (hw : ∀ ins ∈ l, ins.WF) (hx : ∀ ins ∈ l, ins.exact = true) :
    ∃ gates, l.mapM A.build = .ok gates ∧ Computes (A.circuitU N gates) (gateSeqOp l) := by
  obtain ⟨gates, U, W, h1, h2, h3, h4, -⟩ := C103_U A l hw
  have e1 : l.map (Instr.mapAngles A.fl) = l := by
    conv_rhs => rw [← List.map_id l]
    exact List.map_congr_left fun ins hi => mapAngles_of ins (by rw [exact_angles (hx ins hi)]; simp)
  have e2 : roundBound A.u A.δ l = 0 := by
    unfold roundBound
    rw [List.prod_eq_one, sub_self]
    intro x hx'
    obtain ⟨i, hi, rfl⟩ := List.mem_map.1 hx'
    unfold Instr.cost
    rw [if_pos (hx i hi), add_zero]
  rw [e1, e2] at h4
  refine ⟨gates, h1, U, h2, h3.congr ?_⟩
  ext a b
  have h5 := (Real.sqrt_eq_zero (Finset.sum_nonneg fun _ _ => by positivity)).1 (le_antisymm (h4 b) (Real.sqrt_nonneg _))
  have h6 := (Finset.sum_eq_zero_iff_of_nonneg fun _ _ => by positivity).1 h5 a (mem_univ a)
  exact sub_eq_zero.1 (norm_eq_zero.1 (pow_eq_zero_iff (two_ne_zero) |>.1 h6))

example (A : Arith) : ∃ gates, [Instr.x (0 : Fin 3), .y 1, .cnot 0 1, .toffoli 0 1 2, .swap 0 2].mapM A.build = .ok gates ∧
    Computes (A.circuitU 3 gates) (gateSeqOp [Instr.x (0 : Fin 3), .y 1, .cnot 0 1, .toffoli 0 1 2, .swap 0 2]) :=
  C103_exact A _ (by simp [Instr.WF]) (by simp [Instr.exact])

/-- The vector with one entry 1. -/
abbrev basisVec (b : Bits N) : QState N := Pi.single b 1

/-- `cir.U() @ state` for a basis state (every script starts from |0…0⟩): the last product is exact, so the error
is that of one column; the norm of the result is 1 up to this error. -/
theorem C103_state (A : Arith) (l : List (Instr N)) (hw : ∀ ins ∈ l, ins.WF) (b : Bits N) (state : Tensor ℂ)
    (hs : IsCol state (basisVec b)) :
    ∃ gates sv w, l.mapM A.build = .ok gates ∧ A.run N gates state = .ok sv ∧ IsCol sv w ∧
      dist2 w (gateSeqOp l *ᵥ basisVec b) ≤ roundBound A.u A.δ l + A.u * angleSum l ∧
      |norm2 w - 1| ≤ roundBound A.u A.δ l := by
  obtain ⟨gates, U, W, h1, h2, h3, h4, h5, h6⟩ := A.circuitU_round' l hw
  refine ⟨gates, Tensor.ofFn [2 ^ N, 1] (fun idx => A.dot (2 ^ N) (fun x => U.get [idx.getD 0 0, x])
    (fun x => state.get [x, idx.getD 1 0])), column W b, h1, ?_, ⟨rfl, fun a => ?_⟩, ?_, ?_⟩
  · unfold run
    rw [h2, Py.ok_bind]
    unfold Arith.matmul
    rw [h3.1, hs.1]
    simp
  · rw [Tensor.get_ofFn (by simp [enc_lt a])]
    show A.dot (2 ^ N) (fun x => U.get [enc a, x]) (fun x => state.get [x, 0]) = W a b
    have hb : (basisVec b : QState N) b = 1 := Pi.single_eq_same _ _
    have hd := A.dot_exact (2 ^ N) (fun x => U.get [enc a, x]) (fun x => state.get [x, 0]) (enc b) (enc_lt b)
      (fun j hj hne => by
        obtain ⟨c, rfl⟩ := exists_enc hj
        right
        rw [hs.2]
        exact Pi.single_eq_of_ne (fun e => hne (by rw [e])) _)
      (Or.inr ⟨by rw [h3.2]; exact h4 a b, by rw [hs.2, hb]; exact .one⟩)
    rw [hd, h3.2, hs.2, hb, mul_one]
  · have e : gateSeqOp l *ᵥ basisVec b = column (gateSeqOp l) b := by funext a; simp [column]
    rw [e]
    exact h6 b
  · have hu := gateSeqOp_unitary (l.map (Instr.mapAngles A.fl)) (fun ins h => by
      obtain ⟨i, hi, rfl⟩ := List.mem_map.1 h
      exact wf_mapAngles _ i (hw i hi))
    have h7 : norm2 (column (gateSeqOp (l.map (Instr.mapAngles A.fl))) b) = 1 := norm2_col hu b
    have h8 := h5 b
    set v := column (gateSeqOp (l.map (Instr.mapAngles A.fl))) b
    have h9 : norm2 (column W b) ≤ norm2 v + dist2 (column W b) v := by
      have := norm2_add_le v (column W b - v)
      rwa [add_sub_cancel] at this
    have h10 : norm2 v ≤ norm2 (column W b) + dist2 v (column W b) := by
      have := norm2_add_le (column W b) (v - column W b)
      rwa [add_sub_cancel] at this
    rw [dist2_comm] at h10
    rw [abs_le]
    constructor <;> linarith

example (A : Arith) : ∃ gates sv w, [Instr.h (0 : Fin 2), .cnot 0 1].mapM A.build = .ok gates ∧
    A.run 2 gates (Tensor.ofRows [[1], [0], [0], [0]]) = .ok sv ∧ IsCol sv w ∧
    dist2 w (gateSeqOp [Instr.h (0 : Fin 2), .cnot 0 1] *ᵥ basisVec 0) ≤
      roundBound A.u A.δ [Instr.h (0 : Fin 2), .cnot 0 1] + A.u * angleSum [Instr.h (0 : Fin 2), .cnot 0 1] ∧
    |norm2 w - 1| ≤ roundBound A.u A.δ [Instr.h (0 : Fin 2), .cnot 0 1] :=
  C103_state A _ (by simp [Instr.WF]) 0 _ ⟨rfl, fun a => by
    obtain ⟨x, y, rfl⟩ : ∃ x y, a = ![x, y] := ⟨a 0, a 1, by funext i; fin_cases i <;> rfl⟩
    fin_cases x <;> fin_cases y <;> simp [enc, basisVec, Pi.single_apply, Tensor.ofRows, Tensor.ofFn]⟩

/-- Probabilities: the sum over all outcomes of the differences between computed and true probabilities. -/
theorem C103_probs (v w : QState N) (hv : norm2 v = 1) {d : ℝ} (hd : dist2 w v ≤ d) :
    ∑ a, |‖w a‖ ^ 2 - ‖v a‖ ^ 2| ≤ d * (2 + d) := by
  have h1 : ∀ a, |‖w a‖ ^ 2 - ‖v a‖ ^ 2| ≤ ‖w a - v a‖ * (‖w a‖ + ‖v a‖) := fun a => by
    rw [sq_sub_sq, abs_mul, mul_comm, abs_of_nonneg (by positivity : 0 ≤ ‖w a‖ + ‖v a‖)]
    exact mul_le_mul_of_nonneg_right (abs_norm_sub_norm_le _ _) (by positivity)
  refine (Finset.sum_le_sum fun a _ => h1 a).trans ?_
  simp only [mul_add]
  rw [Finset.sum_add_distrib]
  have cs : ∀ z : QState N, ∑ a, ‖w a - v a‖ * ‖z a‖ ≤ dist2 w v * norm2 z := fun z => by
    refine le_of_sq_le_sq ?_ (mul_nonneg (Real.sqrt_nonneg _) (norm2_nonneg _))
    rw [mul_pow, dist2_eq, norm2_sq, norm2_sq]
    exact Finset.sum_mul_sq_le_sq_mul_sq _ _ _
  have h2 := cs w
  have h3 := cs v
  have h4 : norm2 w ≤ 1 + dist2 w v := by
    have := norm2_add_le v (w - v)
    rw [add_sub_cancel, hv] at this
    exact this
  have h5 : 0 ≤ dist2 w v := Real.sqrt_nonneg _
  rw [hv] at h3
  nlinarith [mul_le_mul_of_nonneg_left h4 h5]

example : ∑ a : Bits 1, |‖(basisVec 0 : QState 1) a‖ ^ 2 - ‖(basisVec 0 : QState 1) a‖ ^ 2| ≤ 0.1 * (2 + 0.1) :=
  C103_probs _ _ (by rw [norm2, Finset.sum_eq_single 0] <;> simp [Pi.single_apply]) (by simp [dist2]; norm_num)

/-- In single precision (relative error `2 ^ -24` of an operation, absolute error `2 ^ -23` of cosine and sine) no gate
costs more than `5e-6`. -/
theorem C103_cost (u δ : ℝ) (hu0 : 0 ≤ u) (hδ0 : 0 ≤ δ) (hu : u ≤ 2⁻¹ ^ 24) (hδ : δ ≤ 2⁻¹ ^ 23) (ins : Instr N) :
    0 ≤ ins.cost u δ ∧ ins.cost u δ ≤ 5e-6 := by
  have hs : Real.sqrt 2 ≤ 1.4143 := by rw [Real.sqrt_le_left (by norm_num)]; norm_num
  have hs0 := Real.sqrt_nonneg 2
  have hk : (1 + u) ^ 2 - 1 ≤ 2.0001 * 2⁻¹ ^ 24 := by
    have : (1 + u) ^ 2 ≤ (1 + 2⁻¹ ^ 24) ^ 2 := pow_le_pow_left₀ (by linarith) (by linarith) 2
    refine (sub_le_sub_right this 1).trans ?_
    norm_num
  have hk0 : 0 ≤ (1 + u) ^ 2 - 1 := by nlinarith
  have hμ0 : 0 ≤ mulErr u := mulErr_nonneg hu0
  have hμ : mulErr u ≤ 2.829 * 2⁻¹ ^ 24 := by
    unfold mulErr
    refine (mul_le_mul hs hk hk0 (by norm_num)).trans ?_
    norm_num
  have hγ0 : 0 ≤ sumErr u 2 := sumErr_nonneg hu0 2
  have hγ : sumErr u 2 ≤ 4.8295 * 2⁻¹ ^ 24 := by
    unfold sumErr
    have : (1 + u) ^ 2 * (1 + mulErr u) ≤ (1 + 2.0001 * 2⁻¹ ^ 24) * (1 + 2.829 * 2⁻¹ ^ 24) :=
      mul_le_mul (by linarith) (by linarith) (by linarith) (by norm_num)
    refine (sub_le_sub_right this 1).trans ?_
    norm_num
  have heps : 0 ≤ ins.eps u δ ∧ ins.eps u δ ≤ 4.5e-6 := by
    have a1 : 0 ≤ 2 * u ∧ 2 * u ≤ 4.5e-6 := ⟨by linarith, by norm_num at hu ⊢; linarith⟩
    have a2 : 0 ≤ 3 * δ ∧ 3 * δ ≤ 4.5e-6 := ⟨by linarith, by norm_num at hδ ⊢; linarith⟩
    have a3 : 0 ≤ 2 * ((1 + mulErr u) * (1 + 2 * δ) ^ 2 - 1) ∧ 2 * ((1 + mulErr u) * (1 + 2 * δ) ^ 2 - 1) ≤ 4.5e-6 := by
      have b1 : 1 ≤ (1 + 2 * δ) ^ 2 := one_le_pow₀ (by linarith)
      have b2 : (1 + 2 * δ) ^ 2 ≤ (1 + 2 * 2⁻¹ ^ 23) ^ 2 := pow_le_pow_left₀ (by linarith) (by linarith) 2
      have b3 : (1 + mulErr u) * (1 + 2 * δ) ^ 2 ≤ (1 + 2.829 * 2⁻¹ ^ 24) * (1 + 2 * 2⁻¹ ^ 23) ^ 2 :=
        mul_le_mul (by linarith) b2 (by positivity) (by norm_num)
      constructor
      · nlinarith
      · norm_num at b3 ⊢; linarith
    have a4 : 0 ≤ (1 + 3 * δ) ^ 3 * (1 + 3 * (δ + u)) ^ 2 * (1 + 2 * sumErr u 2) ^ 4 - 1 ∧
        (1 + 3 * δ) ^ 3 * (1 + 3 * (δ + u)) ^ 2 * (1 + 2 * sumErr u 2) ^ 4 - 1 ≤ 4.5e-6 := by
      have b1 : (1 + 3 * δ) ^ 3 ≤ (1 + 3 * 2⁻¹ ^ 23) ^ 3 := pow_le_pow_left₀ (by linarith) (by linarith) 3
      have b2 : (1 + 3 * (δ + u)) ^ 2 ≤ (1 + 3 * (2⁻¹ ^ 23 + 2⁻¹ ^ 24)) ^ 2 :=
        pow_le_pow_left₀ (by linarith) (by linarith) 2
      have b3 : (1 + 2 * sumErr u 2) ^ 4 ≤ (1 + 2 * (4.8295 * 2⁻¹ ^ 24)) ^ 4 :=
        pow_le_pow_left₀ (by linarith) (by linarith) 4
      have c1 : 1 ≤ (1 + 3 * δ) ^ 3 := one_le_pow₀ (by linarith)
      have c2 : 1 ≤ (1 + 3 * (δ + u)) ^ 2 := one_le_pow₀ (by linarith)
      have c3 : 1 ≤ (1 + 2 * sumErr u 2) ^ 4 := one_le_pow₀ (by linarith)
      have b4 := mul_le_mul (mul_le_mul b1 b2 (by linarith) (by norm_num)) b3 (by linarith) (by norm_num)
      have c4 : 1 ≤ (1 + 3 * δ) ^ 3 * (1 + 3 * (δ + u)) ^ 2 := one_le_mul_of_one_le_of_one_le c1 c2
      have c5 := one_le_mul_of_one_le_of_one_le c4 c3
      refine ⟨by linarith, ?_⟩
      refine (sub_le_sub_right b4 1).trans ?_
      norm_num
    have a0 : (0 : ℝ) ≤ 0 ∧ (0 : ℝ) ≤ 4.5e-6 := ⟨le_rfl, by norm_num⟩
    cases ins <;> simp only [Instr.eps] <;> assumption
  obtain ⟨e0, e1⟩ := heps
  unfold Instr.cost
  split_ifs
  · norm_num
  · refine ⟨by positivity, ?_⟩
    have : sumErr u 2 * (Real.sqrt 2 + ins.eps u δ) ≤ 4.8295 * 2⁻¹ ^ 24 * (1.4143 + 4.5e-6) :=
      mul_le_mul hγ (by linarith) (by positivity) (by norm_num)
    refine (add_le_add e1 this).trans ?_
    norm_num

example : (Instr.u3 1 2 3 (0 : Fin 1)).cost (2⁻¹ ^ 24) (2⁻¹ ^ 23) ≤ 5e-6 :=
  (C103_cost _ _ (by positivity) (by positivity) le_rfl le_rfl _).2

/-- A circuit of `m` gates in single precision: every column is within `(1 + 5e-6) ^ m - 1`, for up to 1000 gates
within `0.0051`. -/
theorem C103_float32 (A : Arith) (hu : A.u ≤ 2⁻¹ ^ 24) (hδ : A.δ ≤ 2⁻¹ ^ 23) (l : List (Instr N))
    (hw : ∀ ins ∈ l, ins.WF) :
    ∃ gates U W, l.mapM A.build = .ok gates ∧ A.circuitU N gates = .ok U ∧ Represents U W ∧
      (∀ b, dist2 (column W b) (column (gateSeqOp (l.map (Instr.mapAngles A.fl))) b) ≤ (1 + 5e-6) ^ l.length - 1) ∧
      (l.length ≤ 1000 → ∀ b, dist2 (column W b) (column (gateSeqOp (l.map (Instr.mapAngles A.fl))) b) ≤ 0.0051) := by
  obtain ⟨gates, U, W, h1, h2, h3, h4, -⟩ := C103_U A l hw
  have hb : roundBound A.u A.δ l ≤ (1 + 5e-6) ^ l.length - 1 := by
    unfold roundBound
    refine sub_le_sub_right ?_ 1
    clear h1 h2 h3 h4 hw
    induction l with
    | nil => simp
    | cons ins l ih =>
      obtain ⟨c0, c1⟩ := C103_cost A.u A.δ A.u_nonneg A.δ_nonneg hu hδ ins
      rw [List.map_cons, List.prod_cons, List.length_cons, pow_succ, mul_comm]
      refine mul_le_mul ih (by linarith) (by linarith) (by positivity)
  refine ⟨gates, U, W, h1, h2, h3, fun b => (h4 b).trans hb, fun hl b => (h4 b).trans (hb.trans ?_)⟩
  have h6 : ((1 : ℝ) + 5e-6) ^ 1000 ≤ 1.0051 := by
    have h7 : (1 + 5e-6 : ℝ) ≤ Real.exp 5e-6 := by
      have := Real.add_one_le_exp (5e-6 : ℝ)
      linarith
    have h8 : ((1 : ℝ) + 5e-6) ^ 1000 ≤ Real.exp 0.005 := by
      refine (pow_le_pow_left₀ (by norm_num) h7 1000).trans (le_of_eq ?_)
      rw [← Real.exp_nat_mul]; norm_num
    have h9 := Real.exp_bound' (x := 0.005) (by norm_num) (by norm_num) (n := 2) (by norm_num)
    refine h8.trans (h9.trans ?_)
    norm_num [Finset.sum_range_succ, Nat.factorial]
  have : ((1 : ℝ) + 5e-6) ^ l.length ≤ (1 + 5e-6) ^ 1000 := pow_le_pow_right₀ (by norm_num) hl
  exact (sub_le_sub_right (this.trans h6) 1).trans (by norm_num)

/-- The arithmetic of torch's single precision: 24 binary digits, round to nearest even. -/
example (l : List (Instr N)) (hw : ∀ ins ∈ l, ins.WF) := C103_float32 (binary 24 (by norm_num))
  (show (2 : ℝ) ^ (-((24 : ℕ) : ℤ)) ≤ _ by norm_num) (show (2 : ℝ) ^ (-((24 : ℕ) : ℤ)) ≤ _ by norm_num) l hw

/-- The computed matrix is not exactly unitary: for a single Hadamard gate no arithmetic with rational numbers
computes a unitary matrix. -/
theorem C103_not_unitary (A : Arith) (hr : ∀ x, ∃ r : ℚ, A.fl x = r) :
    ∃ gates U W, [Instr.h (0 : Fin 1)].mapM A.build = .ok gates ∧ A.circuitU 1 gates = .ok U ∧
      Represents U (W : QOp 1) ∧ ¬ IsUnitaryOp W := by
  obtain ⟨U, hU, hR⟩ := Arith.single_rep (A := A) (N := 1) (0 : Fin 1)
    (g := ⟨.hadamard, (1 : ℕ), .int (wire (0 : Fin 1)), [], A.hadamardMat, noMat⟩) rfl rfl
    (smulT_rep2 (A := A) (c := real (A.fl (Real.sqrt 0.5))) (represents2_ofRows 1 1 1 (-1)) (rep_real (A.fl_fl _))
      (signM_four .one .one .one .negOne))
    (fun x y => rep_mul_sign (rep_real (A.fl_fl _)) (signM_four .one .one .one .negOne x y))
  set h := A.fl (Real.sqrt 0.5) with hh
  set G : QOp 1 := onQubit 0 (real h • (!![1, 1; 1, -1] : Mat2)) with hG
  have hGr : RepM A G := repM_onQubit 0 fun x y => rep_mul_sign (rep_real (A.fl_fl _)) (signM_four .one .one .one .negOne x y)
  obtain ⟨r, hr1, hr2⟩ := matmul_rep (A := A) (N := 1) hR (eye_rep (N := 1))
  have e : (dotOp A U (Tensor.eye (2 ^ 1)) : QOp 1) = G := by
    ext a b
    have := A.dot_exact (2 ^ 1) (fun x => U.get [enc a, x]) (fun x => (Tensor.eye (2 ^ 1) : Tensor ℂ).get [x, enc b]) (enc b)
      (enc_lt b) (fun j hj hne => by
        obtain ⟨c, rfl⟩ := exists_enc hj
        right
        rw [(eye_rep (N := 1)).2, Matrix.one_apply, if_neg]
        rintro rfl; exact hne rfl)
      (Or.inr ⟨by rw [hR.2]; exact hGr a b, by rw [(eye_rep (N := 1)).2, Matrix.one_apply_eq]; exact .one⟩)
    unfold dotOp
    rw [this, hR.2, (eye_rep (N := 1)).2, Matrix.one_apply_eq, mul_one]
  refine ⟨[⟨.hadamard, (1 : ℕ), .int (wire (0 : Fin 1)), [], A.hadamardMat, noMat⟩], r, G, rfl, ?_, e ▸ hr2, fun hu => ?_⟩
  · unfold circuitU
    rw [List.foldlM_cons]
    have : A.U_expand ⟨.hadamard, (1 : ℕ), .int (wire (0 : Fin 1)), [], A.hadamardMat, noMat⟩ = .ok U := hU
    rw [this, Py.ok_bind, hr1]
    rfl
  · have h1 := norm2_col hu 0
    have h2 : norm2 (fun a => G a 0) ^ 2 = 2 * h ^ 2 := by
      rw [norm2_sq, ← (Equiv.funUnique (Fin 1) (Fin 2)).symm.sum_comp, Fin.sum_univ_two]
      simp [hG, onQubit, real]
      ring
    rw [h1] at h2
    obtain ⟨q, hq⟩ := hr (Real.sqrt 0.5)
    rw [← hh] at hq
    rw [hq] at h2
    have h3 : (2 * q) ^ 2 = (2 : ℚ) := by
      have : ((2 * q) ^ 2 : ℝ) = 2 := by nlinarith
      exact_mod_cast this
    have h4 : Real.sqrt 2 = ((|2 * q| : ℚ) : ℝ) := by
      rw [Rat.cast_abs, ← Real.sqrt_sq_eq_abs]
      congr 1
      have : (((2 * q) ^ 2 : ℚ) : ℝ) = ((2 : ℚ) : ℝ) := by rw [h3]
      push_cast at this ⊢
      linarith
    exact (irrational_sqrt_two).ne_rat _ h4

example := C103_not_unitary (binary 24 (by norm_num)) (binFl_rat (p := 24))

end QTN.Props
