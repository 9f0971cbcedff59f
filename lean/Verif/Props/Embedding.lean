import Verif.Lemmas.Embedding
import Verif.Props.Mps

/-! # Properties C43–C46: encodings -/

namespace QTN.Props

open QTN QTN.Spec Matrix Finset
open scoped ComplexOrder

variable {N : ℕ}

/-! ## C43 -/

/-- C43: for every nonzero `v` with at most `2^N` entries the encoded state has `2^N` entries, the
first ones are `v/|v|`, the others 0, and its norm is one. -/
theorem C43_encoded_state (N : ℕ) (v : List ℂ) (hv : ∃ z ∈ v, z ≠ 0) (hl : v.length ≤ 2 ^ N) :
    ∃ e t, mkAmpEnc N v = .ok e ∧ e.encoded_state = .ok t ∧ t.shape = [2 ^ N] ∧
      (∀ i (h : i < v.length), t.get [i] = v[i] / (Real.sqrt (∑ j : Fin v.length, ‖v[j]‖ ^ 2) : ℝ)) ∧
      (∀ i, v.length ≤ i → t.get [i] = 0) ∧
      ∑ i ∈ range (2 ^ N), ‖t.get [i]‖ ^ 2 = 1 := by
  obtain ⟨z, hz, hz0⟩ := hv
  obtain ⟨t, e, s, h1, h2⟩ := encoded_ok N v (by rintro rfl; simp at hz) hl
  refine ⟨⟨N, v⟩, t, ?_, e, s, h1, h2, ?_⟩
  · unfold mkAmpEnc
    rw [if_neg (by omega), Int.toNat_natCast, raiseIf_false (by omega), Py.ok_bind]
  · have hpos : 0 < ∑ j : Fin v.length, ‖v[j]‖ ^ 2 := by
      obtain ⟨i, hi, rfl⟩ := List.getElem_of_mem hz
      refine sum_pos' (fun _ _ => by positivity) ⟨⟨i, hi⟩, mem_univ _, ?_⟩
      have : 0 < ‖v[i]‖ := norm_pos_iff.2 hz0
      simpa using pow_pos this 2
    have e1 : ∑ i ∈ range (2 ^ N), ‖t.get [i]‖ ^ 2 = ∑ i ∈ range v.length, ‖t.get [i]‖ ^ 2 := by
      refine (sum_subset (range_subset_range.2 hl) (fun i _ hi => ?_)).symm
      rw [h2 i (by simpa using hi)]; simp
    rw [e1, sum_range (fun i => ‖t.get [i]‖ ^ 2)]
    have e2 : ∀ i : Fin v.length, ‖t.get [(i : ℕ)]‖ ^ 2 = ‖v[i]‖ ^ 2 / ∑ j : Fin v.length, ‖v[j]‖ ^ 2 := by
      intro i
      rw [h1 i i.2, norm_div, Complex.norm_real, Real.norm_eq_abs, div_pow, sq_abs, Real.sq_sqrt hpos.le]
      rfl
    rw [sum_congr rfl (fun i _ => e2 i), ← sum_div, div_self hpos.ne']

/-- C43: longer inputs are rejected by the constructor. -/
theorem C43_too_long (N : ℕ) (v : List ℂ) (hl : 2 ^ N < v.length) :
    mkAmpEnc N v = .error .valueError := by
  unfold mkAmpEnc
  rw [if_neg (by omega), Int.toNat_natCast, raiseIf_true hl, Py.error_bind]

/-- C43: an empty input passes the constructor, and `encoded_state` raises TypeError. -/
theorem C43_empty_raises (N : ℕ) :
    ∃ e, mkAmpEnc N [] = .ok e ∧ e.encoded_state = .error .typeError := by
  refine ⟨⟨N, []⟩, ?_, rfl⟩
  unfold mkAmpEnc
  rw [if_neg (by omega), Int.toNat_natCast, raiseIf_false (by simp), Py.ok_bind]

example : (∃ z ∈ [(3 : ℂ), 4 * Complex.I, 0], z ≠ 0) ∧ [(3 : ℂ), 4 * Complex.I, 0].length ≤ 2 ^ 2 :=
  ⟨⟨3, by simp, by norm_num⟩, by decide⟩

example : 2 ^ 1 < [(1 : ℂ), 2, 3].length := by decide

/-! ## C44 -/

/-- The generator named by an axis letter. -/
def axisOf : String → Option Mat2
  | "X" => some Spec.X
  | "Y" => some Spec.Y
  | "Z" => some Spec.Z
  | _ => none

/-- Rotation of qubit `ws[i]` by the angle `x[i mod len x]` about the axis `P`; the other qubits are
left alone. -/
noncomputable def encOp (P : Mat2) (x : List ℝ) (ws : List (Fin N)) : QOp N :=
  onEach (fun j => if j ∈ ws then Spec.rot P (x.getD (ws.idxOf j % x.length) 0) else 1)

theorem enc_wireMat {T : Tensor ℂ} {P : Mat2} (hT : Represents2 T P) (e : PauliEnc) (h : e.inputs ≠ [])
    (i : ℕ) : ∃ t, e.wireMat T i = .ok t ∧
      Represents2 t (Spec.rot P (e.inputs.getD (i % e.inputs.length) 0)) := by
  have hl : e.inputs.length ≠ 0 := by simpa using h
  have hi : i % e.inputs.length < e.inputs.length := Nat.mod_lt _ (by omega)
  refine ⟨_, ?_, rotMat_rep hT _⟩
  unfold PauliEnc.wireMat
  simp only
  rw [raiseIf_false hl, Py.ok_bind, pyGet_nat hi, Py.ok_bind]
  simp [List.getD_eq_getElem?_getD, hi]

/-- The matrices used by an encoding with a valid axis. -/
theorem enc_gates {p : String} {P : Mat2} (hp : axisOf p = some P) (M : ℤ) (x : List ℝ)
    (ws : List ℤ) : ∃ T, Represents2 T P ∧ (⟨M, x, ws, p⟩ : PauliEnc).calSingleGates =
      SingleLayer.calGates M ws ((⟨M, x, ws, p⟩ : PauliEnc).wireMat T) := by
  unfold axisOf at hp
  split at hp
  · cases hp; exact ⟨_, pauliXMat_rep, rfl⟩
  · cases hp; exact ⟨_, pauliYMat_rep, rfl⟩
  · cases hp; exact ⟨_, pauliZMat_rep, rfl⟩
  · cases hp

/-- C44: a `PauliEncoding` with at least one and at most `N` inputs, on distinct wires and with a
valid axis: the constructor accepts it, `U_expand` is the rotation layer that cycles through the
inputs, `TN_contract` (plain and batched) applies the same operator, and `TN_operation` applies it to
every matrix product state, in agreement with `U_expand`. -/
theorem C44_encoding (hN : 0 < N) (x : List ℝ) (hx : x ≠ []) (hl : x.length ≤ N) (ws : List (Fin N))
    (hw : ws.Nodup) (p : String) (P : Mat2) (hp : axisOf p = some P) :
    ∃ e, mkPauliEnc N x (wires ws) p = .ok e ∧ Computes e.U_expand (encOp P x ws) ∧
      ContractsAs e.TN_contract (encOp P x ws) ∧
      ∀ (mps : List (Tensor ℂ)) (v : QState N), HoldsState mps v →
        ∃ mps' sv sv', e.TN_operation mps = .ok mps' ∧ HoldsState mps' (encOp P x ws *ᵥ v) ∧
          MPS2StateVec mps = .ok sv ∧ MPS2StateVec mps' = .ok sv' ∧ applyRow e.U_expand sv = .ok sv' := by
  obtain ⟨T, hT, hg⟩ := enc_gates hp N x (wires ws)
  have hm := fun (i : ℕ) (_ : i < ws.length) => enc_wireMat hT (⟨N, x, wires ws, p⟩ : PauliEnc) hx i
  have hU : Computes (⟨N, x, wires ws, p⟩ : PauliEnc).U_expand (encOp P x ws) := by
    have := calGates_kron hN ws hw _ hm
    unfold PauliEnc.U_expand
    rw [hg]; exact this
  refine ⟨⟨N, x, wires ws, p⟩, ?_, hU, ?_, fun mps v hv => ?_⟩
  · unfold mkPauliEnc
    rw [raiseIf_false (by simpa using hl), Py.ok_bind]
  · have := calGates_contract ws hw _ hm
    rw [← hg] at this
    exact this
  · obtain ⟨mps', e, hm'⟩ := calGates_mps ws hw _ hm mps v (holds_iff.1 hv)
    rw [← hg] at e
    obtain ⟨sv, esv, rsv⟩ := mps2sv_rep (holds_iff.1 hv) hN
    obtain ⟨sv', esv', rsv'⟩ := mps2sv_rep hm' hN
    obtain ⟨sv2, e2, r2⟩ := applyRow_rep hU rsv
    exact ⟨mps', sv, sv', e, holds_iff.2 hm', esv, esv', by rw [e2, r2.ext rsv']⟩

/-- C44: what the operator does: on each listed wire the rotation by its own input. -/
theorem C44_reading (P : Mat2) (x : List ℝ) (ws : List (Fin N)) (hw : ws.Nodup) (a b : Bits N) :
    encOp P x ws a b = ∏ j, (if j ∈ ws then Spec.rot P (x.getD (ws.idxOf j % x.length) 0) else 1) (a j) (b j) ∧
    ∀ i (h : i < ws.length), ws.idxOf ws[i] = i :=
  ⟨rfl, fun i h => hw.idxOf_getElem i h⟩

/-- C44: an unknown axis raises ValueError on all three paths, whatever the wires and inputs; the
constructor does not look at it. -/
theorem C44_unknown_axis (M : ℤ) (x : List ℝ) (ws : List ℤ) (p : String) (hp : axisOf p = none)
    (hl : (x.length : ℤ) ≤ M) :
    ∃ e, mkPauliEnc M x ws p = .ok e ∧ e.U_expand = .error .valueError ∧
      (∀ mps, e.TN_operation mps = .error .valueError) ∧
      ∀ T b, e.TN_contract T b = .error .valueError := by
  have hc : (⟨M, x, ws, p⟩ : PauliEnc).calSingleGates = .error .valueError := by
    unfold axisOf at hp
    split at hp
    · cases hp
    · cases hp
    · cases hp
    · rename_i h1 h2 h3
      unfold PauliEnc.calSingleGates
      rw [if_neg h1, if_neg h2, if_neg h3]
  refine ⟨⟨M, x, ws, p⟩, ?_, ?_, ?_, ?_⟩
  · unfold mkPauliEnc
    rw [raiseIf_false (by omega), Py.ok_bind]
  · unfold PauliEnc.U_expand; rw [hc]; rfl
  · intro mps; unfold PauliEnc.TN_operation SingleLayer.TN_operation; rw [hc]; rfl
  · intro T b; unfold PauliEnc.TN_contract SingleLayer.TN_contract; rw [hc]; rfl

/-- C44: more inputs than qubits are rejected by the constructor. -/
theorem C44_too_many (M : ℤ) (x : List ℝ) (ws : List ℤ) (p : String) (hl : M < x.length) :
    mkPauliEnc M x ws p = .error .valueError := by
  unfold mkPauliEnc
  rw [raiseIf_true hl, Py.error_bind]

/-- C44: with no inputs but at least one wire, every path raises ZeroDivisionError. -/
theorem C44_no_inputs (M : ℤ) (w : ℤ) (ws : List ℤ) (p : String) (P : Mat2) (hp : axisOf p = some P) :
    (⟨M, [], w :: ws, p⟩ : PauliEnc).U_expand = .error .zeroDivision := by
  have key : ∀ T, SingleLayer.calGates M (w :: ws) ((⟨M, [], w :: ws, p⟩ : PauliEnc).wireMat T) =
      .error .zeroDivision := fun T => rfl
  unfold PauliEnc.U_expand PauliEnc.calSingleGates
  unfold axisOf at hp
  split at hp
  · rw [if_pos rfl, key]; rfl
  · rw [if_neg (by simp), if_pos rfl, key]; rfl
  · rw [if_neg (by simp), if_neg (by simp), if_pos rfl, key]; rfl
  · cases hp

example : (0 < 3) ∧ [(0.3 : ℝ), 0.7] ≠ [] ∧ [(0.3 : ℝ), 0.7].length ≤ 3 ∧
    ([2, 0, 1] : List (Fin 3)).Nodup ∧ axisOf "Y" = some Spec.Y :=
  ⟨by decide, by simp, by simp, by decide, rfl⟩

/-- With two inputs on three wires the third wire gets the first input again. -/
example : ([2, 0, 1] : List (Fin 3)).idxOf 1 % [(0.3 : ℝ), 0.7].length = 0 := rfl

example : axisOf "W" = none ∧ (([0.3] : List ℝ).length : ℤ) ≤ 2 := ⟨rfl, by simp⟩

/-! ## C45 -/

/-- `s` as a vector. -/
def amp (s : List ℂ) : Fin s.length → ℂ := fun i => s[i]

/-- C45 for real amplitudes: `PrepareRho(state)` of a normalised state is `|s⟩⟨s|`: Hermitian,
positive and of trace one.  Missing: complex amplitudes, for which the claim is false
(`C45_complex_wrong`, `C45_hermitian_iff`). -/
theorem C45_real_partial (s : List ℂ) (hr : ∀ z ∈ s, z.im = 0)
    (hn : ∑ i : Fin s.length, ‖amp s i‖ ^ 2 = 1) :
    ∃ t, PrepareRho s = .ok t ∧ t.shape = [s.length, s.length] ∧
      toMat t s.length s.length = vecMulVec (amp s) (star (amp s)) ∧
      (toMat t s.length s.length).IsHermitian ∧ (toMat t s.length s.length).PosSemidef ∧
      (toMat t s.length s.length).trace = 1 := by
  obtain ⟨t, e, sh, h⟩ := prepareRho_ok s
  have hm : toMat t s.length s.length = vecMulVec (amp s) (star (amp s)) := by
    ext i j
    have hc : star (amp s j) = amp s j := Complex.conj_eq_iff_im.2 (hr _ (List.getElem_mem _))
    show t.get [(i : ℕ), (j : ℕ)] = amp s i * star (amp s j)
    rw [h i j i.2 j.2, hc]
    rfl
  have hp : (vecMulVec (amp s) (star (amp s))).PosSemidef := Matrix.posSemidef_vecMulVec_self_star _
  refine ⟨t, e, sh, hm, hm ▸ hp.1, hm ▸ hp, ?_⟩
  rw [hm]
  have : (vecMulVec (amp s) (star (amp s))).trace = ((∑ i : Fin s.length, ‖amp s i‖ ^ 2 : ℝ) : ℂ) := by
    unfold Matrix.trace
    push_cast
    refine sum_congr rfl (fun i _ => ?_)
    show amp s i * star (amp s i) = _
    exact Complex.mul_conj' _
  rw [this, hn, Complex.ofReal_one]

/-- C45: the result is Hermitian exactly if every product of two amplitudes is real, i.e. if the
state is real up to one common phase. -/
theorem C45_hermitian_iff (s : List ℂ) :
    ∃ t, PrepareRho s = .ok t ∧ t.shape = [s.length, s.length] ∧
      ((toMat t s.length s.length).IsHermitian ↔ ∀ i j, (amp s i * amp s j).im = 0) ∧
      (toMat t s.length s.length).trace = ∑ i, amp s i ^ 2 := by
  obtain ⟨t, e, sh, h⟩ := prepareRho_ok s
  have hm : ∀ i j, toMat t s.length s.length i j = amp s i * amp s j := fun i j => h i j i.2 j.2
  refine ⟨t, e, sh, ⟨fun hh i j => ?_, fun hh => ?_⟩, ?_⟩
  · have := congrFun (congrFun hh i) j
    rw [conjTranspose_apply, hm, hm, mul_comm (amp s j)] at this
    exact Complex.conj_eq_iff_im.1 this
  · ext i j
    rw [conjTranspose_apply, hm, hm, mul_comm (amp s j)]
    exact Complex.conj_eq_iff_im.2 (hh i j)
  · unfold Matrix.trace
    exact sum_congr rfl (fun i _ => by rw [diag_apply, hm, sq])

/-- C45 is false: the normalised state `(0.6, 0.8i)` gives a matrix that is not Hermitian and whose
trace is -0.28. -/
theorem C45_complex_wrong : ∃ s : List ℂ, ∑ i : Fin s.length, ‖amp s i‖ ^ 2 = 1 ∧
    ∃ t, PrepareRho s = .ok t ∧ ¬ (toMat t s.length s.length).IsHermitian ∧
      (toMat t s.length s.length).trace = -0.28 := by
  refine ⟨[0.6, 0.8 * Complex.I], ?_, ?_⟩
  · simp [Fin.sum_univ_two, amp]; norm_num
  · obtain ⟨t, e, _, h, ht⟩ := C45_hermitian_iff [0.6, 0.8 * Complex.I]
    refine ⟨t, e, fun hh => ?_, ?_⟩
    · have := h.1 hh ⟨0, by simp⟩ ⟨1, by simp⟩
      simp [amp] at this
      norm_num at this
    · rw [ht]
      simp [Fin.sum_univ_two, amp, mul_pow]; norm_num

example : (∀ z ∈ [(0.6 : ℂ), -0.8], z.im = 0) ∧
    ∑ i : Fin [(0.6 : ℂ), -0.8].length, ‖amp [(0.6 : ℂ), -0.8] i‖ ^ 2 = 1 := by
  constructor
  · intro z hz
    simp at hz
    rcases hz with rfl | rfl
    · norm_num
    · norm_num
  · simp [Fin.sum_univ_two, amp]; norm_num

/-! ## C46 -/

/-- C46: `gram_encoding` of a real `1 × n` tensor is Hermitian, positive semidefinite, and its trace
is a real number between 0 and 1. -/
theorem C46_density {n : ℕ} (x : Tensor ℂ) (hs : x.shape = [1, n]) (hr : ∀ j < n, (x.get [0, j]).im = 0) :
    ∃ t, gram_encoding x = .ok t ∧ t.shape = [n, n] ∧ (toMat t n n).IsHermitian ∧
      (toMat t n n).PosSemidef ∧ ∃ c : ℝ, (toMat t n n).trace = c ∧ 0 ≤ c ∧ c ≤ 1 := by
  obtain ⟨t, e, sh, h1, h2⟩ := gram_ok x (fun j => (x.get [0, j]).re) hs
    (fun j hj => Complex.ext (by simp) (by simp [hr j hj]))
  set a : ℕ → ℝ := fun j => (x.get [0, j]).re with ha
  set S := ∑ j ∈ range n, a j ^ 2 with hS
  have hS0 : 0 ≤ S := sum_nonneg (fun _ _ => sq_nonneg _)
  -- in both branches the result is an outer product of a real vector of norm at most one
  have key : ∃ b : Fin n → ℝ, (∀ i j : Fin n, t.get [(i : ℕ), (j : ℕ)] = ((b i * b j : ℝ) : ℂ)) ∧
      ∑ i, b i ^ 2 ≤ 1 := by
    by_cases h : S = 1
    · refine ⟨fun i => a i, fun i j => h1 h i j i.2 j.2, ?_⟩
      rw [← sum_range (fun i => a i ^ 2), ← hS, h]
    · refine ⟨fun i => |a i| / (Real.sqrt S + 1e-12), fun i j => h2 h i j i.2 j.2, ?_⟩
      have e1 : ∀ i : Fin n, (|a i| / (Real.sqrt S + 1e-12)) ^ 2 = a i ^ 2 / (Real.sqrt S + 1e-12) ^ 2 :=
        fun i => by rw [div_pow, sq_abs]
      rw [sum_congr rfl (fun i _ => e1 i), ← sum_div, ← sum_range (fun i => a i ^ 2), ← hS]
      have h3 : 0 ≤ Real.sqrt S := Real.sqrt_nonneg S
      have h4 : S ≤ (Real.sqrt S + 1e-12) ^ 2 := by
        have := Real.sq_sqrt hS0
        nlinarith
      exact div_le_one_of_le₀ h4 (sq_nonneg _)
  obtain ⟨b, hb, hb1⟩ := key
  have hm : toMat t n n = vecMulVec (fun i => ((b i : ℝ) : ℂ)) (star (fun i => ((b i : ℝ) : ℂ))) := by
    ext i j
    show t.get [(i : ℕ), (j : ℕ)] = (b i : ℂ) * star (b j : ℂ)
    rw [hb]; simp
  have hp : (vecMulVec (fun i => ((b i : ℝ) : ℂ)) (star (fun i => ((b i : ℝ) : ℂ)))).PosSemidef :=
    Matrix.posSemidef_vecMulVec_self_star _
  refine ⟨t, e, sh, hm ▸ hp.1, hm ▸ hp, ∑ i, b i ^ 2, ?_, sum_nonneg (fun _ _ => sq_nonneg _), hb1⟩
  unfold Matrix.trace
  push_cast
  exact sum_congr rfl (fun i _ => by rw [diag_apply]; show t.get _ = _; rw [hb]; push_cast; ring)

/-- C46: the entries.  A row of norm one is encoded as `|x⟩⟨x|`; every other row loses the signs of
its entries and is scaled by `1/(|x| + 1e-12)`. -/
theorem C46_value {n : ℕ} (x : Tensor ℂ) (hs : x.shape = [1, n]) (hr : ∀ j < n, (x.get [0, j]).im = 0) :
    ∃ t, gram_encoding x = .ok t ∧
      (∑ j ∈ range n, ‖x.get [0, j]‖ ^ 2 = 1 → ∀ i j, i < n → j < n →
        t.get [i, j] = x.get [0, i] * x.get [0, j]) ∧
      (∑ j ∈ range n, ‖x.get [0, j]‖ ^ 2 ≠ 1 → ∀ i j, i < n → j < n → t.get [i, j] =
        ((‖x.get [0, i]‖ * ‖x.get [0, j]‖ /
          (Real.sqrt (∑ j ∈ range n, ‖x.get [0, j]‖ ^ 2) + 1e-12) ^ 2 : ℝ) : ℂ)) := by
  have hx : ∀ j < n, x.get [0, j] = (((x.get [0, j]).re : ℝ) : ℂ) :=
    fun j hj => Complex.ext (by simp) (by simp [hr j hj])
  have hnrm : ∀ j < n, ‖x.get [0, j]‖ = |(x.get [0, j]).re| := fun j hj => by
    rw [hx j hj, Complex.norm_real]; simp
  obtain ⟨t, e, sh, h1, h2⟩ := gram_ok x (fun j => (x.get [0, j]).re) hs hx
  have hS : ∑ j ∈ range n, ‖x.get [0, j]‖ ^ 2 = ∑ j ∈ range n, (x.get [0, j]).re ^ 2 :=
    sum_congr rfl (fun j hj => by rw [hnrm j (mem_range.1 hj), sq_abs])
  rw [hS]
  refine ⟨t, e, fun h i j hi hj => ?_, fun h i j hi hj => ?_⟩
  · rw [h1 h i j hi hj, hx i hi, hx j hj]; simp
  · rw [h2 h i j hi hj, hnrm i hi, hnrm j hj]
    congr 1
    field_simp

/-- Beyond C46, the docstring also promises complex input: there a row of norm one can give a matrix
that is not Hermitian. -/
theorem C46_complex_wrong : ∃ x : Tensor ℂ, x.shape = [1, 2] ∧
    ∃ t, gram_encoding x = .ok t ∧ ¬ (toMat t 2 2).IsHermitian := by
  refine ⟨Tensor.ofRows [[0.6, 0.8 * Complex.I]], rfl, ?_⟩
  obtain ⟨g, eg, sg, hg⟩ := outer_row (a := Tensor.ofRows [[0.6, 0.8 * Complex.I]]) (n := 2) rfl
  have g0 : (Tensor.ofRows [[(0.6 : ℂ), 0.8 * Complex.I]]).get [0, 0] = 0.6 := rfl
  have g1 : (Tensor.ofRows [[(0.6 : ℂ), 0.8 * Complex.I]]).get [0, 1] = 0.8 * Complex.I := rfl
  have hN : matNorm g = 1 := by
    unfold matNorm
    rw [sg]
    simp only [List.getD_cons_zero, List.getD_cons_succ, sum_range_succ, sum_range_zero]
    rw [hg 0 0 (by omega) (by omega), hg 0 1 (by omega) (by omega), hg 1 0 (by omega) (by omega),
      hg 1 1 (by omega) (by omega), g0, g1, Real.sqrt_eq_one]
    simp
    norm_num
  refine ⟨g, ?_, fun hh => ?_⟩
  · unfold gram_encoding
    obtain ⟨b, e1, s1, h1⟩ := transpose_mat (a := Tensor.ofRows [[0.6, 0.8 * Complex.I]]) (n := 1) (m := 2) rfl
    rw [e1, Py.ok_bind] at eg
    rw [e1, Py.ok_bind, eg, Py.ok_bind]
    simp only
    rw [if_neg (by simpa using hN)]
  · have := congrFun (congrFun hh 0) 1
    rw [conjTranspose_apply] at this
    have h2 : star (g.get [1, 0]) = g.get [0, 1] := this
    rw [hg 0 1 (by omega) (by omega), hg 1 0 (by omega) (by omega), g0, g1] at h2
    have h3 := congrArg Complex.im h2
    simp at h3
    norm_num at h3

/-- A row with a negative entry. -/
example : (Tensor.ofRows [[(1 : ℂ), -2, 2]]).shape = [1, 3] ∧
    ∀ j < 3, ((Tensor.ofRows [[(1 : ℂ), -2, 2]]).get [0, j]).im = 0 := by
  refine ⟨rfl, fun j hj => ?_⟩
  match j, hj with
  | 0, _ => exact Complex.one_im
  | 1, _ => show (-2 : ℂ).im = 0; simp
  | 2, _ => show (2 : ℂ).im = 0; simp

end QTN.Props
