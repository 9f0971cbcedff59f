import Verif.Model.Embedding
import Verif.SpecTN
import Verif.Lemmas.Nd
import Verif.Lemmas.Expval
import Mathlib.LinearAlgebra.Matrix.PosDef
import Mathlib.Analysis.SpecialFunctions.Pow.Real

/-! # Plain matrices and the encodings -/

namespace QTN

open Finset Matrix

variable {n k m : ℕ}

/-- `a @ b` of two matrices. -/
theorem matmul_mat {a b : Tensor ℂ} (ha : a.shape = [n, k]) (hb : b.shape = [k, m]) :
    ∃ t, a.matmul b = .ok t ∧ t.shape = [n, m] ∧ ∀ i j, i < n → j < m →
      t.get [i, j] = ∑ x ∈ range k, a.get [i, x] * b.get [x, j] := by
  obtain ⟨t, e, s, h⟩ := Tensor.matmul_nd (sa := []) (sb := []) (s := []) ha hb rfl
  exact ⟨t, e, s, fun i j hi hj => by simpa [Tensor.bIdx] using h [] i j rfl hi hj⟩

/-- `m.T` of a matrix. -/
theorem transpose_mat {a : Tensor ℂ} (ha : a.shape = [n, m]) :
    ∃ t, a.permute [1, 0] = .ok t ∧ t.shape = [m, n] ∧ ∀ i j, i < m → j < n →
      t.get [i, j] = a.get [j, i] := by
  have hr : a.rank = 2 := by simp [Tensor.rank, ha]
  refine ⟨Tensor.ofFn [m, n] (fun idx => a.get [idx.getD 1 0, idx.getD 0 0]), ?_, rfl, ?_⟩
  · unfold Tensor.permute
    rw [raiseIf_false (by simp [hr]), Py.ok_bind]
    have : [(1 : ℤ), 0].mapM (wrapIdx a.rank) = .ok [1, 0] := by rw [hr]; rfl
    rw [this, Py.ok_bind, raiseIf_false (by simp), Py.ok_bind, ha, hr]
    rfl
  · intro i j hi hj
    rw [Tensor.get_ofFn (by simp [inB, hi, hj])]
    rfl

/-- `a.T @ a` of a row. -/
theorem outer_row {a : Tensor ℂ} (ha : a.shape = [1, n]) :
    ∃ t, (do (← a.permute [1, 0]).matmul a) = .ok t ∧ t.shape = [n, n] ∧ ∀ i j, i < n → j < n →
      t.get [i, j] = a.get [0, i] * a.get [0, j] := by
  obtain ⟨b, e1, s1, h1⟩ := transpose_mat ha
  obtain ⟨t, e2, s2, h2⟩ := matmul_mat s1 ha
  refine ⟨t, by rw [e1, Py.ok_bind, e2], s2, fun i j hi hj => ?_⟩
  rw [h2 i j hi hj, sum_range_one, h1 i 0 hi (by omega)]

/-- `PrepareRho` multiplies the amplitudes without conjugating. -/
theorem prepareRho_ok (s : List ℂ) : ∃ t, PrepareRho s = .ok t ∧ t.shape = [s.length, s.length] ∧
    ∀ i j (hi : i < s.length) (hj : j < s.length), t.get [i, j] = s[i] * s[j] := by
  obtain ⟨a, e1, s1, h1⟩ := Tensor.unsqueeze_at (t := PrepareState s) [] [s.length] rfl
  obtain ⟨t, e2, s2, h2⟩ := outer_row s1
  refine ⟨t, ?_, s2, fun i j hi hj => ?_⟩
  · unfold PrepareRho
    have e1' : (PrepareState s).unsqueeze 0 = .ok a := e1
    rw [e1', Py.ok_bind, e2]
  · have g : ∀ i (hi : i < s.length), a.get [0, i] = s[i] := fun i hi => by
      have := h1 [] [i] rfl (by simp [inB, hi])
      rw [List.nil_append] at this
      rw [this]
      show (Tensor.ofList s).get [i] = _
      unfold Tensor.ofList
      rw [Tensor.get_ofFn (by simp [inB, hi])]
      simp [List.getD_eq_getElem?_getD, hi]
    rw [h2 i j hi hj, g i hi, g j hj]

/-! ## AmplitudeEncoding -/

theorem foldl_norm (l : List ℂ) (c : ℝ) : l.foldl (fun s z => s + ‖z‖ ^ 2) c =
    c + ∑ i : Fin l.length, ‖l[i]‖ ^ 2 := by
  induction l generalizing c with
  | nil => simp
  | cons a l ih => rw [List.foldl_cons, ih]; simp only [List.length_cons, Fin.sum_univ_succ]; simp [add_assoc]

/-- Copying the first entries of a list into a list of zeros. -/
theorem copy_ok (sc : List ℂ) (M : ℕ) (hM : sc.length ≤ M) : ∀ k ≤ sc.length,
    (List.range k).foldlM (fun (st : List ℂ) (i : ℕ) => do
      pySet st (i : ℤ) (← pyGet sc (i : ℤ))) (List.replicate M 0) =
        (.ok (sc.take k ++ List.replicate (M - k) 0) : Py (List ℂ)) := by
  intro k
  induction k with
  | zero => intro _; simp
  | succ k ih =>
    intro hk
    rw [List.range_succ, List.foldlM_append, ih (by omega), Py.ok_bind, List.foldlM_cons]
    rw [pyGet_nat (by omega), Py.ok_bind, pySet_nat (by simp; omega), Py.ok_bind, List.foldlM_nil, Py.pure_eq]
    congr 1
    have : (sc.take k).length = k := by simp; omega
    rw [List.set_append_right _ _ (by omega), this, Nat.sub_self]
    obtain ⟨d, hd⟩ : ∃ d, M - k = d + 1 := ⟨M - k - 1, by omega⟩
    rw [hd, List.replicate_succ, List.set_cons_zero, List.take_succ_eq_append_getElem (by omega),
      show M - (k + 1) = d by omega, List.append_assoc, List.singleton_append]

theorem encoded_ok (N : ℕ) (v : List ℂ) (h0 : v ≠ []) (hl : v.length ≤ 2 ^ N) :
    ∃ t, (⟨N, v⟩ : AmpEnc).encoded_state = .ok t ∧ t.shape = [2 ^ N] ∧
      (∀ i (h : i < v.length), t.get [i] = v[i] / (Real.sqrt (∑ j : Fin v.length, ‖v[j]‖ ^ 2) : ℝ)) ∧
      ∀ i, v.length ≤ i → t.get [i] = 0 := by
  have hn : v.length ≠ 0 := by simpa using h0
  unfold AmpEnc.encoded_state
  simp only
  rw [raiseIf_false hn, Py.ok_bind]
  have hc := copy_ok (v.map (fun z => ((1.0 / Real.sqrt (v.foldl (fun s z => s + ‖z‖ ^ 2) 0.0) : ℝ) : ℂ) * z))
    (2 ^ N) (by simpa using hl) v.length (by simp)
  rw [hc, Py.ok_bind]
  refine ⟨_, rfl, ?_, ?_, ?_⟩
  · show [_] = _
    simp; omega
  · intro i h
    unfold Tensor.ofList
    rw [Tensor.get_ofFn (by simp [inB]; omega)]
    have : (1.0 : ℝ) = 1 := by norm_num
    have h0 : (0.0 : ℝ) = 0 := by norm_num
    rw [foldl_norm, h0, zero_add, this]
    simp only [List.getD_eq_getElem?_getD]
    rw [List.getElem?_append_left (by simp; omega)]
    simp [h]
    ring
  · intro i h
    by_cases hi : i < 2 ^ N
    · unfold Tensor.ofList
      rw [Tensor.get_ofFn (by simp [inB]; omega)]
      simp only [List.getD_eq_getElem?_getD]
      rw [List.getElem?_append_right (by simp; omega)]
      rw [List.getElem?_replicate]
      split <;> rfl
    · exact Tensor.supp _ _ (by simp [inB, Tensor.ofList, Tensor.ofFn]; omega)

/-! ## gram_encoding -/

theorem sqrt_sq_cpow (a : ℝ) : (((a : ℂ)) * a) ^ (1 / 2 : ℂ) = ((|a| : ℝ) : ℂ) := by
  have : ((a : ℂ)) * a = ((a ^ 2 : ℝ) : ℂ) := by push_cast; ring
  rw [this, show (1 / 2 : ℂ) = ((1 / 2 : ℝ) : ℂ) by push_cast; rfl, ← Complex.ofReal_cpow (sq_nonneg a),
    ← Real.sqrt_eq_rpow, Real.sqrt_sq_eq_abs]

/-- The two results of `gram_encoding` on a real row. -/
theorem gram_ok (x : Tensor ℂ) (a : ℕ → ℝ) (hs : x.shape = [1, n])
    (ha : ∀ j < n, x.get [0, j] = (a j : ℂ)) :
    ∃ t, gram_encoding x = .ok t ∧ t.shape = [n, n] ∧
      (∑ j ∈ range n, a j ^ 2 = 1 → ∀ i j, i < n → j < n → t.get [i, j] = ((a i * a j : ℝ) : ℂ)) ∧
      (∑ j ∈ range n, a j ^ 2 ≠ 1 → ∀ i j, i < n → j < n → t.get [i, j] =
        ((|a i| / (Real.sqrt (∑ j ∈ range n, a j ^ 2) + 1e-12) *
          (|a j| / (Real.sqrt (∑ j ∈ range n, a j ^ 2) + 1e-12)) : ℝ) : ℂ)) := by
  obtain ⟨g, eg, sg, hg⟩ := outer_row hs
  have hg' : ∀ i j, i < n → j < n → g.get [i, j] = (a i : ℂ) * a j := fun i j hi hj => by
    rw [hg i j hi hj, ha i hi, ha j hj]
  have hS : 0 ≤ ∑ j ∈ range n, a j ^ 2 := sum_nonneg (fun _ _ => sq_nonneg _)
  have hN : matNorm g = ∑ j ∈ range n, a j ^ 2 := by
    unfold matNorm
    rw [sg]
    simp only [List.getD_cons_zero, List.getD_cons_succ]
    have : ∑ i ∈ range n, ∑ j ∈ range n, ‖g.get [i, j]‖ ^ 2 = (∑ j ∈ range n, a j ^ 2) ^ 2 := by
      rw [sq, sum_mul_sum]
      refine sum_congr rfl (fun i hi => sum_congr rfl (fun j hj => ?_))
      rw [hg' i j (mem_range.1 hi) (mem_range.1 hj), norm_mul, Complex.norm_real, Complex.norm_real,
        mul_pow, Real.norm_eq_abs, Real.norm_eq_abs, sq_abs, sq_abs]
    rw [this, Real.sqrt_sq hS]
  have hrun : gram_encoding x = (if matNorm g ≠ 1 then do
      let xd := g.diagVec
      let xds ← (xd.mapT (fun z => z ^ (1 / 2 : ℂ))).unsqueeze 1
      let xdsn := xds.mapT (fun z => z / ((matNorm xds + 1e-12 : ℝ) : ℂ))
      xdsn.matmul (← dag xdsn)
    else .ok g) := by
    unfold gram_encoding
    obtain ⟨b, e1, s1, h1⟩ := transpose_mat hs
    rw [e1, Py.ok_bind] at eg
    rw [e1, Py.ok_bind, eg, Py.ok_bind]
  rw [hrun, hN]
  by_cases h1 : ∑ j ∈ range n, a j ^ 2 = 1
  · rw [if_neg (by simpa using h1)]
    exact ⟨g, rfl, sg, fun _ i j hi hj => by rw [hg' i j hi hj]; push_cast; rfl, fun h => absurd h1 h⟩
  · rw [if_pos h1]
    simp only
    obtain ⟨u, eu, su, hu⟩ := Tensor.unsqueeze_at (t := g.diagVec.mapT (fun z => z ^ (1 / 2 : ℂ))) [n] []
      (by simp [Tensor.mapT, Tensor.diagVec, Tensor.ofFn, sg])
    have eu' : (g.diagVec.mapT (fun z => z ^ (1 / 2 : ℂ))).unsqueeze 1 = .ok u := eu
    rw [eu', Py.ok_bind]
    have hu' : ∀ i < n, u.get [i, 0] = ((|a i| : ℝ) : ℂ) := fun i hi => by
      have := hu [i] [] (by simp [inB, hi]) rfl
      rw [show [i, 0] = [i] ++ 0 :: [] from rfl, this, List.append_nil]
      unfold Tensor.mapT Tensor.diagVec
      rw [Tensor.get_ofFn (by simp [inB, Tensor.ofFn, sg, hi]), Tensor.get_ofFn (by simp [inB, sg, hi])]
      simp only [List.getD_cons_zero]
      rw [hg' i i hi hi, sqrt_sq_cpow]
    have su' : u.shape = [n, 1] := su
    have hNu : matNorm u = Real.sqrt (∑ j ∈ range n, a j ^ 2) := by
      unfold matNorm
      rw [su']
      simp only [List.getD_cons_zero, List.getD_cons_succ, sum_range_one]
      congr 1
      refine sum_congr rfl (fun i hi => ?_)
      rw [hu' i (mem_range.1 hi), Complex.norm_real, Real.norm_eq_abs, abs_abs, sq_abs]
    rw [hNu]
    set c := Real.sqrt (∑ j ∈ range n, a j ^ 2) + 1e-12
    set w := u.mapT (fun z => z / ((c : ℝ) : ℂ)) with hw
    have sw : w.shape = [n, 1] := su'
    have gw : ∀ i < n, w.get [i, 0] = ((|a i| / c : ℝ) : ℂ) := fun i hi => by
      rw [hw]
      unfold Tensor.mapT
      rw [Tensor.get_ofFn (by simp [inB, su', hi])]
      rw [hu' i hi]; push_cast; rfl
    obtain ⟨d, ed, sd, hd⟩ := dag_ok sw
    obtain ⟨t, et, st, ht⟩ := matmul_mat sw sd
    refine ⟨t, by rw [ed, Py.ok_bind, et], st, fun h => absurd h h1, fun _ i j hi hj => ?_⟩
    rw [ht i j hi hj, sum_range_one, hd 0 j (by omega) hj, gw i hi, gw j hj]
    push_cast
    simp

end QTN
