import Verif.Lemmas.Svd
import Verif.Lemmas.Nd

/-! # Block matrices and the decompositions after two- and three-qubit gates -/

namespace QTN

open Finset Spec Matrix

namespace Tensor

section
variable {α : Type} [Zero α]

theorem select0_ok {t : Tensor α} {d : ℕ} {ds : List ℕ} (h : t.shape = d :: ds) {k : ℕ} (hk : k < d) :
    ∃ t', t.select0 (k : ℤ) = .ok t' ∧ t'.shape = ds ∧
      ∀ idx, inB ds idx = true → t'.get idx = t.get (k :: idx) := by
  refine ⟨ofFn ds (fun idx => t.get (k :: idx)), ?_, rfl, fun idx hi => get_ofFn hi⟩
  unfold select0
  rw [h]
  dsimp only
  rw [wrapIdx_nat hk, Py.ok_bind]

theorem cat0_ok {a b : Tensor α} {m m' n : ℕ} (ha : a.shape = [m, n]) (hb : b.shape = [m', n]) :
    ∃ t, a.cat0 b = .ok t ∧ t.shape = [m + m', n] ∧
      (∀ i j, i < m → j < n → t.get [i, j] = a.get [i, j]) ∧
      (∀ i j, i < m' → j < n → t.get [m + i, j] = b.get [i, j]) := by
  refine ⟨ofFn [m + m', n] (fun idx =>
      if idx.getD 0 0 < m then a.get idx else b.get [idx.getD 0 0 - m, idx.getD 1 0]), ?_, rfl, ?_, ?_⟩
  · unfold cat0
    rw [ha, hb]
    simp
  · intro i j hi hj
    rw [get_ofFn (by simp [hj]; omega)]
    simp [hi]
  · intro i j hi hj
    rw [get_ofFn (by simp [hj]; omega)]
    simp

theorem cat1_ok {a b : Tensor α} {m n n' : ℕ} (ha : a.shape = [m, n]) (hb : b.shape = [m, n']) :
    ∃ t, a.cat1 b = .ok t ∧ t.shape = [m, n + n'] ∧
      (∀ i j, i < m → j < n → t.get [i, j] = a.get [i, j]) ∧
      (∀ i j, i < m → j < n' → t.get [i, n + j] = b.get [i, j]) := by
  refine ⟨ofFn [m, n + n'] (fun idx =>
      if idx.getD 1 0 < n then a.get idx else b.get [idx.getD 0 0, idx.getD 1 0 - n]), ?_, rfl, ?_, ?_⟩
  · unfold cat1
    rw [ha, hb]
    simp
  · intro i j hi hj
    rw [get_ofFn (by simp [hi]; omega)]
    simp [hj]
  · intro i j hi hj
    rw [get_ofFn (by simp [hi]; omega)]
    simp

theorem colSlice_ok {t : Tensor α} {m n : ℕ} (h : t.shape = [m, n]) {lo w : ℕ} (hw : lo + w ≤ n) {hi : ℕ}
    (hhi : hi = lo + w) :
    (t.colSlice lo hi).shape = [m, w] ∧
      ∀ i j, i < m → j < w → (t.colSlice lo hi).get [i, j] = t.get [i, lo + j] := by
  subst hhi
  have e : t.colSlice lo (lo + w) = ofFn [m, w] (fun idx => t.get [idx.getD 0 0, lo + idx.getD 1 0]) := by
    unfold colSlice
    rw [h]
    simp only [List.getD_cons_zero, List.getD_cons_succ]
    rw [show min (lo + w) n - lo = w by omega]
  rw [e]
  refine ⟨rfl, fun i j hi hj => ?_⟩
  rw [get_ofFn (by simp [hi, hj])]
  rfl

/-- `torch.chunk(t, c, dim=1)` of a matrix with `c * w` columns, `w > 0`. -/
theorem chunk1_ok {t : Tensor α} {m w c : ℕ} (hc : 0 < c) (hw : 0 < w) (h : t.shape = [m, c * w]) :
    t.chunk1 c = .ok ((List.range c).map (fun k => t.colSlice (k * w) ((k + 1) * w))) := by
  have e1 : (c * w + c - 1) / c = w := by
    have : c * w + c - 1 = c * w + (c - 1) := by omega
    rw [this, Nat.mul_add_div hc, Nat.div_eq_of_lt (by omega), add_zero]
  have e2 : (c * w + w - 1) / w = c := by
    have : c * w + w - 1 = w * c + (w - 1) := by rw [mul_comm]; omega
    rw [this, Nat.mul_add_div hw, Nat.div_eq_of_lt (by omega), add_zero]
  unfold chunk1
  rw [h]
  simp only [e1, e2]
  rw [if_neg (by omega), if_neg (by omega)]

end

end Tensor

theorem select2_ok {t : Tensor ℂ} {a b : ℕ} {ds : List ℕ} (h : t.shape = a :: b :: ds) {x y : ℕ}
    (hx : x < a) (hy : y < b) :
    ∃ t', select2 t x y = .ok t' ∧ t'.shape = ds ∧
      ∀ idx, inB ds idx = true → t'.get idx = t.get (x :: y :: idx) := by
  obtain ⟨t1, e1, s1, g1⟩ := Tensor.select0_ok h hx
  obtain ⟨t2, e2, s2, g2⟩ := Tensor.select0_ok s1 hy
  refine ⟨t2, ?_, s2, fun idx hi => ?_⟩
  · unfold select2
    rw [e1, Py.ok_bind, e2]
  · rw [g2 idx hi, g1 _ (by simp [hi, hy])]

theorem select3_ok {t : Tensor ℂ} {a b c : ℕ} {ds : List ℕ} (h : t.shape = a :: b :: c :: ds)
    {x y z : ℕ} (hx : x < a) (hy : y < b) (hz : z < c) :
    ∃ t', select3 t x y z = .ok t' ∧ t'.shape = ds ∧
      ∀ idx, inB ds idx = true → t'.get idx = t.get (x :: y :: z :: idx) := by
  obtain ⟨t1, e1, s1, g1⟩ := Tensor.select0_ok h hx
  obtain ⟨t2, e2, s2, g2⟩ := Tensor.select0_ok s1 hy
  obtain ⟨t3, e3, s3, g3⟩ := Tensor.select0_ok s2 hz
  refine ⟨t3, ?_, s3, fun idx hi => ?_⟩
  · unfold select3
    rw [e1, Py.ok_bind, e2, Py.ok_bind, e3]
  · rw [g3 idx hi, g2 _ (by simp [hi, hz]), g1 _ (by simp [hi, hy, hz])]

theorem lt_two_cases {x : ℕ} (h : x < 2) : x = 0 ∨ x = 1 := by omega

/-- The block matrix of a two-site tensor. -/
theorem blockMat2_ok {t : Tensor ℂ} {l r : ℕ} (h : t.shape = [2, 2, l, r]) :
    ∃ m, blockMat2 t = .ok m ∧ m.shape = [2 * l, 2 * r] ∧
      ∀ x y i j, x < 2 → y < 2 → i < l → j < r → m.get [x * l + i, y * r + j] = t.get [x, y, i, j] := by
  obtain ⟨a00, e00, s00, g00⟩ := select2_ok h (x := 0) (y := 0) (by omega) (by omega)
  obtain ⟨a01, e01, s01, g01⟩ := select2_ok h (x := 0) (y := 1) (by omega) (by omega)
  obtain ⟨a10, e10, s10, g10⟩ := select2_ok h (x := 1) (y := 0) (by omega) (by omega)
  obtain ⟨a11, e11, s11, g11⟩ := select2_ok h (x := 1) (y := 1) (by omega) (by omega)
  obtain ⟨b1, f1, t1, p1, q1⟩ := Tensor.cat1_ok s00 s01
  obtain ⟨b2, f2, t2, p2, q2⟩ := Tensor.cat1_ok s10 s11
  obtain ⟨m, f, sm, pm, qm⟩ := Tensor.cat0_ok t1 t2
  refine ⟨m, ?_, by rw [sm, two_mul, two_mul], ?_⟩
  · unfold blockMat2
    simp only [Nat.cast_zero, Nat.cast_one] at e00 e01 e10 e11
    rw [e00, Py.ok_bind, e01, Py.ok_bind, f1, Py.ok_bind, e10, Py.ok_bind, e11, Py.ok_bind, f2,
      Py.ok_bind, f]
  · intro x y i j hx hy hi hj
    have hin : inB [l, r] [i, j] = true := by simp [hi, hj]
    rcases lt_two_cases hx with rfl | rfl <;> rcases lt_two_cases hy with rfl | rfl <;>
      simp only [zero_mul, zero_add, one_mul]
    · rw [pm _ _ hi (by omega), p1 _ _ hi hj, g00 _ hin]
    · rw [pm _ _ hi (by omega), q1 _ _ hi hj, g01 _ hin]
    · rw [qm _ _ hi (by omega), p2 _ _ hi hj, g10 _ hin]
    · rw [qm _ _ hi (by omega), q2 _ _ hi hj, g11 _ hin]

/-- A row of four blocks. -/
theorem row4_ok {a b c d : Tensor ℂ} {l r : ℕ} (ha : a.shape = [l, r]) (hb : b.shape = [l, r])
    (hc : c.shape = [l, r]) (hd : d.shape = [l, r]) :
    ∃ m, Tensor.catList Tensor.cat1 [a, b, c, d] = .ok m ∧ m.shape = [l, 4 * r] ∧
      ∀ i j, i < l → j < r → m.get [i, j] = a.get [i, j] ∧ m.get [i, r + j] = b.get [i, j] ∧
        m.get [i, 2 * r + j] = c.get [i, j] ∧ m.get [i, 3 * r + j] = d.get [i, j] := by
  obtain ⟨m1, f1, t1, p1, q1⟩ := Tensor.cat1_ok ha hb
  obtain ⟨m2, f2, t2, p2, q2⟩ := Tensor.cat1_ok t1 hc
  obtain ⟨m3, f3, t3, p3, q3⟩ := Tensor.cat1_ok t2 hd
  refine ⟨m3, ?_, by rw [t3]; congr 2; ring, ?_⟩
  · show ([b, c, d].foldlM Tensor.cat1 a) = _
    rw [List.foldlM_cons, f1, Py.ok_bind, List.foldlM_cons, f2, Py.ok_bind, List.foldlM_cons, f3]
    rfl
  · intro i j hi hj
    refine ⟨?_, ?_, ?_, ?_⟩
    · rw [p3 _ _ hi (by omega), p2 _ _ hi (by omega), p1 _ _ hi hj]
    · rw [p3 _ _ hi (by omega), p2 _ _ hi (by omega), q1 _ _ hi hj]
    · rw [p3 _ _ hi (by omega), two_mul, q2 _ _ hi hj]
    · rw [show 3 * r + j = r + r + r + j by ring, q3 _ _ hi hj]

/-- The block matrix of a three-site tensor. -/
theorem blockMat3_ok {t : Tensor ℂ} {l r : ℕ} (h : t.shape = [2, 2, 2, l, r]) :
    ∃ m, blockMat3 t = .ok m ∧ m.shape = [2 * l, 2 * (2 * r)] ∧
      ∀ x y z i j, x < 2 → y < 2 → z < 2 → i < l → j < r →
        m.get [x * l + i, y * (2 * r) + (z * r + j)] = t.get [x, y, z, i, j] := by
  obtain ⟨a000, e000, s000, g000⟩ := select3_ok h (x := 0) (y := 0) (z := 0) (by omega) (by omega) (by omega)
  obtain ⟨a001, e001, s001, g001⟩ := select3_ok h (x := 0) (y := 0) (z := 1) (by omega) (by omega) (by omega)
  obtain ⟨a010, e010, s010, g010⟩ := select3_ok h (x := 0) (y := 1) (z := 0) (by omega) (by omega) (by omega)
  obtain ⟨a011, e011, s011, g011⟩ := select3_ok h (x := 0) (y := 1) (z := 1) (by omega) (by omega) (by omega)
  obtain ⟨a100, e100, s100, g100⟩ := select3_ok h (x := 1) (y := 0) (z := 0) (by omega) (by omega) (by omega)
  obtain ⟨a101, e101, s101, g101⟩ := select3_ok h (x := 1) (y := 0) (z := 1) (by omega) (by omega) (by omega)
  obtain ⟨a110, e110, s110, g110⟩ := select3_ok h (x := 1) (y := 1) (z := 0) (by omega) (by omega) (by omega)
  obtain ⟨a111, e111, s111, g111⟩ := select3_ok h (x := 1) (y := 1) (z := 1) (by omega) (by omega) (by omega)
  obtain ⟨b1, f1, t1, p1⟩ := row4_ok s000 s001 s010 s011
  obtain ⟨b2, f2, t2, p2⟩ := row4_ok s100 s101 s110 s111
  obtain ⟨m, f, sm, pm, qm⟩ := Tensor.cat0_ok t1 t2
  refine ⟨m, ?_, by rw [sm]; congr 1; ring; congr 1; ring, ?_⟩
  · unfold blockMat3
    simp only [Nat.cast_zero, Nat.cast_one] at e000 e001 e010 e011 e100 e101 e110 e111
    simp only [e000, e001, e010, e011, e100, e101, e110, e111, Py.ok_bind, f1, f2, f]
  · intro x y z i j hx hy hz hi hj
    have hin : inB [l, r] [i, j] = true := by simp [hi, hj]
    have P1 := p1 i j hi hj
    have P2 := p2 i j hi hj
    rcases lt_two_cases hx with rfl | rfl <;> rcases lt_two_cases hy with rfl | rfl <;>
      rcases lt_two_cases hz with rfl | rfl <;>
      simp only [zero_mul, zero_add, one_mul]
    · rw [pm _ _ hi (by omega), P1.1, g000 _ hin]
    · rw [pm _ _ hi (by omega), P1.2.1, g001 _ hin]
    · rw [pm _ _ hi (by omega), P1.2.2.1, g010 _ hin]
    · rw [pm _ _ hi (by omega), show 2 * r + (r + j) = 3 * r + j by ring, P1.2.2.2, g011 _ hin]
    · rw [qm _ _ hi (by omega), P2.1, g100 _ hin]
    · rw [qm _ _ hi (by omega), P2.2.1, g101 _ hin]
    · rw [qm _ _ hi (by omega), P2.2.2.1, g110 _ hin]
    · rw [qm _ _ hi (by omega), show 2 * r + (r + j) = 3 * r + j by ring, P2.2.2.2, g111 _ hin]

/-- The two halves of the columns under each other. -/
theorem foldHalves_ok {c : Tensor ℂ} {D n : ℕ} (hn : 0 < n) (h : c.shape = [D, 2 * n]) :
    ∃ m, foldHalves c = .ok m ∧ m.shape = [2 * D, n] ∧
      ∀ x i j, x < 2 → i < D → j < n → m.get [x * D + i, j] = c.get [i, x * n + j] := by
  obtain ⟨s0, g0⟩ := Tensor.colSlice_ok h (lo := 0 * n) (w := n) (by omega) (hi := (0 + 1) * n) (by ring)
  obtain ⟨s1, g1⟩ := Tensor.colSlice_ok h (lo := 1 * n) (w := n) (by omega) (hi := (1 + 1) * n) (by ring)
  obtain ⟨m, f, sm, pm, qm⟩ := Tensor.cat0_ok s0 s1
  refine ⟨m, ?_, by rw [sm, two_mul], ?_⟩
  · unfold foldHalves
    rw [Tensor.chunk1_ok (by omega) hn h, Py.ok_bind]
    exact f
  · intro x i j hx hi hj
    rcases lt_two_cases hx with rfl | rfl
    · rw [zero_mul, zero_add, pm _ _ hi hj, g0 _ _ hi hj]
    · rw [one_mul, qm _ _ hi hj, g1 _ _ hi hj]

/-- `U.view(2, -1, D)` -/
theorem view_site {U : Tensor ℂ} {l D : ℕ} (hD : 0 < D) (h : U.shape = [2 * l, D]) :
    ∃ t, U.view [2, -1, (U.shape.getD 1 0 : ℤ)] = .ok t ∧ t.shape = [2, l, D] ∧
      ∀ x i k, x < 2 → i < l → k < D → t.get [x, i, k] = U.get [x * l + i, k] := by
  refine ⟨U.reshapeN [2, l, D], ?_, rfl, ?_⟩
  · have : U.shape.getD 1 0 = D := by rw [h]; rfl
    rw [this]
    exact U.view_neg_mid 2 l D (by simp [Tensor.numel, h]) (by omega) hD
  · intro x i k hx hi hk
    rw [Tensor.reshapeN_get_eq (idx' := [x * l + i, k]) (by simp [hx, hi, hk])
      (by
        rw [h]
        have : x * l + i < 2 * l := by rcases lt_two_cases hx with rfl | rfl <;> omega
        simp [this, hk])
      (by rw [h]; simp [ravel]; ring)]

/-! ## The decompositions -/

/-- The sum over the rows of a stacked matrix is the double sum over the block and the row. -/
theorem sum_stack {M : Type} [AddCommMonoid M] (l : ℕ) (f : ℕ → M) :
    ∑ i ∈ range (2 * l), f i = ∑ x ∈ range 2, ∑ i ∈ range l, f (x * l + i) := by
  rw [two_mul, Finset.sum_range_add]
  simp [Finset.sum_range_succ]

/-- The decomposition of a two-site tensor whose block matrix is not zero and loses nothing. -/
theorem decomp2 {svd : SVDOracle} (hv : ValidSVD svd) {t : Tensor ℂ} {l r : ℕ}
    (h : t.shape = [2, 2, l, r]) (hr : 0 < r) {m : Tensor ℂ}
    (hm : blockMat2 t = .ok m) (hl : Lossless m)
    (h0 : ∃ x y i j, x < 2 ∧ y < 2 ∧ i < l ∧ j < r ∧ t.get [x, y, i, j] ≠ 0) (s : List (Tensor ℂ)) :
    ∃ a b D, TensorDecompAfterTwoQbitGate svd t s = (.ok (a, b), s ++ [m]) ∧ 0 < D ∧
      a.shape = [2, l, D] ∧ b.shape = [2, D, r] ∧
      (∀ x y i j, x < 2 → y < 2 → i < l → j < r →
        ∑ k ∈ range D, a.get [x, i, k] * b.get [y, k, j] = t.get [x, y, i, j]) ∧
      (∀ k q, k < D → q < D → ∑ x ∈ range 2, ∑ i ∈ range l, star (a.get [x, i, k]) * a.get [x, i, q] =
        if k = q then 1 else 0) ∧
      D = bondDim (svd s m).S := by
  obtain ⟨m', hm', sm, gm⟩ := blockMat2_ok h
  obtain rfl : m' = m := by rw [hm] at hm'; exact (Except.ok.inj hm').symm
  have hlt : ∀ {x i n : ℕ}, x < 2 → i < n → x * n + i < 2 * n := by
    intro x i n hx hi; rcases lt_two_cases hx with rfl | rfl <;> omega
  obtain ⟨U, c, D, e, hD, sU, sc, hex, hiso, hDeq⟩ := svdTrunc_lossless hv sm hl (by
    obtain ⟨x, y, i, j, hx, hy, hi, hj, hne⟩ := h0
    exact ⟨_, _, hlt hx hi, hlt hy hj, by rwa [gm x y i j hx hy hi hj]⟩) s
  obtain ⟨a, ea, sa, ga⟩ := view_site hD sU
  obtain ⟨c', ec, sc', gc⟩ := foldHalves_ok hr sc
  obtain ⟨b, eb, sb, gb⟩ := view_site hr sc'
  refine ⟨a, b, D, ?_, hD, sa, sb, ?_, ?_, hDeq⟩
  · unfold TensorDecompAfterTwoQbitGate
    rw [hm, TNM.lift_ok_bind, TNM.bind_ok e]
    show ((liftM (U.view [2, -1, (U.shape.getD 1 0 : ℤ)]) : TNM _) >>= _) _ = _
    rw [ea, TNM.lift_ok_bind, ec, TNM.lift_ok_bind, eb, TNM.lift_ok_bind, TNM.pure_apply]
  · intro x y i j hx hy hi hj
    rw [← gm x y i j hx hy hi hj, ← hex _ _ (hlt hx hi) (hlt hy hj)]
    apply Finset.sum_congr rfl
    intro k hk
    have hk := Finset.mem_range.1 hk
    rw [ga x i k hx hi hk, gb y k j hy hk hj, gc y k j hy hk hj]
  · intro k q hk hq
    rw [← hiso k q hk hq, sum_stack]
    apply Finset.sum_congr rfl
    intro x hx
    apply Finset.sum_congr rfl
    intro i hi
    have hx := Finset.mem_range.1 hx
    have hi := Finset.mem_range.1 hi
    rw [ga x i k hx hi hk, ga x i q hx hi hq]

theorem TNM.Mono.decomp2 (svd : SVDOracle) (t : Tensor ℂ) :
    TNM.Mono (TensorDecompAfterTwoQbitGate svd t) := by
  unfold TensorDecompAfterTwoQbitGate
  exact (TNM.Mono.lift _).bind (fun _ => (TNM.Mono.svdTrunc _ _).bind (fun _ =>
    (TNM.Mono.lift _).bind (fun _ => (TNM.Mono.lift _).bind (fun _ => (TNM.Mono.lift _).bind (fun _ =>
      TNM.Mono.pure _)))))

theorem TNM.Mono.decomp3 (svd : SVDOracle) (t : Tensor ℂ) :
    TNM.Mono (TensorDecompAfterThreeQbitGate svd t) := by
  unfold TensorDecompAfterThreeQbitGate
  exact (TNM.Mono.lift _).bind (fun _ => (TNM.Mono.lift _).bind (fun _ => (TNM.Mono.svdTrunc _ _).bind
    (fun _ => (TNM.Mono.lift _).bind (fun _ => (TNM.Mono.lift _).bind (fun _ => 
      (TNM.Mono.svdTrunc _ _).bind (fun _ => (TNM.Mono.lift _).bind (fun _ => 
        (TNM.Mono.lift _).bind (fun _ => (TNM.Mono.lift _).bind (fun _ => TNM.Mono.pure _)))))))))

/-- The matrix is recorded whether or not the decomposition succeeds. -/
theorem svdTrunc_log {svd : SVDOracle} (hv : ValidSVD svd) {A : Tensor ℂ} {m n : ℕ}
    (hA : A.shape = [m, n]) (hm : 0 < m) (hn : 0 < n) (s : List (Tensor ℂ)) :
    (svdTrunc svd A s).2 = s ++ [A] := by
  obtain ⟨h1, h2⟩ := svdTrunc_run hv hA hm hn s
  by_cases h : bondDim (svd s A).S = 0
  · rw [h1 h]
  · obtain ⟨U, r, e, _⟩ := h2 h
    rw [e]

theorem decomp2_log {svd : SVDOracle} (hv : ValidSVD svd) {t : Tensor ℂ} {l r : ℕ}
    (h : t.shape = [2, 2, l, r]) (hl : 0 < l) (hr : 0 < r) {m : Tensor ℂ} (hm : blockMat2 t = .ok m)
    (s : List (Tensor ℂ)) : m ∈ (TensorDecompAfterTwoQbitGate svd t s).2 := by
  obtain ⟨m', hm', sm, gm⟩ := blockMat2_ok h
  obtain rfl : m' = m := by rw [hm] at hm'; exact (Except.ok.inj hm').symm
  have hlog := svdTrunc_log hv sm (by omega) (by omega) s
  unfold TensorDecompAfterTwoQbitGate
  rw [hm, TNM.lift_ok_bind]
  refine (TNM.bind_prefix _ (fun _ => ?_) s).subset (by rw [hlog]; simp)
  exact (TNM.Mono.lift _).bind (fun _ => (TNM.Mono.lift _).bind (fun _ => (TNM.Mono.lift _).bind
    (fun _ => TNM.Mono.pure _)))

/-- The decomposition of a three-site tensor that is not zero and loses nothing. -/
theorem decomp3 {svd : SVDOracle} (hv : ValidSVD svd) {t : Tensor ℂ} {l r : ℕ}
    (h : t.shape = [2, 2, 2, l, r]) (hr : 0 < r) (s : List (Tensor ℂ))
    (hl : ∀ A ∈ (TensorDecompAfterThreeQbitGate svd t s).2, Lossless A)
    (h0 : ∃ x y z i j, x < 2 ∧ y < 2 ∧ z < 2 ∧ i < l ∧ j < r ∧ t.get [x, y, z, i, j] ≠ 0) :
    ∃ a b c D E m m', TensorDecompAfterThreeQbitGate svd t s = (.ok (a, b, c), s ++ [m] ++ [m']) ∧
      0 < D ∧ 0 < E ∧ a.shape = [2, l, D] ∧ b.shape = [2, D, E] ∧ c.shape = [2, E, r] ∧
      (∀ x y z i j, x < 2 → y < 2 → z < 2 → i < l → j < r →
        ∑ k ∈ range D, a.get [x, i, k] * ∑ q ∈ range E, b.get [y, k, q] * c.get [z, q, j] =
          t.get [x, y, z, i, j]) ∧
      (∀ k q, k < D → q < D → ∑ x ∈ range 2, ∑ i ∈ range l, star (a.get [x, i, k]) * a.get [x, i, q] =
        if k = q then 1 else 0) ∧
      (∀ k q, k < E → q < E → ∑ x ∈ range 2, ∑ i ∈ range D, star (b.get [x, i, k]) * b.get [x, i, q] =
        if k = q then 1 else 0) ∧
      D = bondDim (svd s m).S ∧ E = bondDim (svd (s ++ [m]) m').S ∧
      m.shape = [2 * l, 2 * (2 * r)] ∧ m'.shape = [2 * D, 2 * r] := by
  have hlt : ∀ {x i n : ℕ}, x < 2 → i < n → x * n + i < 2 * n := by
    intro x i n hx hi; rcases lt_two_cases hx with rfl | rfl <;> omega
  obtain ⟨m, hm, sm, gm⟩ := blockMat3_ok h
  obtain ⟨x0, y0, z0, i0, j0, hx0, hy0, hz0, hi0, hj0, hne⟩ := h0
  have hrank : t.rank = 5 := by simp [Tensor.rank, h]
  unfold TensorDecompAfterThreeQbitGate at hl ⊢
  rw [raiseIf_false (by simp [hrank]), TNM.lift_ok_bind, hm, TNM.lift_ok_bind] at hl ⊢
  have hl1 : Lossless m := by
    refine TNM.logged_left (fun _ => ?_) hl m (by
      rw [svdTrunc_log hv sm (by omega) (by omega)]; simp)
    exact (TNM.Mono.lift _).bind (fun _ => (TNM.Mono.lift _).bind (fun _ => 
      (TNM.Mono.svdTrunc _ _).bind (fun _ => (TNM.Mono.lift _).bind (fun _ => 
        (TNM.Mono.lift _).bind (fun _ => (TNM.Mono.lift _).bind (fun _ => TNM.Mono.pure _))))))
  obtain ⟨U, c, D, e, hD, sU, sc, hex, hiso, hDeq⟩ := svdTrunc_lossless hv sm hl1
    ⟨_, _, hlt hx0 hi0, hlt hy0 (hlt hz0 hj0), by rwa [gm _ _ _ _ _ hx0 hy0 hz0 hi0 hj0]⟩ s
  obtain ⟨a, ea, sa, ga⟩ := view_site hD sU
  obtain ⟨c', ec, sc', gc⟩ := foldHalves_ok (by omega) sc
  rw [TNM.bind_ok e] at hl ⊢
  change ∀ A ∈ (((liftM (U.view [2, -1, (U.shape.getD 1 0 : ℤ)]) : TNM _) >>= _) _).2, Lossless A at hl
  show ∃ a b c D E m m', ((liftM (U.view [2, -1, (U.shape.getD 1 0 : ℤ)]) : TNM _) >>= _) _ = _ ∧ _
  rw [ea, TNM.lift_ok_bind, ec, TNM.lift_ok_bind] at hl ⊢
  have hl2 : Lossless c' := by
    refine TNM.logged_left (fun _ => ?_) hl c' (by
      rw [svdTrunc_log hv sc' (by omega) (by omega)]; simp)
    exact (TNM.Mono.lift _).bind (fun _ => 
        (TNM.Mono.lift _).bind (fun _ => (TNM.Mono.lift _).bind (fun _ => TNM.Mono.pure _)))
  have hne2 : ∃ i j, i < 2 * D ∧ j < 2 * r ∧ c'.get [i, j] ≠ 0 := by
    by_contra hno
    push Not at hno
    apply hne
    rw [← gm _ _ _ _ _ hx0 hy0 hz0 hi0 hj0, ← hex _ _ (hlt hx0 hi0) (hlt hy0 (hlt hz0 hj0))]
    apply Finset.sum_eq_zero
    intro k hk
    have hk := Finset.mem_range.1 hk
    rw [← gc y0 k _ hy0 hk (hlt hz0 hj0), hno _ _ (hlt hy0 hk) (hlt hz0 hj0), mul_zero]
  obtain ⟨U2, d, E, e2, hE, sU2, sd, hex2, hiso2, hEeq⟩ := svdTrunc_lossless hv sc' hl2 hne2 (s ++ [m])
  obtain ⟨b, eb, sb, gb⟩ := view_site hE sU2
  obtain ⟨d', ed, sd', gd⟩ := foldHalves_ok hr sd
  obtain ⟨f, ef, sf, gf⟩ := view_site hr sd'
  refine ⟨a, b, f, D, E, m, c', ?_, hD, hE, sa, sb, sf, ?_, ?_, ?_, hDeq, hEeq, sm, sc'⟩
  · rw [TNM.bind_ok e2]
    show ((liftM (U2.view [2, -1, (U2.shape.getD 1 0 : ℤ)]) : TNM _) >>= _) _ = _
    rw [eb, TNM.lift_ok_bind, ed, TNM.lift_ok_bind, ef, TNM.lift_ok_bind, TNM.pure_apply]
  · intro x y z i j hx hy hz hi hj
    rw [← gm x y z i j hx hy hz hi hj, ← hex _ _ (hlt hx hi) (hlt hy (hlt hz hj))]
    apply Finset.sum_congr rfl
    intro k hk
    have hk := Finset.mem_range.1 hk
    rw [ga x i k hx hi hk, ← gc y k _ hy hk (hlt hz hj), ← hex2 _ _ (hlt hy hk) (hlt hz hj)]
    congr 1
    apply Finset.sum_congr rfl
    intro q hq
    have hq := Finset.mem_range.1 hq
    rw [gb y k q hy hk hq, gf z q j hz hq hj, gd z q j hz hq hj]
  · intro k q hk hq
    rw [← hiso k q hk hq, sum_stack]
    apply Finset.sum_congr rfl
    intro x hx
    apply Finset.sum_congr rfl
    intro i hi
    have hx := Finset.mem_range.1 hx
    have hi := Finset.mem_range.1 hi
    rw [ga x i k hx hi hk, ga x i q hx hi hq]
  · intro k q hk hq
    rw [← hiso2 k q hk hq, sum_stack]
    apply Finset.sum_congr rfl
    intro x hx
    apply Finset.sum_congr rfl
    intro i hi
    have hx := Finset.mem_range.1 hx
    have hi := Finset.mem_range.1 hi
    rw [gb x i k hx hi hk, gb x i q hx hi hq]

theorem block_lt {d l i : ℕ} (h : i < d * l) : i / l < d ∧ i % l < l ∧ i = i / l * l + i % l := by
  have hl : 0 < l := Nat.pos_of_mul_pos_left (by omega : 0 < d * l) |> fun h => by
    rcases Nat.eq_zero_or_pos l with h0 | h0
    · subst h0; simp at *
    · exact h0
  exact ⟨(Nat.div_lt_iff_lt_mul hl).2 h, Nat.mod_lt _ hl, by rw [mul_comm]; exact (Nat.div_add_mod _ _).symm⟩

/-- The decomposition of a zero two-site tensor raises. -/
theorem decomp2_zero {svd : SVDOracle} (hv : ValidSVD svd) {t : Tensor ℂ} {l r : ℕ}
    (h : t.shape = [2, 2, l, r]) (hl : 0 < l) (hr : 0 < r)
    (h0 : ∀ x y i j, x < 2 → y < 2 → i < l → j < r → t.get [x, y, i, j] = 0) (s : List (Tensor ℂ)) :
    ∃ s', TensorDecompAfterTwoQbitGate svd t s = (.error .runtimeError, s') := by
  obtain ⟨m, hm, sm, gm⟩ := blockMat2_ok h
  refine ⟨s ++ [m], ?_⟩
  unfold TensorDecompAfterTwoQbitGate
  rw [hm, TNM.lift_ok_bind]
  rw [TNM.bind_error (svdTrunc_zero hv sm (by omega) (by omega) (fun i j hi hj => ?_) s)]
  obtain ⟨a1, a2, a3⟩ := block_lt hi
  obtain ⟨b1, b2, b3⟩ := block_lt hj
  rw [a3, b3, gm _ _ _ _ a1 b1 a2 b2, h0 _ _ _ _ a1 b1 a2 b2]

/-- The decomposition of a zero three-site tensor raises. -/
theorem decomp3_zero {svd : SVDOracle} (hv : ValidSVD svd) {t : Tensor ℂ} {l r : ℕ}
    (h : t.shape = [2, 2, 2, l, r]) (hl : 0 < l) (hr : 0 < r)
    (h0 : ∀ x y z i j, x < 2 → y < 2 → z < 2 → i < l → j < r → t.get [x, y, z, i, j] = 0)
    (s : List (Tensor ℂ)) :
    ∃ s', TensorDecompAfterThreeQbitGate svd t s = (.error .runtimeError, s') := by
  obtain ⟨m, hm, sm, gm⟩ := blockMat3_ok h
  have hrank : t.rank = 5 := by simp [Tensor.rank, h]
  refine ⟨s ++ [m], ?_⟩
  unfold TensorDecompAfterThreeQbitGate
  rw [raiseIf_false (by simp [hrank]), TNM.lift_ok_bind, hm, TNM.lift_ok_bind]
  rw [TNM.bind_error (svdTrunc_zero hv sm (by omega) (by omega) (fun i j hi hj => ?_) s)]
  obtain ⟨a1, a2, a3⟩ := block_lt hi
  obtain ⟨b1, b2, b3⟩ := block_lt hj
  obtain ⟨c1, c2, c3⟩ := block_lt b2
  rw [a3, b3, c3, gm _ _ _ _ _ a1 b1 c1 a2 c2, h0 _ _ _ _ _ a1 b1 c1 a2 c2]

end QTN
