import Verif.Model.Classify
import Verif.Props.Qnn
import Mathlib.Analysis.SpecialFunctions.Sigmoid

/-! # Property C81: the classifier of test_classification_demo.py -/

namespace QTN.Props

open QTN QTN.Spec Matrix

variable {N : ℕ}

/-- The circuit: six entangling layers and a YZY layer. -/
noncomputable def clsItems (N : ℕ) (w : List ℝ) : List (Item N) :=
  [.basic (List.finRange N) (w.take (18 * N)) 6, .layer .yzy (List.finRange N) (weightBlock N w 6)]

theorem clsItems_wf (hN : 2 ≤ N) {w : List ℝ} (hw : w.length = 21 * N) : ∀ it ∈ clsItems N w, it.WF := by
  intro it hit
  simp only [clsItems, List.mem_cons, List.not_mem_nil, or_false] at hit
  rcases hit with rfl | rfl
  · refine ⟨List.nodup_finRange N, by simpa using hN, by omega, ?_⟩
    simp only [List.length_finRange, List.length_take, hw]
    omega
  · exact yzy_block_wf hN (weightBlock_length (n := 7) (by rw [hw]; ring) (by omega))

theorem cls_calls (N : ℕ) (w : List ℝ) : Classify.layers N w =
    (clsItems N w).foldlM (fun c it => c.addBuilt (itemCall it)) (Circuit.new N) := by
  unfold Classify.layers clsItems
  rw [← wires_finRange, show (6 : ℤ) = ((6 : ℕ) : ℤ) from rfl,
    slc_block (N := N) (a := 3 * 6 * N) (b := 3 * (6 + 1) * N) 6 (by ring) (by ring),
    show slc w 0 (3 * 6 * N) = w.take (18 * N) from rfl]
  simp only [yzy_call, basic_call, List.foldlM_cons, List.foldlM_nil, bind_pure]

/-- The encoded state of the angles `θ`: on every qubit a Y rotation, then a Z rotation by the same angle. -/
noncomputable def clsEncoded (θ : List ℝ) : QState N :=
  encOp Spec.Z θ (List.finRange N) *ᵥ encOp Spec.Y θ (List.finRange N) *ᵥ ket0 N

/-- The final state of the angles `θ`. -/
noncomputable def clsState (N : ℕ) (w θ : List ℝ) : QState N := circuitOp (clsItems N w) *ᵥ clsEncoded θ

theorem clsEncode_ok (hN : 0 < N) (batch : List (List ℝ)) (hb : GoodSamples N batch) :
    ∃ phi, Classify.encodeBatch N batch = .ok phi ∧ IsRows phi batch.length
      (fun k => (clsEncoded batch[k] : QState N)) := by
  have hrow : ∀ i, ∃ r : Tensor ℂ, ∀ h : i < batch.length, r.shape = [2 ^ N] ∧
      (∀ a : Bits N, r.get [enc a] = clsEncoded batch[i] a) ∧
      ∀ t, Classify.encodeStep N batch t i = t.setFirst i r := by
    intro i
    by_cases h : i < batch.length
    · obtain ⟨h1, h2⟩ := hb batch[i] (List.getElem_mem h)
      obtain ⟨e, he, ⟨E, hE, rE⟩, -⟩ := C44_encoding hN batch[i] h1 h2 (List.finRange N) (List.nodup_finRange N)
        "Y" Spec.Y rfl
      obtain ⟨e', he', ⟨E', hE', rE'⟩, -⟩ := C44_encoding hN batch[i] h1 h2 (List.finRange N)
        (List.nodup_finRange N) "Z" Spec.Z rfl
      obtain ⟨F, hF, rF⟩ := rE'.matmul rE
      obtain ⟨r, er, sr, gr⟩ := matmul_vec (t := (Circuit.new N).state_init) (v := ket0 N) rF rfl (fun a => by
        have e0 : enc (0 : Bits N) = 0 := by simp [enc]
        unfold Circuit.state_init
        rw [Tensor.get_ofFn (by simp [Circuit.new, enc_lt])]
        unfold ket0
        simp only [List.getD_cons_zero]
        by_cases ha : a = 0
        · subst ha; simp [e0]
        · rw [if_neg ha, if_neg (fun h => ha (enc_injective (by rw [h, e0])))])
      refine ⟨r, fun _ => ⟨sr, fun a => ?_, fun t => ?_⟩⟩
      · rw [gr, clsEncoded, mulVec_mulVec]
      · unfold Classify.encodeStep
        rw [pyGet_nat h, Py.ok_bind, ← wires_finRange, he, Py.ok_bind, he', Py.ok_bind, hE, Py.ok_bind, hE',
          Py.ok_bind, hF, Py.ok_bind, er, Py.ok_bind]
    · exact ⟨Tensor.zeros [], fun h' => absurd h' h⟩
  choose row hrow using hrow
  obtain ⟨t, et, st, gt⟩ := fill_rows (m := batch.length) (d := 2 ^ N) row (fun i hi => (hrow i hi).1)
    (fun i hi t => (hrow i hi).2.2 t)
  exact ⟨t, et, st, fun k a => by rw [gt _ _ k.2 (enc_lt a)]; exact (hrow k k.2).2.1 a⟩

/-- C81: `qcir.forward`: one row per sample, one column per qubit, and the entry is four times `⟨Z⟩` of that qubit
in the final state of that sample. -/
theorem C81_circuit (hN : 2 ≤ N) (w : List ℝ) (hw : w.length = 21 * N) (batch : List (List ℝ))
    (hb : GoodSamples N batch) :
    ∃ t, Classify.forward N w batch = .ok t ∧ t.shape = [batch.length, N] ∧
      ∀ (k : Fin batch.length) (i : Fin N),
        t.get [(k : ℕ), (i : ℕ)] = 4 * (braket (onQubit i Spec.Z) (clsState N w batch[k])).re := by
  obtain ⟨Ms, eM, hM, rM⟩ := zmeasure_ok N
  obtain ⟨phi, e0, h0⟩ := clsEncode_ok (by omega) batch hb
  obtain ⟨ops, hops, ⟨U, eU, rU⟩, -⟩ := C13_items N _ (clsItems_wf hN hw)
  obtain ⟨chi, e0', h0'⟩ := rows_permute h0
  obtain ⟨r, e1, h1⟩ := cols_matmul rU h0'
  obtain ⟨psi, e2, h2⟩ := cols_permute h1
  have hev : Classify.evolve N w batch = .ok r := by
    unfold Classify.evolve
    rw [e0, Py.ok_bind, cls_calls, calls_ok _ hops, Py.ok_bind, eU, Py.ok_bind, e0', Py.ok_bind, e1]
  have hread : ∀ i : Fin N, _ := fun i => readOut_ok h2 (rM i)
  obtain ⟨ts, e3, hF⟩ := mapM_forall₂ (f := Qnn.readOut psi) (R := fun M t => Qnn.readOut psi M = .ok t) (l := Ms)
    (fun M hMem => by
      obtain ⟨n, hn, rfl⟩ := List.getElem_of_mem hMem
      obtain ⟨t, et, -⟩ := hread ⟨n, by omega⟩
      exact ⟨t, et, et⟩)
  have hlen : ts.length = N := by rw [← hF.length_eq, hM]
  have hts : ∀ (n : ℕ) (hn : n < ts.length), (ts[n]).shape = [batch.length, 1] ∧ ∀ k : Fin batch.length,
      (ts[n]).get [(k : ℕ), 0] = braket (onQubit ⟨n, by omega⟩ Spec.Z) (clsState N w batch[k]) := by
    intro n hn
    have h1 := (List.forall₂_iff_get.1 hF).2 n (by omega) hn
    obtain ⟨t, et, st, gt⟩ := hread ⟨n, by omega⟩
    have : ts[n] = t := by
      have h2 : Qnn.readOut psi Ms[n] = .ok t := et
      have h3 : Qnn.readOut psi Ms[n] = .ok ts[n] := h1
      rw [h2] at h3
      exact (Except.ok.inj h3).symm
    rw [this]
    exact ⟨st, gt⟩
  obtain ⟨t, et, st, gt⟩ := catList_columns ts (by intro h; rw [h] at hlen; simp at hlen; omega)
    (fun t ht => by
      obtain ⟨n, hn, rfl⟩ := List.getElem_of_mem ht
      exact (hts n hn).1)
  have hs : (t.smul 4).shape = [batch.length, N] := by rw [← hlen]; exact st
  refine ⟨(t.smul 4).mapT Complex.re, ?_, hs, fun k i => ?_⟩
  · unfold Classify.forward
    rw [eM, Py.ok_bind, hev, Py.ok_bind, e2, Py.ok_bind, e3, Py.ok_bind, et, Py.ok_bind]
  · unfold Tensor.mapT
    rw [Tensor.get_ofFn (by rw [hs]; simp), Tensor.smul_get, gt k i (by rw [hlen]; exact i.2) k.2,
      (hts i (by rw [hlen]; exact i.2)).2 k]
    simp

/-- The angles of a sample. -/
noncomputable def clsAngles (x : List ℝ) : List ℝ := x.map Real.arcsin

/-- `⟨Z⟩` of the first qubit in the final state of the sample `x`. -/
noncomputable def clsZ (hN : 2 ≤ N) (w x : List ℝ) : ℝ :=
  (braket (onQubit ⟨0, by omega⟩ Spec.Z) (clsState N w (clsAngles x))).re

theorem sigmoid_eq (x : ℝ) : Classify.sigmoid x = Real.sigmoid x := by
  rw [Classify.sigmoid, Real.sigmoid_def, one_div]

/-- C81: `qnet.forward`: one number per sample, the logistic function of four times `⟨Z⟩` of the first qubit. -/
theorem C81_net (hN : 2 ≤ N) (w : List ℝ) (hw : w.length = 21 * N) (xs : List (List ℝ)) (hb : GoodSamples N xs) :
    Classify.net N w xs = .ok (xs.map (fun x => Real.sigmoid (4 * clsZ hN w x))) := by
  have hb' : GoodSamples N (xs.map clsAngles) := by
    intro y hy
    obtain ⟨x, hx, rfl⟩ := List.mem_map.1 hy
    have := hb x hx
    simpa [clsAngles] using this
  obtain ⟨t, et, st, gt⟩ := C81_circuit hN w hw _ hb'
  unfold Classify.net
  change (Classify.forward N w (xs.map clsAngles) >>= _) = _
  rw [et, Py.ok_bind, st, if_neg (by simp; omega)]
  congr 1
  refine List.ext_getElem (by simp) fun k h1 h2 => ?_
  have hk : k < xs.length := by simpa using h2
  have := gt ⟨k, by simpa using hk⟩ ⟨0, by omega⟩
  simp only [List.getElem_map, List.getElem_range]
  rw [sigmoid_eq]
  dsimp only at this
  rw [this]
  simp [clsZ]

theorem clsZ_range (hN : 2 ≤ N) (w : List ℝ) (hw : w.length = 21 * N) (x : List ℝ) :
    clsZ hN w x ∈ Set.Icc (-1) 1 := by
  have hu : ∀ (P : Mat2) (θ : List ℝ), Pᴴ = P → P * P = 1 → IsUnitaryOp (encOp P θ (List.finRange N)) :=
    fun P θ h1 h2 => onEach_unitary fun j => by split_ifs; exacts [rot_u2 h1 h2 _, isU2_one]
  have hn : norm2 (clsState N w (clsAngles x)) = 1 := by
    unfold clsState clsEncoded
    rw [norm2_unitary (circuitOp_unitary _ (clsItems_wf hN hw)), norm2_unitary (hu _ _ Z_conj Z_sq),
      norm2_unitary (hu _ _ Y_conj Y_sq), ket0_norm]
  have h := (Complex.abs_re_le_norm _).trans (braket_Z_le ⟨0, by omega⟩ (clsState N w (clsAngles x)))
  rw [sqNorm_one hn] at h
  exact abs_le.1 h

/-- C81: whatever the weights, the network never answers with more certainty than the logistic function of 4: all its
outputs are in the interval from σ(-4) to σ(4). -/
theorem C81_range (hN : 2 ≤ N) (w : List ℝ) (hw : w.length = 21 * N) (xs : List (List ℝ)) (hb : GoodSamples N xs) :
    ∃ out, Classify.net N w xs = .ok out ∧ out.length = xs.length ∧
      ∀ o ∈ out, o ∈ Set.Icc (1 - Real.sigmoid 4) (Real.sigmoid 4) := by
  refine ⟨_, C81_net hN w hw xs hb, by simp, fun o ho => ?_⟩
  obtain ⟨x, -, rfl⟩ := List.mem_map.1 ho
  have := clsZ_range hN w hw x
  rw [← Real.sigmoid_neg]
  exact ⟨Real.sigmoid_le (by linarith [this.1]), Real.sigmoid_le (by linarith [this.2])⟩

theorem label_01 (x : List ℝ) : Classify.label x = 0 ∨ Classify.label x = 1 := by
  unfold Classify.label Classify.foo
  split_ifs
  exacts [.inr rfl, .inl rfl]

/-- C81: the label of a sample is 0 exactly in the disc around the origin that covers half the area of the unit disc,
boundary included, and 1 outside; further features do not matter. -/
theorem C81_labels (x y : ℝ) (rest : List ℝ) :
    (Classify.label (x :: y :: rest) = 0 ↔ ‖(⟨x, y⟩ : ℂ)‖ ≤ √(1 / 2)) ∧
      (Classify.label (x :: y :: rest) = 1 ↔ √(1 / 2) < ‖(⟨x, y⟩ : ℂ)‖) := by
  have e : ‖(⟨x, y⟩ : ℂ)‖ ^ 2 = x ^ 2 + y ^ 2 := by
    rw [Complex.sq_norm, Complex.normSq_mk]; ring
  have h : √(1 / 2) < ‖(⟨x, y⟩ : ℂ)‖ ↔ x ^ 2 + y ^ 2 > 0.5 := by
    rw [← Real.sqrt_sq (norm_nonneg _), e, Real.sqrt_lt_sqrt_iff (by norm_num)]
    norm_num
  rw [← not_lt, h]
  show ((if x ^ 2 + y ^ 2 > 0.5 then (1 : ℝ) else 0) = 0 ↔ _) ∧ ((if x ^ 2 + y ^ 2 > 0.5 then (1 : ℝ) else 0) = 1 ↔ _)
  split_ifs with h1 <;> simp [h1]

/-- A sample on the boundary and one outside. -/
example : ‖(⟨1 / 2, 1 / 2⟩ : ℂ)‖ ≤ √(1 / 2) ∧ √(1 / 2) < ‖(⟨1, 0⟩ : ℂ)‖ :=
  ⟨(C81_labels _ _ []).1.1 (if_neg (by norm_num)), (C81_labels _ _ []).2.1 (if_pos (by norm_num))⟩

/-- C81: so the loss of a batch is never below σ(-4)², whatever the weights and the samples. -/
theorem C81_loss (hN : 2 ≤ N) (w : List ℝ) (hw : w.length = 21 * N) (xs : List (List ℝ)) (hb : GoodSamples N xs)
    (h0 : xs ≠ []) : ∃ l, Classify.loss N w xs = .ok l ∧
      l = (xs.map (fun x => (Real.sigmoid (4 * clsZ hN w x) - Classify.label x) ^ 2)).sum / xs.length ∧
      (1 - Real.sigmoid 4) ^ 2 ≤ l := by
  have e : Classify.loss N w xs = .ok
      ((xs.map (fun x => (Real.sigmoid (4 * clsZ hN w x) - Classify.label x) ^ 2)).sum / xs.length) := by
    unfold Classify.loss
    rw [C81_net hN w hw xs hb, Py.ok_bind]
    dsimp only
    rw [List.zipWith_map]
    simp [List.zipWith_self]
  refine ⟨_, e, rfl, ?_⟩
  have hl : (0 : ℝ) < xs.length := by exact_mod_cast List.length_pos_iff.2 h0
  rw [le_div_iff₀ hl]
  have key : ∀ ys : List (List ℝ), (1 - Real.sigmoid 4) ^ 2 * ys.length ≤
      (ys.map (fun x => (Real.sigmoid (4 * clsZ hN w x) - Classify.label x) ^ 2)).sum := by
    intro ys
    induction ys with
    | nil => simp
    | cons x ys ih =>
      have hx := clsZ_range hN w hw x
      have h1 : 1 - Real.sigmoid 4 ≤ Real.sigmoid (4 * clsZ hN w x) := by
        rw [← Real.sigmoid_neg]; exact Real.sigmoid_le (by linarith [hx.1])
      have h2 : Real.sigmoid (4 * clsZ hN w x) ≤ Real.sigmoid 4 := Real.sigmoid_le (by linarith [hx.2])
      have h3 := Real.sigmoid_lt_one 4
      rw [List.map_cons, List.sum_cons, List.length_cons]
      have : (1 - Real.sigmoid 4) ^ 2 ≤ (Real.sigmoid (4 * clsZ hN w x) - Classify.label x) ^ 2 := by
        rcases label_01 x with h | h <;> rw [h] <;> nlinarith
      push_cast
      linarith
  exact key xs

/-- C81: the colour of a sample in the second plot says whether `⟨Z⟩` of the first qubit is positive. -/
theorem C81_class (hN : 2 ≤ N) (w : List ℝ) (hw : w.length = 21 * N) (xs : List (List ℝ)) (hb : GoodSamples N xs) :
    ∃ out, Classify.net N w xs = .ok out ∧
      out.map Classify.predicted = xs.map (fun x => decide (0 < clsZ hN w x)) := by
  refine ⟨_, C81_net hN w hw xs hb, ?_⟩
  rw [List.map_map]
  refine List.map_congr_left fun x _ => ?_
  simp only [Function.comp, Classify.predicted]
  rw [decide_eq_decide, gt_iff_lt, show (0.5 : ℝ) = Real.sigmoid 0 by rw [Real.sigmoid_zero]; norm_num,
    Real.sigmoid_lt_iff]
  constructor <;> intro h <;> linarith

/-! ## What the encoding can tell apart -/

theorem clsEncoded_eq (θ : List ℝ) : (clsEncoded θ : QState N) =
    onEach (fun j : Fin N => Spec.rot Spec.Z (θ.getD (j % θ.length) 0) * Spec.rot Spec.Y (θ.getD (j % θ.length) 0)) *ᵥ
      ket0 N := by
  unfold clsEncoded encOp
  rw [mulVec_mulVec, onEach_mul]
  congr 2
  funext j
  simp [List.mem_finRange]

theorem onEach_ket0 (g : Fin N → Mat2) (a : Bits N) : (onEach g *ᵥ ket0 N) a = ∏ j, g j (a j) 0 := by
  unfold mulVec dotProduct ket0
  simp [onEach]

theorem braket_each (g : Fin N → Mat2) (hg : ∀ j, IsU2 (g j)) (i : Fin N) (P : Mat2) :
    braket (onQubit i P) (onEach g *ᵥ ket0 N) = ((g i)ᴴ * P * g i) 0 0 := by
  rw [braket_mul, onEach_conjTranspose, ← onEach_update_one, onEach_mul, onEach_mul]
  have e : (fun j => (g j)ᴴ * Function.update (fun _ => (1 : Mat2)) i P j * g j) =
      Function.update (fun _ => 1) i ((g i)ᴴ * P * g i) := by
    funext j
    by_cases h : j = i
    · subst h; simp
    · simp [h, (hg j).2]
  rw [e, onEach_update_one]
  unfold braket ket0
  simp only [apply_ite star, star_one, star_zero, mul_ite, mul_one, mul_zero, ite_mul, one_mul, zero_mul,
    Finset.sum_ite_eq', Finset.mem_univ, if_true]
  simp [onQubit]

theorem col0 (θ : ℝ) : (Spec.rot Spec.Z θ * Spec.rot Spec.Y θ) 0 0 =
      (Real.cos (θ / 2) - Complex.I * Real.sin (θ / 2)) * Real.cos (θ / 2) ∧
    (Spec.rot Spec.Z θ * Spec.rot Spec.Y θ) 1 0 =
      (Real.cos (θ / 2) + Complex.I * Real.sin (θ / 2)) * Real.sin (θ / 2) := by
  constructor
  · simp [Matrix.mul_apply, Fin.sum_univ_two, Spec.rot, Spec.Y, Spec.Z]
  · simp [Matrix.mul_apply, Fin.sum_univ_two, Spec.rot, Spec.Y, Spec.Z]
    linear_combination (-(Complex.cos (θ / 2) + Complex.I * Complex.sin (θ / 2)) * Complex.sin (θ / 2)) * Complex.I_sq

theorem sandwich (G P : Mat2) : (Gᴴ * P * G) 0 0 =
    star (G 0 0) * (P 0 0 * G 0 0 + P 0 1 * G 1 0) + star (G 1 0) * (P 1 0 * G 0 0 + P 1 1 * G 1 0) := by
  simp only [Matrix.mul_apply, Fin.sum_univ_two, Matrix.conjTranspose_apply]
  ring

/-- C81: the point of the Bloch sphere that encodes an input `x` in [-1, 1] on a qubit is
`(x √(1-x²), x², √(1-x²))`. -/
theorem C81_bloch (x : List ℝ) (hx : x ≠ []) (hr : ∀ y ∈ x, y ∈ Set.Icc (-1 : ℝ) 1) (i : Fin N) :
    let y := x.getD (i % x.length) 0
    braket (onQubit i Spec.X) (clsEncoded (clsAngles x)) = (y * Real.sqrt (1 - y ^ 2) : ℝ) ∧
    braket (onQubit i Spec.Y) (clsEncoded (clsAngles x)) = (y ^ 2 : ℝ) ∧
    braket (onQubit i Spec.Z) (clsEncoded (clsAngles x)) = (Real.sqrt (1 - y ^ 2) : ℝ) := by
  intro y
  have hl : x.length ≠ 0 := by simpa using hx
  have hi : i % x.length < x.length := Nat.mod_lt _ (by omega)
  have hy : y ∈ Set.Icc (-1 : ℝ) 1 := by
    apply hr
    show x.getD _ _ ∈ x
    rw [List.getD_eq_getElem _ _ hi]
    exact List.getElem_mem hi
  have hθ : (clsAngles x).getD (i % (clsAngles x).length) 0 = Real.arcsin y := by
    have : (clsAngles x).length = x.length := by simp [clsAngles]
    rw [this]
    show (x.map Real.arcsin).getD _ _ = Real.arcsin (x.getD _ _)
    rw [List.getD_eq_getElem _ _ (by simpa using hi), List.getD_eq_getElem _ _ hi, List.getElem_map]
  have hg : ∀ j : Fin N, IsU2 (Spec.rot Spec.Z ((clsAngles x).getD (j % (clsAngles x).length) 0) *
      Spec.rot Spec.Y ((clsAngles x).getD (j % (clsAngles x).length) 0)) :=
    fun j => (rot_u2 Z_conj Z_sq _).mul (rot_u2 Y_conj Y_sq _)
  rw [clsEncoded_eq, braket_each _ hg, braket_each _ hg, braket_each _ hg, hθ]
  set θ := Real.arcsin y
  have hs : Real.sin θ = y := Real.sin_arcsin hy.1 hy.2
  have hc : Real.cos θ = Real.sqrt (1 - y ^ 2) := Real.cos_arcsin y
  have es : Real.sin θ = 2 * Real.sin (θ / 2) * Real.cos (θ / 2) := by
    rw [← Real.sin_two_mul]; congr 1; ring
  have ec : Real.cos θ = Real.cos (θ / 2) ^ 2 - Real.sin (θ / 2) ^ 2 := by
    rw [← Real.cos_two_mul']; congr 1; ring
  have e1 := Real.sin_sq_add_cos_sq (θ / 2)
  rw [← hc, ← hs, es, ec]
  obtain ⟨h0, h1⟩ := col0 θ
  generalize Real.sin (θ / 2) = s at *
  generalize Real.cos (θ / 2) = c at *
  rw [sandwich, sandwich, sandwich, h0, h1]
  refine ⟨?_, ?_, ?_⟩
  · apply Complex.ext <;> simp [Spec.X, pow_two] <;> ring
  · apply Complex.ext <;> simp [Spec.Y, pow_two] <;> ring
  · apply Complex.ext <;> simp [Spec.Z, pow_two]
    · linear_combination (c ^ 2 - s ^ 2) * e1
    · ring

theorem col_phase {y y' : ℝ} (h : y = y' ∨ (|y| = 1 ∧ |y'| = 1)) : ∃ u : ℂ, star u * u = 1 ∧ ∀ a : Fin 2,
    (Spec.rot Spec.Z (Real.arcsin y') * Spec.rot Spec.Y (Real.arcsin y')) a 0 =
      u * (Spec.rot Spec.Z (Real.arcsin y) * Spec.rot Spec.Y (Real.arcsin y)) a 0 := by
  have hq : Real.pi / 2 / 2 = Real.pi / 4 := by ring
  have hq' : -(Real.pi / 2) / 2 = -(Real.pi / 4) := by ring
  have hsq : (Real.sqrt 2 : ℂ) * Real.sqrt 2 = 2 := by
    exact_mod_cast Real.mul_self_sqrt (by norm_num : (0 : ℝ) ≤ 2)
  rcases h with rfl | ⟨h, h'⟩
  · exact ⟨1, by simp, by simp⟩
  rcases (abs_eq (by norm_num : (0 : ℝ) ≤ 1)).1 h with rfl | rfl <;>
    rcases (abs_eq (by norm_num : (0 : ℝ) ≤ 1)).1 h' with rfl | rfl
  · exact ⟨1, by simp, by simp⟩
  · refine ⟨Complex.I, by simp, fun a => ?_⟩
    fin_cases a
    · show _ = _ * (Spec.rot Spec.Z _ * Spec.rot Spec.Y _) 0 0
      change (Spec.rot Spec.Z _ * Spec.rot Spec.Y _) 0 0 = _
      rw [(col0 _).1, (col0 _).1, Real.arcsin_neg_one, Real.arcsin_one, hq, hq', Real.cos_neg, Real.sin_neg,
        Real.cos_pi_div_four, Real.sin_pi_div_four]
      apply Complex.ext <;> simp
    · show _ = _ * (Spec.rot Spec.Z _ * Spec.rot Spec.Y _) 1 0
      change (Spec.rot Spec.Z _ * Spec.rot Spec.Y _) 1 0 = _
      rw [(col0 _).2, (col0 _).2, Real.arcsin_neg_one, Real.arcsin_one, hq, hq', Real.cos_neg, Real.sin_neg,
        Real.cos_pi_div_four, Real.sin_pi_div_four]
      apply Complex.ext <;> simp
  · refine ⟨-Complex.I, by simp, fun a => ?_⟩
    fin_cases a
    · show _ = _ * (Spec.rot Spec.Z _ * Spec.rot Spec.Y _) 0 0
      change (Spec.rot Spec.Z _ * Spec.rot Spec.Y _) 0 0 = _
      rw [(col0 _).1, (col0 _).1, Real.arcsin_neg_one, Real.arcsin_one, hq, hq', Real.cos_neg, Real.sin_neg,
        Real.cos_pi_div_four, Real.sin_pi_div_four]
      apply Complex.ext <;> simp
    · show _ = _ * (Spec.rot Spec.Z _ * Spec.rot Spec.Y _) 1 0
      change (Spec.rot Spec.Z _ * Spec.rot Spec.Y _) 1 0 = _
      rw [(col0 _).2, (col0 _).2, Real.arcsin_neg_one, Real.arcsin_one, hq, hq', Real.cos_neg, Real.sin_neg,
        Real.cos_pi_div_four, Real.sin_pi_div_four]
      apply Complex.ext <;> simp
  · exact ⟨1, by simp, by simp⟩

theorem clsEncoded_phase {x x' : List ℝ} (h : List.Forall₂ (fun y y' => y = y' ∨ (|y| = 1 ∧ |y'| = 1)) x x') :
    ∃ u : ℂ, star u * u = 1 ∧ (clsEncoded (clsAngles x') : QState N) = u • clsEncoded (clsAngles x) := by
  have hl := h.length_eq
  have hy : ∀ n, x.getD n 0 = x'.getD n 0 ∨ (|x.getD n 0| = 1 ∧ |x'.getD n 0| = 1) := by
    intro n
    by_cases hn : n < x.length
    · have := (List.forall₂_iff_get.1 h).2 n hn (by omega)
      rw [List.getD_eq_getElem _ _ hn, List.getD_eq_getElem _ _ (by omega)]
      exact this
    · left
      rw [List.getD_eq_default _ _ (by omega), List.getD_eq_default _ _ (by omega)]
  have ha : ∀ (z : List ℝ) (n : ℕ), (clsAngles z).getD n 0 = Real.arcsin (z.getD n 0) := by
    intro z n
    rw [clsAngles, show (0 : ℝ) = Real.arcsin 0 by simp, List.getD_map, Real.arcsin_zero]
  have hex : ∀ j : Fin N, ∃ u : ℂ, star u * u = 1 ∧ ∀ a : Fin 2,
      (Spec.rot Spec.Z (Real.arcsin (x'.getD (j % x.length) 0)) * Spec.rot Spec.Y (Real.arcsin (x'.getD (j % x.length) 0))) a 0 =
      u * (Spec.rot Spec.Z (Real.arcsin (x.getD (j % x.length) 0)) * Spec.rot Spec.Y (Real.arcsin (x.getD (j % x.length) 0))) a 0 :=
    fun j => col_phase (hy _)
  choose u hu hc using hex
  refine ⟨∏ j, u j, ?_, ?_⟩
  · rw [star_prod, ← Finset.prod_mul_distrib]
    exact Finset.prod_eq_one fun j _ => hu j
  · funext a
    rw [Pi.smul_apply, clsEncoded_eq, clsEncoded_eq, onEach_ket0, onEach_ket0, smul_eq_mul,
      ← Finset.prod_mul_distrib]
    refine Finset.prod_congr rfl fun j _ => ?_
    rw [ha, ha, show (clsAngles x').length = x.length by simp [clsAngles, hl],
      show (clsAngles x).length = x.length by simp [clsAngles], hc j]

/-- C81: the encoding cannot tell the ends of the interval apart: two batches whose samples differ only in signs of
entries 1 and -1 give the same outputs, whatever the weights. -/
theorem C81_edges (hN : 2 ≤ N) (w : List ℝ) (hw : w.length = 21 * N) (xs xs' : List (List ℝ))
    (hb : GoodSamples N xs) (hb' : GoodSamples N xs')
    (h : List.Forall₂ (List.Forall₂ (fun y y' => y = y' ∨ (|y| = 1 ∧ |y'| = 1))) xs xs') :
    ∃ out, Classify.net N w xs = .ok out ∧ Classify.net N w xs' = .ok out := by
  have key : ∀ x x' : List ℝ, List.Forall₂ (fun y y' => y = y' ∨ (|y| = 1 ∧ |y'| = 1)) x x' →
      clsZ hN w x' = clsZ hN w x := by
    intro x x' hx
    obtain ⟨u, hu, e⟩ := clsEncoded_phase (N := N) hx
    unfold clsZ clsState
    rw [e, mulVec_smul, braket_phase _ _ _ hu]
  have hm : xs'.map (fun x => Real.sigmoid (4 * clsZ hN w x)) = xs.map (fun x => Real.sigmoid (4 * clsZ hN w x)) := by
    clear hb hb'
    induction h with
    | nil => rfl
    | cons hx _ ih => rw [List.map_cons, List.map_cons, ih, key _ _ hx]
  exact ⟨_, C81_net hN w hw xs hb, (C81_net hN w hw xs' hb').trans (by rw [hm])⟩

/-- The hypotheses, for the four qubits of the demo. -/
example : GoodSamples 4 [[0.3, -0.7], [1, 0.2]] ∧ (List.replicate 84 (0.3 : ℝ)).length = 21 * 4 := by
  simp [GoodSamples]

/-- A sample with entries in [-1, 1]. -/
example : ∀ y ∈ ([0.3, -0.7] : List ℝ), y ∈ Set.Icc (-1 : ℝ) 1 := by
  intro y hy
  simp only [List.mem_cons, List.not_mem_nil, or_false] at hy
  rcases hy with rfl | rfl <;> norm_num

/-- Two different batches to which `C81_edges` applies. -/
example : List.Forall₂ (List.Forall₂ (fun y y' : ℝ => y = y' ∨ (|y| = 1 ∧ |y'| = 1)))
    [[0.3, -0.7], [1, 0.2]] [[0.3, -0.7], [-1, 0.2]] :=
  .cons (.cons (.inl rfl) (.cons (.inl rfl) .nil))
    (.cons (.cons (.inr ⟨abs_one, by rw [abs_neg, abs_one]⟩) (.cons (.inl rfl) .nil)) .nil)

end QTN.Props
