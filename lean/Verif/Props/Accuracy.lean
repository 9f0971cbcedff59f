import Verif.Lemmas.Small
import Verif.Props.Expect

/-! # Property C60: accuracy of the matrix-product path with truncation -/

namespace QTN.Props

open QTN QTN.Spec Matrix Finset

variable {N : ℕ}

/-- C60: converting a state vector of norm at most one and applying a circuit of operations with a
working `TN_operation` either calls the SVD exactly `svdCount l` times and returns a matrix product
state whose distance from the exact result is at most the sum over these calls of the root-sum-square
of the discarded singular values; or raises RuntimeError, and then that sum is at least the norm of the
input.  Nothing is assumed about which singular values occur. -/
theorem C60_error_bound {svd : SVDOracle} (hv : ValidSVD svd) (hN : 0 < N) (l : List (Item N))
    (h : ∀ it ∈ l, it.WF) (hc : ∀ it ∈ l, HasTN it) (psi : Tensor ℂ) (v : QState N) (hp : IsRow psi v)
    (hn : norm2 v ≤ 1) :
    ∃ ops, l.mapM buildItem = .ok ops ∧ ∀ s,
      (∃ mps As w, (StateVec2MPS svd psi N >>= (circ N ops).TN_evolution svd) s = (.ok mps, s ++ As) ∧
        As.length = svdCount l ∧ (∀ A ∈ As, SmallMat N A) ∧ HoldsState mps w ∧ norm2 w ≤ 1 ∧
        dist2 w (circuitOp l *ᵥ v) ≤ truncLoss svd s As) ∨
      (∃ As, (StateVec2MPS svd psi N >>= (circ N ops).TN_evolution svd) s =
          (.error .runtimeError, s ++ As) ∧
        As.length ≤ svdCount l ∧ (∀ A ∈ As, SmallMat N A) ∧ norm2 v ≤ truncLoss svd s As) := by
  have hc' : ∀ it ∈ l, Spec.Item.mpsOp it := fun it hit => hasTN_iff (hc it hit)
  obtain ⟨ops, hops, -⟩ := C13_items N l h
  refine ⟨ops, hops, fun s => ?_⟩
  have hw := evolve_within hv l h hc' hops (circ_nqubits N ops) (circ_gate N ops)
  have hs := evolve_small hv l h hc' hops (circ_nqubits N ops) (circ_gate N ops)
  obtain ⟨As, hA, ⟨mps, v', e1, l1, m1, b1, c1, d1⟩ | ⟨e1, l1, d1⟩⟩ := sv2mps_within hv hN hp hn s
  · obtain ⟨Cs, e3, s3, -⟩ := hs mps (s ++ As) b1
    have hsm : ∀ Bs : List (Tensor ℂ), Bs = Cs → ∀ A ∈ As ++ Bs, SmallMat N A := by
      rintro Bs rfl A hmem
      rcases List.mem_append.1 hmem with h | h
      · exact hA A h
      · exact s3 A h
    rcases hw.2 mps v' (s ++ As) m1 c1 with ⟨mps2, Bs, w, e2, l2, m2, c2, d2⟩ | ⟨Bs, e2, l2, d2⟩
    · left
      rw [e2, List.append_cancel_left_eq] at e3
      refine ⟨mps2, As ++ Bs, w, ?_, ?_, hsm Bs e3, holds_iff.2 m2, contr_norm m2 c2, ?_⟩
      · rw [TNM.bind_ok e1, e2, List.append_assoc]
      · rw [List.length_append, l1, l2]; rfl
      · rw [truncLoss_append]
        have := dist2_triangle w (circuitOp l *ᵥ v') (circuitOp l *ᵥ v)
        rw [dist2_unitary (circuitOp_unitary l h)] at this
        have d2' : dist2 w (circuitOp l *ᵥ v') ≤ _ := d2
        linarith
    · right
      rw [e2, List.append_cancel_left_eq] at e3
      refine ⟨As ++ Bs, ?_, ?_, hsm Bs e3, ?_⟩
      · rw [TNM.bind_ok e1, e2, List.append_assoc]
      · rw [List.length_append, l1]; unfold svdCount; omega
      · rw [truncLoss_append]
        have := norm2_le_dist v v'
        linarith
  · exact .inr ⟨As, TNM.bind_error e1 _, by unfold svdCount; omega, hA, d1⟩

/-- C60, bound known before the run: if the input is longer than `accuracy l`, which is
`svdCount l · 1e-8 · √(2 ^ (N / 2))`, the run returns, and the result is within `accuracy l` of the
exact one. -/
theorem C60_accuracy {svd : SVDOracle} (hv : ValidSVD svd) (hN : 0 < N) (l : List (Item N))
    (h : ∀ it ∈ l, it.WF) (hc : ∀ it ∈ l, HasTN it) (psi : Tensor ℂ) (v : QState N) (hp : IsRow psi v)
    (hn : norm2 v ≤ 1) (ha : accuracy l < norm2 v) :
    ∃ ops, l.mapM buildItem = .ok ops ∧ ∀ s, ∃ mps s' w,
      (StateVec2MPS svd psi N >>= (circ N ops).TN_evolution svd) s = (.ok mps, s') ∧
      HoldsState mps w ∧ norm2 w ≤ 1 ∧ dist2 w (circuitOp l *ᵥ v) ≤ accuracy l := by
  obtain ⟨ops, hops, hr⟩ := C60_error_bound hv hN l h hc psi v hp hn
  refine ⟨ops, hops, fun s => ?_⟩
  rcases hr s with ⟨mps, As, w, e, hl, hs, hm, hw, hd⟩ | ⟨As, e, hl, hs, hd⟩
  · refine ⟨mps, _, w, e, hm, hw, hd.trans ?_⟩
    have := truncLoss_le hv As s hs
    rwa [hl] at this
  · exfalso
    have h1 := truncLoss_le hv As s hs
    have h2 : (As.length : ℝ) * (1e-8 * Real.sqrt (2 ^ (N / 2))) ≤ accuracy l := by
      unfold accuracy
      gcongr
    linarith

theorem braket_diff {O : QOp N} {B : ℝ} (hB : ∀ w : QState N, norm2 (O *ᵥ w) ≤ B * norm2 w) (u w : QState N) :
    ‖braket O u - braket O w‖ ≤ B * (norm2 u + norm2 w) * dist2 u w := by
  have hin : ∀ x y : QState N, ‖∑ a, star (x a) * y a‖ ≤ norm2 x * norm2 y := by
    intro x y
    rw [norm2_eq, norm2_eq]
    have := norm_inner_le_norm (𝕜 := ℂ) (WithLp.toLp 2 x : EuclideanSpace ℂ (Bits N)) (WithLp.toLp 2 y)
    refine le_trans (le_of_eq ?_) this
    congr 1
    rw [PiLp.inner_apply]
    exact Finset.sum_congr rfl (fun a _ => by simp [mul_comm])
  have hb : ∀ x : QState N, braket O x = ∑ a, star (x a) * (O *ᵥ x) a := by
    intro x
    unfold braket
    refine Finset.sum_congr rfl (fun a _ => ?_)
    rw [Matrix.mulVec, dotProduct, Finset.mul_sum]
    exact Finset.sum_congr rfl (fun _ _ => by ring)
  have e : braket O u - braket O w =
      ∑ a, star ((u - w) a) * (O *ᵥ u) a + ∑ a, star (w a) * (O *ᵥ (u - w)) a := by
    rw [hb, hb, Matrix.mulVec_sub, ← Finset.sum_add_distrib, ← Finset.sum_sub_distrib]
    refine Finset.sum_congr rfl (fun a _ => ?_)
    simp only [Pi.sub_apply, star_sub]
    ring
  rw [e, dist2_eq]
  refine (norm_add_le _ _).trans ?_
  have h1 := hin (u - w) (O *ᵥ u)
  have h2 := hin w (O *ᵥ (u - w))
  have h3 := mul_le_mul_of_nonneg_left (hB u) (norm2_nonneg (u - w))
  have h4 := mul_le_mul_of_nonneg_left (hB (u - w)) (norm2_nonneg w)
  linarith

/-- C60 for expectation values: if `‖O w‖ ≤ B ‖w‖` for all `w`, the default tensor-network path of
`cir_expectation` returns a number within `2 B · accuracy l` of what the matrix path returns. -/
theorem C60_expectation {svd : SVDOracle} (hv : ValidSVD svd) (hN : 0 < N) (l : List (Item N))
    (h : ∀ it ∈ l, it.WF) (hc : ∀ it ∈ l, HasTN it) (init M : Tensor ℂ) (v : QState N) (hi : IsRow init v)
    (hn : norm2 v ≤ 1) (ha : accuracy l < norm2 v) (O : QOp N) (hM : Represents M O) (B : ℝ)
    (hB : ∀ w : QState N, norm2 (O *ᵥ w) ≤ B * norm2 w) :
    ∃ ops, l.mapM buildItem = .ok ops ∧ ∀ s, ∃ r r' s',
      (circ N ops).cir_expectation svd init M true s = (.ok r, s') ∧
      (circ N ops).cir_expectation svd init M false s = (.ok r', s) ∧
      r' = (braket ((circuitOp l)ᴴ * O * circuitOp l) v).re ∧ |r - r'| ≤ 2 * B * accuracy l := by
  obtain ⟨ops, hops, hr⟩ := C60_accuracy hv hN l h hc init v hi hn ha
  obtain ⟨ops', hops', hF, -⟩ := items_mps hv l h (fun it hit => hasTN_iff (hc it hit))
  rw [hops] at hops'
  cases hops'
  refine ⟨ops, hops, fun s => ?_⟩
  obtain ⟨ops', hops', e0⟩ := C28_matrix_path svd l h init M v hi O hM s
  rw [hops] at hops'
  cases hops'
  obtain ⟨mps, s', w, e, hm, hw, hd⟩ := hr s
  have hch : (circ N ops).TN_check = true := by
    unfold Circuit.TN_check
    rw [circ_gate]
    rw [List.all_eq_true]
    intro o ho
    obtain ⟨M', -, hb⟩ := forall₂_mem hF ho
    exact hb.1
  obtain ⟨sv, esv, rsv⟩ := mps2sv_rep (holds_iff.1 hm) hN
  refine ⟨(braket O w).re, _, s', ?_, e0, rfl, ?_⟩
  · rw [cir_expectation_checks svd _ (by rw [hi.1, circ_nqubits]) hM.1, if_pos ⟨hch, rfl⟩, row_view_row hi,
      TNM.lift_ok_bind, circ_nqubits]
    rcases hres : StateVec2MPS svd init N s with ⟨er | mps1, s1⟩
    · rw [TNM.bind_error hres] at e; cases e
    · rw [TNM.bind_ok hres] at e ⊢
      rw [TNM.bind_ok e, esv, TNM.lift_ok_bind, quadForm_row rsv hM]
      rfl
  · rw [← braket_mul, ← Complex.sub_re]
    refine (Complex.abs_re_le_norm _).trans ((braket_diff hB _ _).trans ?_)
    have hu : norm2 (circuitOp l *ᵥ v) ≤ 1 := by
      rw [norm2_unitary (circuitOp_unitary l h)]; exact hn
    have hacc : 0 ≤ accuracy l := by unfold accuracy; positivity
    have h0 : 0 ≤ B := by
      have h1 := (norm2_nonneg _).trans (hB v)
      exact nonneg_of_mul_nonneg_left h1 (lt_of_le_of_lt hacc ha)
    have h2 : norm2 w + norm2 (circuitOp l *ᵥ v) ≤ 2 := by linarith
    have hdn : 0 ≤ dist2 w (circuitOp l *ᵥ v) := Real.sqrt_nonneg _
    calc B * (norm2 w + norm2 (circuitOp l *ᵥ v)) * dist2 w (circuitOp l *ᵥ v)
        ≤ B * 2 * accuracy l := by gcongr
      _ = 2 * B * accuracy l := by ring

theorem basis_norm : norm2 (fun a : Bits 3 => if enc a = 0 then (1 : ℂ) else 0) = 1 := by
  unfold norm2
  rw [Finset.sum_eq_single (fun _ => 0 : Bits 3)]
  · simp [enc]
  · intro b _ hb
    have hne : enc b ≠ 0 := fun h => hb (enc_injective (h.trans (by simp [enc])))
    beta_reduce
    rw [if_neg hne]
    simp
  · simp

/-- The vector of `|000⟩`. -/
noncomputable def basis000 : Tensor ℂ := Tensor.ofFn [1, 8] (fun i => if i.getD 1 0 = 0 then 1 else 0)

theorem basis000_row : IsRow basis000 (fun a : Bits 3 => if enc a = 0 then (1 : ℂ) else 0) :=
  ⟨rfl, fun a => Tensor.get_ofFn (by simpa using enc_lt a)⟩

/-- A circuit with 12 decompositions, from `|000⟩`. -/
example : ∃ svd, ValidSVD svd ∧
    (∀ it ∈ [Item.gate (.toffoli (2 : Fin 3) 0 1), .ring (List.finRange 3), .gate (.cnot 2 0)],
      it.WF ∧ HasTN it) ∧
    IsRow basis000 (fun a : Bits 3 => if enc a = 0 then (1 : ℂ) else 0) ∧
    norm2 (fun a : Bits 3 => if enc a = 0 then (1 : ℂ) else 0) ≤ 1 ∧
    svdCount [Item.gate (.toffoli (2 : Fin 3) 0 1), .ring (List.finRange 3), .gate (.cnot 2 0)] = 12 ∧
    accuracy [Item.gate (.toffoli (2 : Fin 3) 0 1), .ring (List.finRange 3), .gate (.cnot 2 0)] <
      norm2 (fun a : Bits 3 => if enc a = 0 then (1 : ℂ) else 0) := by
  obtain ⟨svd, hv⟩ := exists_validSVD
  have hcount : svdCount [Item.gate (.toffoli (2 : Fin 3) 0 1), .ring (List.finRange 3), .gate (.cnot 2 0)] =
      12 := by
    simp [svdCount, Item.decomps, Instr.decomps, gap]
  refine ⟨svd, hv, ?_, basis000_row, basis_norm.le, hcount, ?_⟩
  · intro it hit
    simp only [List.mem_cons, List.not_mem_nil, or_false] at hit
    rcases hit with rfl | rfl | rfl
    · exact ⟨⟨by decide, by decide, by decide⟩, trivial⟩
    · exact ⟨⟨List.nodup_finRange 3, by simp⟩, rfl⟩
    · exact ⟨show (2 : Fin 3) ≠ 0 by decide, trivial⟩
  · rw [basis_norm]
    unfold accuracy
    rw [hcount]
    have : Real.sqrt (2 ^ (3 / 2)) ≤ 2 := Real.sqrt_le_iff.2 ⟨by norm_num, by norm_num⟩
    push_cast
    linarith

/-- An observable of norm one. -/
example (i : Fin N) : ∀ w : QState N, norm2 (onQubit i Spec.Z *ᵥ w) ≤ 1 * norm2 w := by
  intro w
  rw [one_mul, norm2_unitary (onQubit_unitary Z_u2 i)]

theorem bond_zero_of_small {svd : SVDOracle} (hv : ValidSVD svd) {A : Tensor ℂ} {m n : ℕ}
    (hA : A.shape = [m, n]) (s : List (Tensor ℂ)) (h : nrm m n (fun i j => A.get [i, j]) ≤ 1e-8) :
    bondDim (svd s A).S = 0 := by
  have hs := hv s A m n hA
  have e : nrm m n (fun i j => A.get [i, j]) = fro (toMat A m n) := nrm_eq _ _ _
  rw [e, hs.factor, fro_svd hs.orthU hs.orthV] at h
  have hall : ∀ σ ∈ (svd s A).S, |σ| ≤ 1e-8 := by
    intro σ hσ
    obtain ⟨r, hr, rfl⟩ := List.getElem_of_mem hσ
    have hr' : r < min m n := by rw [← hs.lenS]; exact hr
    refine le_trans ?_ h
    rw [← Real.sqrt_sq_eq_abs]
    refine Real.sqrt_le_sqrt ?_
    have := Finset.single_le_sum (f := fun r : Fin (min m n) => (svd s A).S.getD r 0 ^ 2)
      (fun i _ => sq_nonneg _) (Finset.mem_univ (⟨r, hr'⟩ : Fin (min m n)))
    simpa [List.getD_eq_getElem?_getD, List.getElem?_eq_getElem hr] using this
  unfold bondDim
  rw [List.length_eq_zero_iff, List.filter_eq_nil_iff]
  intro σ hσ
  have := hall σ hσ
  simpa [cutoff] using this

/-- C60: the bound needs the conversion from a state vector.  Among the matrix product states of the
normalised state `|000⟩` there are some, with a small first and a large last site, on which one CNOT
between neighbours raises RuntimeError. -/
theorem C60_needs_conversion {svd : SVDOracle} (hv : ValidSVD svd) :
    ∃ (mps : List (Tensor ℂ)) (v : QState 3) (ops : List Op), HoldsState mps v ∧ norm2 v = 1 ∧
      [Item.gate (.cnot (0 : Fin 3) 1)].mapM buildItem = .ok ops ∧
      ∀ s, ∃ s', (circ 3 ops).TN_evolution svd mps s = (.error .runtimeError, s') := by
  refine ⟨[site1 1e-9 0, site1 1 0, site1 1e9 0], (fun a : Bits 3 => if enc a = 0 then (1 : ℂ) else 0),
    [.gate (mkCnot 3 (.list [0, 1]))], holds_iff.2 ⟨rfl, ?_, ?_⟩, basis_norm, rfl, ?_⟩
  · exact ⟨by omega, 1, rfl, by omega, 1, rfl, by omega, 1, rfl, rfl⟩
  · intro a
    rw [bl_three, amp_triple rfl rfl rfl _ _ _ _ (by omega : 0 < 1)]
    have hs : ∀ (p q : ℂ) (z : Fin 2), (site1 p q).get [(z : ℕ), 0, 0] = if z = 0 then p else q := by
      intro p q z
      fin_cases z
      · exact site1_get0 p q
      · exact site1_get1 p q
    simp only [Finset.sum_range_one, hs]
    rw [enc_three]
    rcases bit_cases (a 0) with h0 | h0 <;> rcases bit_cases (a 1) with h1 | h1 <;>
      rcases bit_cases (a 2) with h2 | h2 <;> simp [h0, h1, h2] <;> norm_num
  · intro s
    obtain ⟨t, et, st, gt⟩ := mergeTwo_ok (A := site1 1e-9 0) (B := site1 1 0) (l := 1) (m := 1) (r := 1)
      rfl rfl cnotMat_rep
    obtain ⟨run1, run2⟩ := applyTwo_run (svd := svd) (pre := []) (post := [site1 1e9 0]) (i := 0) rfl et s
    obtain ⟨m, sm, gm, h0, h1⟩ := decomp2_full hv st (by omega) (by omega) s
    have hb : bondDim (svd s m).S = 0 := by
      refine bond_zero_of_small hv sm s (Real.sqrt_le_iff.2 ⟨by norm_num, ?_⟩)
      have e1 : ∑ i ∈ range (2 * 1), ∑ j ∈ range (2 * 1), ‖m.get [i, j]‖ ^ 2 =
          ∑ x : Bits 2, ‖t.get [(x 0 : ℕ), (x 1 : ℕ), 0, 0]‖ ^ 2 := by
        rw [sum_bits2_range (fun x y => ‖t.get [x, y, 0, 0]‖ ^ 2)]
        refine Finset.sum_congr rfl (fun x hx => Finset.sum_congr rfl (fun y hy => ?_))
        have := gm x y 0 0 (by simpa using hx) (by simpa using hy) (by omega) (by omega)
        rw [← this]
        simp
      refine le_trans (le_of_eq e1) ?_
      rw [Finset.sum_congr rfl (fun x _ => by rw [gt x 0 0 (by omega) (by omega)])]
      refine le_trans (le_of_eq (unitary_iso (controlled_unitary X_u2 (by decide)) (fun y : Bits 2 =>
        ∑ k ∈ range 1, (site1 1e-9 0).get [(y 0 : ℕ), 0, k] * (site1 1 0).get [(y 1 : ℕ), k, 0]))) ?_
      rw [sum_bits2_range (fun x y => ‖∑ k ∈ range 1, (site1 1e-9 0).get [x, 0, k] *
        (site1 1 0).get [y, k, 0]‖ ^ 2)]
      simp only [Finset.sum_range_succ, Finset.sum_range_zero, zero_add, site1_get0, site1_get1]
      norm_num
    refine ⟨s ++ [m], ?_⟩
    have e : (mkCnot 3 (.list [0, 1])).TN_operation svd [site1 1e-9 0, site1 1 0, site1 1e9 0] s =
        (.error .runtimeError, s ++ [m]) := run2 _ _ (h0 hb).1
    unfold Circuit.TN_evolution
    rw [raiseIf_false (by simp [circ_nqubits]), TNM.lift_ok_bind, circ_gate, List.foldlM_cons,
      if_pos (show (Op.gate (mkCnot 3 (.list [0, 1]))).supportTN = true from rfl)]
    exact TNM.bind_error e _

end QTN.Props
