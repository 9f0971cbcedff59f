import Verif.Lemmas.RoundGradLoop
import Verif.Props.RoundLayers
import Verif.Props.Cdo
import Verif.Props.ShiftDemo
import Mathlib.Analysis.Real.Pi.Bounds

/-!
# C106: gradients by the parameter-shift rule in rounded arithmetic

`cir_expectation` and `cal_params_grad` for circuits evaluated by their matrix.
-/

namespace QTN.Props

open QTN Spec Matrix Complex Finset Arith

variable {N : ℕ} {A : Arith}

theorem build_good (A : Arith) (l : List (Item N)) (hw : ∀ it ∈ l, it.WF) :
    ∃ ops, l.mapM A.buildItem = .ok ops ∧ List.Forall₂ (Good A) (l.map (Item.mapAngles A.fl)) ops := by
  obtain ⟨ops, -, -, h, -⟩ := items_round' A l hw
  refine ⟨ops, h, ?_⟩
  rw [List.forall₂_map_left_iff]
  have := mapM_mem h
  clear h
  induction this with
  | nil => exact .nil
  | cons h _ ih => exact .cons (.inl ⟨_, rfl, hw _ (by simp), h⟩) (ih fun it hit => hw it (by simp [hit]))

theorem fl_wf (A : Arith) {l : List (Item N)} (hw : ∀ it ∈ l, it.WF) : ∀ it ∈ l.map (Item.mapAngles A.fl), it.WF :=
  sameForm_wf (sameForm_fl A l) hw

theorem fl_unflagged (A : Arith) {l : List (Item N)} (h : ∃ it ∈ l, Unflagged it) :
    ∃ it ∈ l.map (Item.mapAngles A.fl), Unflagged it := by
  obtain ⟨it, hit, hu⟩ := h
  exact ⟨_, List.mem_map_of_mem hit, by rw [item_mapAngles]; exact unflagged_withParams hu _⟩

theorem fl_fixed (A : Arith) (l : List (Item N)) : ∀ it ∈ l.map (Item.mapAngles A.fl), Fixed A it.params := by
  intro it hit
  obtain ⟨it', -, rfl⟩ := List.mem_map.1 hit
  rw [item_mapAngles, params_withParams _ _ (by simp)]
  intro y hy
  obtain ⟨x, -, rfl⟩ := List.mem_map.1 hy
  exact A.fl_fl x

theorem allParams_fl (A : Arith) (l : List (Item N)) :
    allParams (l.map (Item.mapAngles A.fl)) = (allParams l).map A.fl := by
  induction l with
  | nil => rfl
  | cons it l ih =>
    have e : ∀ (it : Item N) l, allParams (it :: l) = it.params ++ allParams l := fun it l => by simp [allParams]
    rw [List.map_cons, e, e, ih, List.map_append, item_mapAngles, params_withParams _ _ (by simp)]

/-- C106: the expectation value of a circuit that is evaluated by its matrix, for the parameters stored and for the
parameters given. -/
theorem C106_expectation (A : Arith) (l : List (Item N)) (hw : ∀ it ∈ l, it.WF) (hu : ∃ it ∈ l, Unflagged it)
    (init M : Tensor ℂ) (v : QState N) (hi : IsRow init v) (hv : norm2 v = 1) (O : QOp N) (hM : Represents M O) (B : ℝ)
    (hB0 : 0 ≤ B) (hB : ∀ w : QState N, norm2 (O *ᵥ w) ≤ B * norm2 w) (tn : Circuit → Tensor ℂ → Tensor ℂ → Py ℝ) :
    ∃ ops e, l.mapM A.buildItem = .ok ops ∧ A.cirExpectation tn (circ N ops) init M = .ok e ∧
      |e - energy O v (l.map (Item.mapAngles A.fl))| ≤ expErr A.u N B (prodErr A.u N (itemBound A.u A.δ l)) ∧
      |e - energy O v l| ≤
        expErr A.u N B (prodErr A.u N (itemBound A.u A.δ l)) + B * (A.u * itemAngles l) := by
  obtain ⟨ops, h1, h2⟩ := build_good A l hw
  obtain ⟨e, h3, h4⟩ := expec_round (A := A) (c := circ N ops) (circ_nqubits N ops) (by rw [circ_gate]; exact h2)
    (fl_wf A hw) (fl_unflagged A hu) hi hv hM hB0 hB tn
  rw [itemBound_sameForm (sameForm_fl A l)] at h4
  refine ⟨ops, e, h1, h3, h4, (abs_sub_le _ (energy O v (l.map (Item.mapAngles A.fl))) _).trans (add_le_add h4 ?_)⟩
  rw [abs_sub_comm]
  refine (energy_diff hB hB0 (sameForm_fl A l) hw v).trans ?_
  rw [hv, one_pow, mul_one, allParams_fl]
  refine mul_le_mul_of_nonneg_left ?_ hB0
  unfold itemAngles
  induction allParams l with
  | nil => simp [paramDist]
  | cons x p ih =>
    have e1 : paramDist (x :: p) ((x :: p).map A.fl) = |x - A.fl x| + paramDist p (p.map A.fl) := by
      unfold paramDist
      rw [List.length_cons, Finset.sum_range_succ']
      simp [add_comm]
    rw [e1, List.map_cons, List.sum_cons, mul_add, abs_sub_comm]
    exact add_le_add (A.fl_err x) ih

/-- Z on the first of three qubits. -/
theorem z_example : ∃ M : Tensor ℂ, Represents M (onQubit (0 : Fin 3) Spec.Z) ∧
    ∀ w : QState 3, norm2 (onQubit (0 : Fin 3) Spec.Z *ᵥ w) ≤ 1 * norm2 w := by
  obtain ⟨M, -, hM⟩ := zObservable_round (A := binary 24 (by norm_num)) (0 : Fin 3)
  exact ⟨M, hM, Bnd.unitary (onQubit_unitary (IsU2.of_left (by rw [Z_conj, Z_sq])) 0)⟩

/-- A circuit with all kinds of parameters and an operation that keeps it from the tensor network path. -/
noncomputable def gradCircuit : List (Item 3) :=
  [.layer .yzy [0, 2] [0.1, 0.2, 0.3, 0.4, 0.5, 0.6], .ring2 [0, 1, 2], .gate (.rx 0.7 1), .gate (.u1 0.8 0),
    .gate (.u3 0.1 0.2 0.3 2), .gate (.rzz 0.4 0 1)]

theorem gradCircuit_wf : ∀ it ∈ gradCircuit, it.WF := by simp [gradCircuit, Item.WF, Instr.WF, LayerKind.axes]
theorem gradCircuit_unflagged : ∃ it ∈ gradCircuit, Unflagged it := ⟨.ring2 [0, 1, 2], by simp [gradCircuit], trivial⟩

/-- C106: the gradient.  Every entry but those of CU3 gates (C40) is within the bound of the partial derivative at the
stored parameters.  Afterwards the gates with a single parameter hold what they held before; the parameters of u3 and of
the layers have been added to and subtracted from three times, and the dictionary `cir_params` does not know. -/
theorem C106_gradient_partial (A : Arith) (l : List (Item N)) (hw : ∀ it ∈ l, it.WF) (hu : ∃ it ∈ l, Unflagged it)
    (init M : Tensor ℂ) (v : QState N) (hi : IsRow init v) (hv : norm2 v = 1) (O : QOp N) (hM : Represents M O) (B : ℝ)
    (hB0 : 0 ≤ B) (hB : ∀ w : QState N, norm2 (O *ᵥ w) ≤ B * norm2 w) (tn : Circuit → Tensor ℂ → Tensor ℂ → Py ℝ) :
    ∃ (ops : List Op) (g : List ℝ) (c' : Circuit), l.mapM A.buildItem = .ok ops ∧
      A.cal_params_grad tn (circ N ops) init M = .ok (g, c') ∧
      g.length = (allParams l).length ∧
      (∀ j < (allParams l).length, (∀ it, ownerOf (l.map (Item.mapAngles A.fl)) j = some it → ¬ IsCu3 it) →
        ∃ d, IsPartial O v (l.map (Item.mapAngles A.fl)) j d ∧
          |g.getD j 0 - d| ≤ gradErr A.u A.δ B (l.map (Item.mapAngles A.fl))) ∧
      c'.cir_params = (circ N ops).cir_params ∧
      ∀ (k : ℕ) (it : Item N), (l.map (Item.mapAngles A.fl))[k]? = some it → it.params ≠ [] →
        ∃ o : Op, c'.gate[k]? = some o ∧
          if it.single then ∃ x, it.params = [x] ∧ o.params = .scalar x
          else o.params = .vec (it.params.map (restored A.fl)) := by
  obtain ⟨ops, h1, h2⟩ := build_good A l hw
  have hw' := fl_wf A hw
  obtain ⟨g, ops', h3, h4, h5, h6⟩ := grad_run (A := A) h2 hw' (fl_fixed A l) (fl_unflagged A hu) hi hv hM hB0 hB tn
  have hlen := sameForm_length (sameForm_fl A l)
  refine ⟨ops, g, _, h1, h3, h5.trans hlen, fun j hj ho => ?_, rfl, fun k it hk hne => ?_⟩
  · exact ⟨_, shift_partial O v _ hw' j (by rw [hlen]; exact hj) (fun it hit => shiftOk_of (ho it hit)),
      h6 j (by rw [hlen]; exact hj)⟩
  · have hkl : k < (l.map (Item.mapAngles A.fl)).length := (List.getElem?_eq_some_iff.1 hk).1
    have hit : (l.map (Item.mapAngles A.fl))[k] = it := (List.getElem?_eq_some_iff.1 hk).2
    have hl4 := h4.length_eq
    rw [List.length_map] at hl4
    have hko : k < ops'.length := hl4 ▸ hkl
    refine ⟨ops'[k], List.getElem?_eq_getElem hko, ?_⟩
    have hgo := (List.forall₂_iff_get.1 h4).2 k (by rw [List.length_map]; exact hkl) hko
    simp only [List.get_eq_getElem, List.getElem_map] at hgo
    have hit' := hit
    rw [List.getElem_map] at hit'
    rw [hit'] at hgo
    have hp : (afterItem A it).params = it.after A.fl := params_withParams _ _ (after_length it)
    have hne' : (afterItem A it).params ≠ [] := by
      rw [hp]; intro h; exact hne (List.length_eq_zero_iff.1 (by rw [← after_length (A := A) it, h]; rfl))
    have hs : (afterItem A it).single = it.single := by
      unfold afterItem
      have := hp
      unfold afterItem at this
      have hal := after_length (A := A) it
      generalize it.after A.fl = p at this hal
      cases it with
      | gate ins =>
        simp only [Item.withParams, Item.single, Item.params] at this hal ⊢
        rw [this, hal]
      | _ => rfl
    have := (good_facts hgo).2.1 hne'
    rw [hs, hp] at this
    by_cases hsi : it.single = true
    · rw [if_pos hsi] at this ⊢
      unfold Item.after at this
      rwa [if_pos hsi] at this
    · rw [if_neg hsi] at this ⊢
      unfold Item.after at this
      rwa [if_neg hsi] at this

example (tn : Circuit → Tensor ℂ → Tensor ℂ → Py ℝ) : ∃ M, Represents M (onQubit (0 : Fin 3) Spec.Z) ∧
    ∃ ops e, gradCircuit.mapM (binary 24 (by norm_num)).buildItem = .ok ops ∧
      (binary 24 (by norm_num)).cirExpectation tn (circ 3 ops) (Cdo.psi 3) M = .ok e ∧
    ∃ ops g c', gradCircuit.mapM (binary 24 (by norm_num)).buildItem = .ok ops ∧
      (binary 24 (by norm_num)).cal_params_grad tn (circ 3 ops) (Cdo.psi 3) M = .ok (g, c') ∧ g.length = 12 := by
  obtain ⟨M, hM, hB⟩ := z_example
  obtain ⟨ops, e, h1, h2, -⟩ := C106_expectation (binary 24 (by norm_num)) gradCircuit gradCircuit_wf
    gradCircuit_unflagged _ M _ (psi_row 3) (ket0_norm 3) _ hM 1 zero_le_one hB tn
  obtain ⟨ops', g, c', h3, h4, h5, -⟩ := C106_gradient_partial (binary 24 (by norm_num)) gradCircuit gradCircuit_wf
    gradCircuit_unflagged _ M _ (psi_row 3) (ket0_norm 3) _ hM 1 zero_le_one hB tn
  exact ⟨M, hM, ops, e, h1, h2, ops', g, c', h3, h4, by rw [h5]; rfl⟩

/-- C106: how far a parameter is from its old value after it has been shifted to both sides and back. -/
theorem C106_restored (A : Arith) (x : ℝ) : |restored A.fl x - x| ≤ drift A.u x := restored_err A x

example := C106_restored (binary 24 (by norm_num)) 0.3

theorem roundEven_near {y : ℝ} {m : ℤ} (h : |y - m| < 1 / 2) : roundEven y = m := by
  have h1 := roundEven_err y
  have h2 : |((roundEven y - m : ℤ) : ℝ)| < 1 := by
    push_cast
    rw [show ((roundEven y : ℝ) - m) = (roundEven y - y) + (y - m) by ring]
    exact (abs_add_le _ _).trans_lt (by linarith)
  have h3 : |roundEven y - m| < 1 := by exact_mod_cast h2
  have := Int.abs_lt_one_iff.1 h3
  omega

theorem binFl_at {p : ℕ} {y : ℝ} {e : ℤ} (h1 : (2 : ℝ) ^ e ≤ y) (h2 : y < 2 ^ (e + 1)) :
    binFl p y = roundEven (y / 2 ^ (e - p + 1)) * (2 : ℝ) ^ (e - p + 1) := by
  have h0 : 0 < y := lt_of_lt_of_le (by positivity) h1
  have hl : Int.log 2 |y| = e := by
    rw [abs_of_pos h0]
    refine le_antisymm ?_ ?_
    · have := (Int.lt_zpow_iff_log_lt (b := 2) (by norm_num) h0 (x := e + 1)).1 (by exact_mod_cast h2)
      omega
    · exact (Int.zpow_le_iff_le_log (b := 2) (by norm_num) h0).1 (by exact_mod_cast h1)
  unfold binFl
  simp only [hl]
  rw [abs_of_pos h0, sign_pos h0]
  simp

/-- C106, false: that the parameters are restored.  In binary arithmetic with `p` digits (24 in single precision) every
parameter below `2^-p` has become 0. -/
theorem C106_small_lost (p : ℕ) (hp : 4 ≤ p) (x : ℝ) (hx : |x| < (2 : ℝ) ^ (-(p : ℤ))) : restored (binFl p) x = 0 := by
  have hp1 : 1 ≤ p := by omega
  have hpi := Real.pi_gt_d2
  have hpi' := Real.pi_lt_d2
  set q : ℝ := (2 : ℝ) ^ (0 - (p : ℤ) + 1) with hq
  have hq0 : 0 < q := by positivity
  have hq2 : (2 : ℝ) ^ (1 - (p : ℤ) + 1) = 2 * q := by
    rw [hq, ← zpow_one_add₀ (by norm_num)]; congr 1; ring
  have hqp : (2 : ℝ) ^ (-(p : ℤ)) = q / 2 := by
    rw [hq, zpow_add₀ (by norm_num), zpow_one]; simp
  have hqs : q ≤ 1 / 8 := by
    have : (2 : ℝ) ^ (0 - (p : ℤ) + 1) ≤ 2 ^ (-3 : ℤ) := zpow_le_zpow_right₀ (by norm_num) (by omega)
    refine this.trans ?_
    norm_num
  set m : ℤ := roundEven (Real.pi / 2 / q) with hm
  have c1 : binFl p (Real.pi / 2) = m * q := binFl_at (e := 0) (by norm_num; linarith) (by norm_num; linarith)
  have c2 : binFl p Real.pi = 2 * (m * q) := by
    rw [binFl_at (e := 1) (by norm_num; linarith) (by norm_num; linarith), hq2,
      show Real.pi / (2 * q) = Real.pi / 2 / q by rw [div_div]]
    ring
  have hmq : |m * q - Real.pi / 2| ≤ q / 2 := by
    have := roundEven_err (Real.pi / 2 / q)
    rw [← hm] at this
    have e : (m : ℝ) * q - Real.pi / 2 = (m - Real.pi / 2 / q) * q := by field_simp
    rw [e, abs_mul, abs_of_pos hq0]
    nlinarith
  have hfix : binFl p (m * q) = m * q := by rw [← c1, binFl_binFl hp1]
  rw [hqp] at hx
  have hx' := abs_lt.1 hx
  have hm' := abs_le.1 hmq
  have c3 : binFl p (x + m * q) = m * q := by
    rw [binFl_at (e := 0) (by norm_num; linarith) (by norm_num; linarith), ← hq]
    congr 2
    refine roundEven_near ?_
    rw [show (x + m * q) / q - m = x / q by field_simp; ring, abs_div, abs_of_pos hq0, div_lt_iff₀ hq0]
    linarith
  unfold restored
  rw [c1, c2, c3, show (m : ℝ) * q - 2 * (m * q) = -(m * q) by ring, binFl_neg, hfix,
    show -((m : ℝ) * q) + m * q = 0 by ring, binFl_zero]

example : restored (binFl 24) (2⁻¹ ^ 30) = 0 := C106_small_lost 24 (by norm_num) _ (by
  rw [abs_of_pos (by positivity)]; norm_num)

/-- C106, false: that computing the gradient leaves the circuit as it is.  In single precision, every layer of small
parameters, followed or preceded by anything, has lost them afterwards; the dictionary still has them. -/
theorem C106_changes_circuit (hp : 1 ≤ 24) (l : List (Item N)) (hw : ∀ it ∈ l, it.WF) (hu : ∃ it ∈ l, Unflagged it)
    (init M : Tensor ℂ) (v : QState N) (hi : IsRow init v) (hv : norm2 v = 1) (O : QOp N) (hM : Represents M O) (B : ℝ)
    (hB0 : 0 ≤ B) (hB : ∀ w : QState N, norm2 (O *ᵥ w) ≤ B * norm2 w) (tn : Circuit → Tensor ℂ → Tensor ℂ → Py ℝ)
    (k : ℕ) (kind : LayerKind) (ws : List (Fin N)) (q : List ℝ) (hk : l[k]? = some (.layer kind ws q)) (hq : q ≠ [])
    (hs : ∀ x ∈ q, |binFl 24 x| < 2 ^ (-(24 : ℤ))) :
    ∃ ops g c' o, l.mapM (binary 24 hp).buildItem = .ok ops ∧
      (binary 24 hp).cal_params_grad tn (circ N ops) init M = .ok (g, c') ∧
      (circ N ops).cir_params k = some (some (.vec (q.map (binFl 24)))) ∧
      c'.cir_params k = some (some (.vec (q.map (binFl 24)))) ∧
      c'.gate[k]? = some o ∧ o.params = .vec (List.replicate q.length 0) := by
  obtain ⟨ops, g, c', h1, h2, -, -, h3, h4⟩ := C106_gradient_partial (binary 24 hp) l hw hu init M v hi hv O hM B hB0 hB tn
  have hk' : (l.map (Item.mapAngles (binary 24 hp).fl))[k]? = some (.layer kind ws (q.map (binFl 24))) := by
    rw [List.getElem?_map, hk]; rfl
  have hne : (Item.layer kind ws (q.map (binFl 24))).params ≠ [] := by simpa [Item.params] using hq
  obtain ⟨o, h5, h6⟩ := h4 k _ hk' hne
  rw [if_neg (by simp [Item.single])] at h6
  have hrec : (circ N ops).cir_params k = some (some (.vec (q.map (binFl 24)))) := by
    obtain ⟨ops', h1', hg⟩ := build_good (binary 24 hp) l hw
    rw [h1] at h1'
    cases h1'
    have hkl : k < (l.map (Item.mapAngles (binary 24 hp).fl)).length := (List.getElem?_eq_some_iff.1 hk').1
    have hko : k < ops.length := hg.length_eq ▸ hkl
    have hgk := (List.forall₂_iff_get.1 hg).2 k hkl hko
    have e : (l.map (Item.mapAngles (binary 24 hp).fl))[k] = _ := (List.getElem?_eq_some_iff.1 hk').2
    simp only [List.get_eq_getElem] at hgk
    rw [e] at hgk
    have hf := good_facts hgk
    have hpar := hf.2.1 hne
    rw [if_neg (by simp [Item.single])] at hpar
    rw [circ_params, List.getElem?_eq_getElem hko, Option.map_some, if_pos, hpar]
    · rfl
    · rw [hf.1]
      exact fun h => hne (List.length_eq_zero_iff.1 h)
  refine ⟨ops, g, c', o, h1, h2, hrec, by rw [h3, hrec], h5, ?_⟩
  rw [h6]
  congr 1
  rw [List.eq_replicate_iff]
  refine ⟨by simp [Item.params], fun y hy => ?_⟩
  simp only [Item.params, List.map_map, List.mem_map, Function.comp] at hy
  obtain ⟨x, hx, rfl⟩ := hy
  exact C106_small_lost 24 (by norm_num) _ (hs x hx)

/-- A layer of parameters `2^-30` and a ring of CNOTs with step 2. -/
example (tn : Circuit → Tensor ℂ → Tensor ℂ → Py ℝ) : ∃ M : Tensor ℂ, ∃ ops g c' o,
    [Item.layer .yzy [0, 1, 2] (List.replicate 9 (2⁻¹ ^ 30)), .ring2 [(0 : Fin 3), 1, 2]].mapM
      (binary 24 (by norm_num)).buildItem = .ok ops ∧
    (binary 24 (by norm_num)).cal_params_grad tn (circ 3 ops) (Cdo.psi 3) M = .ok (g, c') ∧
    c'.gate[0]? = some o ∧ o.params = .vec (List.replicate 9 0) ∧
    c'.cir_params 0 = some (some (.vec (List.replicate 9 (2⁻¹ ^ 30)))) := by
  obtain ⟨M, hM, hB⟩ := z_example
  have e : binFl 24 (2⁻¹ ^ 30) = 2⁻¹ ^ 30 := by
    have := binFl_of (p := 24) (by norm_num) 1 (-30) (by norm_num)
    rw [show ((1 : ℤ) : ℝ) * 2 ^ (-30 : ℤ) = 2⁻¹ ^ 30 by norm_num] at this
    exact this
  obtain ⟨ops, g, c', o, h1, h2, -, h3, h4, h5⟩ := C106_changes_circuit (by norm_num)
    [.layer .yzy [0, 1, 2] (List.replicate 9 (2⁻¹ ^ 30)), .ring2 [(0 : Fin 3), 1, 2]]
    (by simp [Item.WF, LayerKind.axes]) ⟨.ring2 [0, 1, 2], by simp, trivial⟩ _ M _ (psi_row 3) (ket0_norm 3) _ hM 1
    zero_le_one hB tn 0 .yzy [0, 1, 2] (List.replicate 9 (2⁻¹ ^ 30)) rfl (by simp) (fun x hx => by
      rw [List.eq_of_mem_replicate hx, e, abs_of_pos (by positivity)]; norm_num)
  refine ⟨M, ops, g, c', o, h1, h2, h4, by rw [h5, List.length_replicate], ?_⟩
  rw [h3, List.map_replicate, e]

/-! ## Single precision -/

theorem addErr_le {u y d e U Y D E : ℝ} (h0 : 0 ≤ u) (hu : u ≤ U) (hy : |y| ≤ Y) (hd : |d| ≤ D) (he0 : 0 ≤ e)
    (he : e ≤ E) : addErr u y d e ≤ (1 + U) * (E + U * D) + U * Y := by
  unfold addErr
  have h1 : u * |d| ≤ U * D := mul_le_mul hu hd (abs_nonneg _) (h0.trans hu)
  have h2 : u * |y| ≤ U * Y := mul_le_mul hu hy (abs_nonneg _) (h0.trans hu)
  have h3 : 0 ≤ u * |d| := mul_nonneg h0 (abs_nonneg _)
  exact add_le_add (mul_le_mul (by linarith) (by linarith) (by linarith) (by linarith)) h2

theorem drift_float {u x : ℝ} (h0 : 0 ≤ u) (hu : u ≤ 2⁻¹ ^ 24) (hx : |x| ≤ 4) : drift u x ≤ 1.3e-6 := by
  have hpi := Real.pi_gt_d2
  have hpi' := Real.pi_lt_d2
  have hx' := abs_le.1 hx
  have p1 : |Real.pi / 2| ≤ 1.6 := abs_le.2 ⟨by linarith, by linarith⟩
  have p2 : |Real.pi| ≤ 3.2 := abs_le.2 ⟨by linarith, by linarith⟩
  have p3 : |x + Real.pi / 2| ≤ 5.6 := abs_le.2 ⟨by linarith, by linarith⟩
  have p4 : |x - Real.pi / 2| ≤ 5.6 := abs_le.2 ⟨by linarith, by linarith⟩
  have pos : ∀ y d e : ℝ, 0 ≤ e → 0 ≤ addErr u y d e := fun y d e he => he.trans (addErr_ge h0 he)
  unfold drift
  refine (addErr_le h0 hu hx p1 (pos _ _ _ (pos _ _ _ le_rfl)) (addErr_le h0 hu p4 p2 (pos _ _ _ le_rfl)
    (addErr_le h0 hu p3 p1 le_rfl le_rfl))).trans ?_
  norm_num

/-- C106, single precision: on up to 4 qubits, for up to 20 gates and layers other than `BasicEntangleLayer` with up to
100 parameters in `[-4, 4]`, every entry of the gradient is within `0.0035 B` of the partial derivative. -/
theorem C106_float32 (A : Arith) (hu : A.u ≤ 2⁻¹ ^ 24) (hδ : A.δ ≤ 2⁻¹ ^ 23) (hN : N ≤ 4) (l : List (Item N))
    (hw : ∀ it ∈ l, it.WF) (hb : ∀ ws p reps, Item.basic ws p reps ∉ l) (hl : l.length ≤ 20)
    (hp : (allParams l).length ≤ 100) (h4 : ∀ θ ∈ allParams l, |θ| ≤ 4) (B : ℝ) (hB0 : 0 ≤ B) :
    gradErr A.u A.δ B l ≤ 0.0035 * B := by
  have r : 1 ≤ (l.map (fun it => 1 + it.cost A.u A.δ)).prod ∧
      (l.map (fun it => 1 + it.cost A.u A.δ)).prod ≤ (1 + 2e-5) ^ l.length := by
    clear hl hp h4
    induction l with
    | nil => simp
    | cons it l ih =>
      obtain ⟨i1, i2⟩ := ih (fun x hx => hw x (by simp [hx])) (fun ws p reps h => hb ws p reps (by simp [h]))
      obtain ⟨c0, c1⟩ := C105_cost A.u A.δ A.u_nonneg A.δ_nonneg hu hδ hN it (hw it (by simp))
      have c2 : it.cost A.u A.δ ≤ 2e-5 := by
        cases it with
        | basic ws p reps => exact absurd (by simp) (hb ws p reps)
        | _ => exact c1
      rw [List.map_cons, List.prod_cons, List.length_cons, pow_succ, mul_comm]
      exact ⟨one_le_mul_of_one_le_of_one_le i1 (by linarith),
        mul_le_mul i2 (by linarith) (by linarith) (by positivity)⟩
  have r1 : 0 ≤ itemBound A.u A.δ l := by unfold itemBound; linarith [r.1]
  have r2 : itemBound A.u A.δ l ≤ 0.000401 := by
    have h5 : ((1 : ℝ) + 2e-5) ^ l.length ≤ (1 + 2e-5) ^ 20 := pow_le_pow_right₀ (by norm_num) hl
    have h6 : ((1 : ℝ) + 2e-5) ^ 20 ≤ 1.000401 := by norm_num
    unfold itemBound
    exact (sub_le_sub_right (r.2.trans (h5.trans h6)) 1).trans (by norm_num)
  have hγ0 := sumErr_nonneg A.u_nonneg (2 ^ N)
  have hγ : sumErr A.u (2 ^ N) ≤ 2e-6 := by
    refine (sumErr_mono A.u_nonneg (Nat.pow_le_pow_right (by norm_num) hN)).trans ?_
    have hs2 : Real.sqrt 2 ≤ 1.4143 := by rw [Real.sqrt_le_left (by norm_num)]; norm_num
    have hk : (1 + A.u) ^ 2 - 1 ≤ 2.0001 * 2⁻¹ ^ 24 := by
      have : (1 + A.u) ^ 2 ≤ (1 + 2⁻¹ ^ 24) ^ 2 := pow_le_pow_left₀ (by linarith [A.u_nonneg]) (by linarith) 2
      refine (sub_le_sub_right this 1).trans ?_
      norm_num
    have hk0 : 0 ≤ (1 + A.u) ^ 2 - 1 := by nlinarith [A.u_nonneg]
    have hμ0 : 0 ≤ mulErr A.u := mulErr_nonneg A.u_nonneg
    have hμ : mulErr A.u ≤ 2.829 * 2⁻¹ ^ 24 := by
      unfold mulErr
      refine (mul_le_mul hs2 hk hk0 (by norm_num)).trans ?_
      norm_num
    unfold sumErr
    have h1 : (1 + A.u) ^ (2 ^ 4) ≤ (1 + 2⁻¹ ^ 24) ^ (2 ^ 4) :=
      pow_le_pow_left₀ (by linarith [A.u_nonneg]) (by linarith) _
    have : (1 + A.u) ^ (2 ^ 4) * (1 + mulErr A.u) ≤ (1 + 2⁻¹ ^ 24) ^ (2 ^ 4) * (1 + 2.829 * 2⁻¹ ^ 24) :=
      mul_le_mul h1 (by linarith) (by linarith) (by positivity)
    refine (sub_le_sub_right this 1).trans ?_
    norm_num
  have hs0 := Real.sqrt_nonneg (2 ^ N : ℝ)
  have hs : Real.sqrt (2 ^ N) ≤ 4 := by
    rw [Real.sqrt_le_left (by norm_num)]
    exact (pow_le_pow_right₀ (by norm_num) hN).trans (by norm_num)
  set γ := sumErr A.u (2 ^ N) with hγe
  set s := Real.sqrt (2 ^ N : ℝ) with hse
  have hD0 := prodErr_nonneg A.u_nonneg r1 N
  have hD : prodErr A.u N (itemBound A.u A.δ l) ≤ 0.001613 := by
    unfold prodErr
    rw [← hγe, ← hse]
    have e1 : γ * (1 + itemBound A.u A.δ l) ≤ 2e-6 * (1 + 0.000401) :=
      mul_le_mul hγ (by linarith) (by linarith) (by norm_num)
    have e0 : 0 ≤ γ * (1 + itemBound A.u A.δ l) := mul_nonneg hγ0 (by linarith)
    refine (mul_le_mul hs (add_le_add r2 e1) (by linarith) (by norm_num)).trans ?_
    norm_num
  set D := prodErr A.u N (itemBound A.u A.δ l) with hDe
  have hE : expErr A.u N B D ≤ B * 0.003246 := by
    unfold expErr
    rw [← hγe, ← hse]
    refine mul_le_mul_of_nonneg_left ?_ hB0
    have e1 : D * (2 + D) ≤ 0.001613 * (2 + 0.001613) := mul_le_mul hD (by linarith) (by linarith) (by norm_num)
    have e2 : γ * (2 + γ) ≤ 2e-6 * (2 + 2e-6) := mul_le_mul hγ (by linarith) (by linarith) (by norm_num)
    have e3 : s * (γ * (2 + γ)) ≤ 4 * (2e-6 * (2 + 2e-6)) := mul_le_mul hs e2 (by positivity) (by norm_num)
    have e4 : s * (γ * (2 + γ)) * (1 + D) ^ 2 ≤ 4 * (2e-6 * (2 + 2e-6)) * (1 + 0.001613) ^ 2 :=
      mul_le_mul e3 (pow_le_pow_left₀ (by linarith) (by linarith) 2) (by positivity) (by norm_num)
    refine (add_le_add e1 e4).trans ?_
    norm_num
  have hdr : driftSum A.u l ≤ 1.3e-4 := by
    unfold driftSum
    have : ((allParams l).map (drift A.u)).sum ≤ ((allParams l).map (drift A.u)).length • (1.3e-6 : ℝ) :=
      List.sum_le_card_nsmul _ _ fun y hy => by
        obtain ⟨x, hx, rfl⟩ := List.mem_map.1 hy
        exact drift_float A.u_nonneg hu (h4 x hx)
    rw [List.length_map, nsmul_eq_mul] at this
    have hp' : ((allParams l).length : ℝ) ≤ 100 := by exact_mod_cast hp
    linarith
  have hS : shiftErr A.u A.δ B l ≤ B * 0.003376 := by
    unfold shiftErr
    have := mul_le_mul_of_nonneg_left hdr hB0
    linarith
  unfold gradErr
  have h9 : A.u * (B + shiftErr A.u A.δ B l) ≤ 2⁻¹ ^ 24 * (B * 1.1) := by
    have k1 : A.u * (B + shiftErr A.u A.δ B l) ≤ A.u * (B * 1.1) :=
      mul_le_mul_of_nonneg_left (by linarith) A.u_nonneg
    exact k1.trans (mul_le_mul_of_nonneg_right hu (by positivity))
  have h10 : (2⁻¹ : ℝ) ^ 24 * (B * 1.1) ≤ B * 1e-6 := by
    have : (2⁻¹ : ℝ) ^ 24 * 1.1 ≤ 1e-6 := by norm_num
    nlinarith
  linarith

example := C106_float32 (binary 24 (by norm_num)) (show (2 : ℝ) ^ (-((24 : ℕ) : ℤ)) ≤ _ by norm_num)
  (show (2 : ℝ) ^ (-((24 : ℕ) : ℤ)) ≤ _ by norm_num) (by norm_num) gradCircuit gradCircuit_wf (by simp [gradCircuit])
  (by simp [gradCircuit]) (by simp [gradCircuit, allParams, Item.params, Instr.params])
  (by simp [gradCircuit, allParams, Item.params, Instr.params]; norm_num [abs_of_pos]) 1 zero_le_one

end QTN.Props
