import Verif.Lemmas.RoundLayer
import Verif.Props.RoundMeasure

/-!
# C105: circuits with layers in rounded arithmetic

The constructors of the layers, `U_expand` of every layer, `U()`, the product with the state, `measure`.
-/

namespace QTN.Props

open QTN Spec Matrix Complex Finset Arith

variable {N : ℕ} {A : Arith}

/-- C105: the computed matrix of a circuit of gates and layers.  Every column is within the bound of the column of the
operator, for the parameters stored and for the parameters given. -/
theorem C105_U (A : Arith) (l : List (Item N)) (hw : ∀ it ∈ l, it.WF) :
    ∃ ops U W, l.mapM A.buildItem = .ok ops ∧ A.itemsU N ops = .ok U ∧ Represents U W ∧
      (∀ b, dist2 (column W b) (column (circuitOp (l.map (Item.mapAngles A.fl))) b) ≤ itemBound A.u A.δ l) ∧
      ∀ b, dist2 (column W b) (column (circuitOp l) b) ≤ itemBound A.u A.δ l + A.u * itemAngles l := by
  obtain ⟨ops, U, W, h1, h2, h3, -, h5, h6⟩ := items_round' A l hw
  exact ⟨ops, U, W, h1, h2, h3, h5, h6⟩

/-- A Hadamard layer, a YZY layer, a ring of CNOTs and a rotation on three qubits in single precision. -/
example := C105_U (binary 24 (by norm_num)) (N := 3)
  [.hlayer [0, 1, 2], .layer .yzy [0, 2] [0.1, 0.2, 0.3, 0.4, 0.5, 0.6], .ring [0, 1, 2], .gate (.rx 0.3 1),
    .basic [0, 1] (List.replicate 12 0.7) 2] (by simp [Item.WF, Instr.WF, LayerKind.axes])

/-- C105: circuits of CNOT rings and of the exact gates of C103: the computed matrix is the matrix of the operator in
every arithmetic, however the rings are multiplied together. -/
theorem C105_exact (A : Arith) (l : List (Item N)) (hw : ∀ it ∈ l, it.WF) (hx : ∀ it ∈ l, it.exact = true) :
    ∃ ops, l.mapM A.buildItem = .ok ops ∧ Computes (A.itemsU N ops) (circuitOp l) := by
  obtain ⟨ops, U, W, h1, h2, h3, h4, -⟩ := C105_U A l hw
  have e1 : l.map (Item.mapAngles A.fl) = l := by
    conv_rhs => rw [← List.map_id l]
    refine List.map_congr_left fun it hi => ?_
    have := hx it hi
    cases it <;> simp only [Item.mapAngles, id]
    case gate ins => rw [mapAngles_of ins (by rw [exact_angles (by simpa [Item.exact] using this)]; simp)]
    all_goals simp [Item.exact] at this
  have e2 : itemBound A.u A.δ l = 0 := by
    unfold itemBound
    rw [List.prod_eq_one, sub_self]
    intro x hx'
    obtain ⟨it, hi, rfl⟩ := List.mem_map.1 hx'
    have := hx it hi
    cases it <;> simp [Item.exact] at this <;> simp [Item.cost, Instr.cost, this]
  rw [e1, e2] at h4
  refine ⟨ops, h1, U, h2, h3.congr ?_⟩
  ext a b
  have h5 := (Real.sqrt_eq_zero (Finset.sum_nonneg fun _ _ => by positivity)).1 (le_antisymm (h4 b) (Real.sqrt_nonneg _))
  have h6 := (Finset.sum_eq_zero_iff_of_nonneg fun _ _ => by positivity).1 h5 a (mem_univ a)
  exact sub_eq_zero.1 (norm_eq_zero.1 (pow_eq_zero_iff (two_ne_zero) |>.1 h6))

example (A : Arith) := C105_exact A (N := 4) [.gate (.x 0), .ring [0, 1, 2, 3], .ring2 [1, 2, 3], .ringDag [3, 1]]
  (by simp [Item.WF, Instr.WF]) (by simp [Item.exact, Instr.exact])

/-- C105: a layer counts once, whatever the circuit before it. -/
theorem C105_bound_append (u δ : ℝ) (l l' : List (Item N)) :
    1 + itemBound u δ (l ++ l') = (1 + itemBound u δ l) * (1 + itemBound u δ l') ∧
      itemAngles (l ++ l') = itemAngles l + itemAngles l' := by
  constructor
  · unfold itemBound; rw [List.map_append, List.prod_append]; ring
  · unfold itemAngles allParams; rw [List.flatMap_append, List.map_append, List.sum_append]

example := C105_bound_append (N := 2) (2⁻¹ ^ 24) (2⁻¹ ^ 23) [.hlayer [0, 1]] [.ring [0, 1], .gate (.rx 0.3 1)]

/-- C105: for a circuit of gates only, the bound is the one of C103. -/
theorem C105_gates (u δ : ℝ) (l : List (Instr N)) :
    itemBound u δ (l.map Item.gate) = roundBound u δ l ∧ itemAngles (l.map Item.gate) = angleSum l := by
  constructor
  · unfold itemBound roundBound; rw [List.map_map]; rfl
  · unfold itemAngles angleSum allParams
    induction l with
    | nil => rfl
    | cons ins l ih =>
      rw [List.map_cons, List.flatMap_cons, List.map_append, List.sum_append, ih]
      cases ins <;> simp [Item.params, Instr.params, Instr.angles]

example := C105_gates (N := 2) (2⁻¹ ^ 24) (2⁻¹ ^ 23) [.h 0, .rx 0.3 1]

/-- C105: `measure` after `cir.U() @ state` for a basis state. -/
theorem C105_measure (A : Arith) (hN : 0 < N) (l : List (Item N)) (hw : ∀ it ∈ l, it.WF) (b : Bits N)
    (state : Tensor ℂ) (hs : IsCol state (basisVec b)) :
    ∃ ops sv, ∃ f : Fin N → ℝ, l.mapM A.buildItem = .ok ops ∧ A.runItems N ops state = .ok sv ∧
      A.measure N sv .none = .ok (List.ofFn f) ∧
      (∀ i : Fin N, (i : ℕ) ≠ 0 → A.measure N sv (.int (wire i)) = .ok [f i]) ∧
      (∀ ws : List (Fin N), ws ≠ [] → A.measure N sv (.list (wires ws)) = .ok (ws.map f)) ∧
      (∀ i, |f i - biasZ (circuitOp (l.map (Item.mapAngles A.fl)) *ᵥ basisVec b) i| ≤
        measErr A.u N (itemBound A.u A.δ l)) ∧
      ∀ i, |f i - biasZ (circuitOp l *ᵥ basisVec b) i| ≤
        measErr A.u N (itemBound A.u A.δ l + A.u * itemAngles l) := by
  obtain ⟨ops, U, W, h1, h2, h3, h4, h5, h6⟩ := items_round' A l hw
  obtain ⟨sv, h7, h8⟩ := run_basis h3 h4 hs
  obtain ⟨f, k1, k2, k3, k4⟩ := measure_round hN h8 (fun a => h4 a b)
  refine ⟨ops, sv, f, h1, ?_, k1, k2, k3, fun i => ?_, fun i => ?_⟩
  · unfold runItems
    rw [h2, Py.ok_bind, h7]
  · have hu := circuitOp_unitary (l.map (Item.mapAngles A.fl)) (fun it h => by
      obtain ⟨i, hi, rfl⟩ := List.mem_map.1 h
      exact item_mapAngles_WF _ i (hw i hi))
    rw [mulVec_basis]
    exact measErr_of (norm2_col hu b) (h5 b) (k4 i)
  · rw [mulVec_basis]
    exact measErr_of (norm2_col (circuitOp_unitary l hw) b) (h6 b) (k4 i)

example (A : Arith) := C105_measure A (N := 2) (by norm_num)
  [.hlayer [0, 1], .layer .yzy [0, 1] [0.1, 0.2, 0.3, 0.4, 0.5, 0.6], .ring [0, 1]]
  (by simp [Item.WF, LayerKind.axes]) 0 _ isCol_two

/-- C105: the same for an arbitrary normalised initial state. -/
theorem C105_any_state (A : Arith) (hN : 0 < N) (l : List (Item N)) (hw : ∀ it ∈ l, it.WF) (v : QState N)
    (hv : norm2 v = 1) (state : Tensor ℂ) (hs : IsCol state v) :
    ∃ ops sv w, ∃ f : Fin N → ℝ, l.mapM A.buildItem = .ok ops ∧ A.runItems N ops state = .ok sv ∧ IsCol sv w ∧
      dist2 w (circuitOp l *ᵥ v) ≤ prodErr A.u N (itemBound A.u A.δ l + A.u * itemAngles l) ∧
      A.measure N sv .none = .ok (List.ofFn f) ∧
      (∀ ws : List (Fin N), ws ≠ [] → A.measure N sv (.list (wires ws)) = .ok (ws.map f)) ∧
      ∀ i, |f i - biasZ (circuitOp l *ᵥ v) i| ≤
        measErr A.u N (prodErr A.u N (itemBound A.u A.δ l + A.u * itemAngles l)) := by
  obtain ⟨ops, U, W, h1, h2, h3, h4, h5, h6⟩ := items_round' A l hw
  have hu := circuitOp_unitary l hw
  obtain ⟨sv, w, h7, h8, h9, h10⟩ := matmul_col_err (A := A) h3 hs hu h6
  rw [hv, mul_one] at h10
  obtain ⟨f, k1, -, k3, k4⟩ := measure_round hN h8 h9
  refine ⟨ops, sv, w, f, h1, ?_, h8, h10, k1, k3, fun i => ?_⟩
  · unfold runItems
    rw [h2, Py.ok_bind, h7]
  · refine measErr_of ?_ h10 (k4 i)
    rw [norm2_unitary hu, hv]

/-- A superposition of one qubit with the amplitudes 0.6 and 0.8. -/
example (A : Arith) := C105_any_state A (N := 1) (by norm_num) [.layer .xz [0] [0.3, 0.4], .hlayer [0]]
  (by simp [Item.WF, LayerKind.axes])
  (fun a => if a 0 = 0 then 0.6 else 0.8) (by
    have e : norm2 (fun a : Bits 1 => if a 0 = 0 then (0.6 : ℂ) else 0.8) ^ 2 = 1 := by
      rw [norm2_sq, ← (Equiv.funUnique (Fin 1) (Fin 2)).symm.sum_comp, Fin.sum_univ_two]
      norm_num
    nlinarith [norm2_nonneg (fun a : Bits 1 => if a 0 = 0 then (0.6 : ℂ) else 0.8)])
  (Tensor.ofRows [[0.6], [0.8]]) ⟨rfl, fun a => by
    obtain ⟨x, rfl⟩ : ∃ x, a = ![x] := ⟨a 0, by funext i; fin_cases i; rfl⟩
    fin_cases x <;> simp [enc, Tensor.ofRows, Tensor.ofFn]⟩

/-- C105, single precision: on up to 4 qubits a layer costs at most `2e-5`, and a `BasicEntangleLayer` with up to 10
repetitions at most `9e-4`. -/
theorem C105_cost (u δ : ℝ) (hu0 : 0 ≤ u) (hδ0 : 0 ≤ δ) (hu : u ≤ 2⁻¹ ^ 24) (hδ : δ ≤ 2⁻¹ ^ 23) (hN : N ≤ 4)
    (it : Item N) (hw : it.WF) :
    0 ≤ it.cost u δ ∧ (match it with
      | .basic _ _ reps => reps ≤ 10 → it.cost u δ ≤ 9e-4
      | _ => it.cost u δ ≤ 2e-5) := by
  have hs : Real.sqrt 2 ≤ 1.4143 := by rw [Real.sqrt_le_left (by norm_num)]; norm_num
  have hs1 : 1 ≤ Real.sqrt 2 := by rw [Real.one_le_sqrt]; norm_num
  have hk : (1 + u) ^ 2 - 1 ≤ 2.0001 * 2⁻¹ ^ 24 := by
    have : (1 + u) ^ 2 ≤ (1 + 2⁻¹ ^ 24) ^ 2 := pow_le_pow_left₀ (by linarith) (by linarith) 2
    refine (sub_le_sub_right this 1).trans ?_
    norm_num
  have hk0 : 0 ≤ (1 + u) ^ 2 - 1 := by nlinarith
  have hμ0 : 0 ≤ mulErr u := mulErr_nonneg hu0
  have hμ : mulErr u ≤ 2.829 * 2⁻¹ ^ 24 := by
    unfold mulErr
    refine (mul_le_mul hs hk hk0 (by norm_num)).trans ?_
    norm_num
  have hγ0 : ∀ r, 0 ≤ sumErr u r := sumErr_nonneg hu0
  have hγ : sumErr u 2 ≤ 4.8295 * 2⁻¹ ^ 24 := by
    unfold sumErr
    have : (1 + u) ^ 2 * (1 + mulErr u) ≤ (1 + 2.0001 * 2⁻¹ ^ 24) * (1 + 2.829 * 2⁻¹ ^ 24) :=
      mul_le_mul (by linarith) (by linarith) (by linarith) (by norm_num)
    refine (sub_le_sub_right this 1).trans ?_
    norm_num
  have hγ16 : ∀ k ≤ 4, sumErr u (2 ^ k) ≤ 18.9 * 2⁻¹ ^ 24 := fun k hk4 => by
    refine (sumErr_mono hu0 (Nat.pow_le_pow_right (by norm_num) hk4)).trans ?_
    unfold sumErr
    have h1 : (1 + u) ^ (2 ^ 4) ≤ (1 + 2⁻¹ ^ 24) ^ (2 ^ 4) := pow_le_pow_left₀ (by linarith) (by linarith) _
    have : (1 + u) ^ (2 ^ 4) * (1 + mulErr u) ≤ (1 + 2⁻¹ ^ 24) ^ (2 ^ 4) * (1 + 2.829 * 2⁻¹ ^ 24) :=
      mul_le_mul h1 (by linarith) (by linarith) (by positivity)
    refine (sub_le_sub_right this 1).trans ?_
    norm_num
  have hε : ∀ m ≤ 3, 0 ≤ rotsEps u δ m ∧ rotsEps u δ m ≤ 2.5e-6 := fun m hm => by
    have b1 : (1 + 3 * δ) ^ m ≤ (1 + 3 * 2⁻¹ ^ 23) ^ 3 :=
      (pow_le_pow_right₀ (by linarith) hm).trans (pow_le_pow_left₀ (by linarith) (by linarith) 3)
    have b2 : (1 + 2 * sumErr u 2) ^ (m - 1) ≤ (1 + 2 * (4.8295 * 2⁻¹ ^ 24)) ^ 2 :=
      (pow_le_pow_right₀ (by linarith [hγ0 2]) (by omega)).trans (pow_le_pow_left₀ (by linarith [hγ0 2]) (by linarith) 2)
    have c1 : 1 ≤ (1 + 3 * δ) ^ m := one_le_pow₀ (by linarith)
    have c2 : 1 ≤ (1 + 2 * sumErr u 2) ^ (m - 1) := one_le_pow₀ (by linarith [hγ0 2])
    have b3 := mul_le_mul b1 b2 (by linarith) (by positivity)
    have c3 := one_le_mul_of_one_le_of_one_le c1 c2
    unfold rotsEps
    refine ⟨by linarith, (sub_le_sub_right b3 1).trans ?_⟩
    norm_num
  have hL : ∀ k ≤ 4, ∀ ε, 0 ≤ ε → ε ≤ 2.5e-6 → 0 ≤ layerCost u k ε ∧ layerCost u k ε ≤ 2e-5 := fun k hk4 ε e0 e1 => by
    have c1 : 1 ≤ (1 + ε) ^ k := one_le_pow₀ (by linarith)
    have c2 : 1 ≤ (1 + mulErr u) ^ k := one_le_pow₀ (by linarith)
    have c3 : 0 ≤ (Real.sqrt 2 + ε) ^ k := by positivity
    have b1 : (1 + ε) ^ k ≤ (1 + 2.5e-6) ^ 4 :=
      (pow_le_pow_right₀ (by linarith) hk4).trans (pow_le_pow_left₀ (by linarith) (by linarith) 4)
    have b2 : (1 + mulErr u) ^ k ≤ (1 + 2.829 * 2⁻¹ ^ 24) ^ 4 :=
      (pow_le_pow_right₀ (by linarith) hk4).trans (pow_le_pow_left₀ (by linarith) (by linarith) 4)
    have b3 : (Real.sqrt 2 + ε) ^ k ≤ (1.4143 + 2.5e-6) ^ 4 :=
      (pow_le_pow_right₀ (by linarith) hk4).trans (pow_le_pow_left₀ (by linarith) (by linarith) 4)
    have d1 := mul_le_mul (sub_le_sub_right b2 1) b3 c3 (by norm_num)
    have d2 := mul_le_mul b2 b3 c3 (by norm_num)
    have d3 := mul_le_mul (hγ16 k hk4) d2 (by positivity) (by norm_num)
    have hγk := hγ0 (2 ^ k)
    unfold layerCost
    constructor
    · have f1 : 0 ≤ (1 + ε) ^ k - 1 := by linarith
      have f2 : 0 ≤ (1 + mulErr u) ^ k - 1 := by linarith
      positivity
    · refine (add_le_add (add_le_add (sub_le_sub_right b1 1) d1) d3).trans ?_
      norm_num
  have len : ∀ ws : List (Fin N), ws.Nodup → ws.length ≤ 4 := fun ws h => (nodup_length_le h).trans hN
  have h2u : 0 ≤ 2 * u ∧ 2 * u ≤ 2.5e-6 := ⟨by linarith, by norm_num at hu ⊢; linarith⟩
  cases it with
  | gate ins =>
    obtain ⟨c0, c1⟩ := C103_cost u δ hu0 hδ0 hu hδ ins
    exact ⟨c0, c1.trans (by norm_num)⟩
  | layer k ws p =>
    have : k.axes.length ≤ 3 := by cases k <;> simp [LayerKind.axes]
    exact hL _ (len ws hw.2.1) _ (hε _ this).1 (hε _ this).2
  | hlayer ws => exact hL _ (len ws hw.2) _ h2u.1 h2u.2
  | ring ws => exact ⟨le_rfl, show (0 : ℝ) ≤ 2e-5 by norm_num⟩
  | ringDag ws => exact ⟨le_rfl, show (0 : ℝ) ≤ 2e-5 by norm_num⟩
  | ring2 ws => exact ⟨le_rfl, show (0 : ℝ) ≤ 2e-5 by norm_num⟩
  | basic ws p reps =>
    obtain ⟨l0, l1⟩ := hL _ (len ws hw.1) _ (hε 3 le_rfl).1 (hε 3 le_rfl).2
    simp only [Item.cost]
    set L := layerCost u ws.length (rotsEps u δ 3)
    have c1 : 1 ≤ (1 + L) ^ reps := one_le_pow₀ (by linarith)
    have hγN := hγ0 (2 ^ N)
    have hd : 0 ≤ (1 + L) ^ reps - 1 := by linarith
    refine ⟨?_, fun hr => ?_⟩
    · unfold prodErr
      positivity
    · have b1 : (1 + L) ^ reps ≤ (1 + 2e-5) ^ 10 :=
        (pow_le_pow_right₀ (by linarith) hr).trans (pow_le_pow_left₀ (by linarith) (by linarith) 10)
      have b2 : (1 + L) ^ reps - 1 ≤ 2.1e-4 := (sub_le_sub_right b1 1).trans (by norm_num)
      have s4 : Real.sqrt (2 ^ N) ≤ 4 := by
        rw [Real.sqrt_le_left (by norm_num)]
        exact (pow_le_pow_right₀ (by norm_num) hN).trans (by norm_num)
      unfold prodErr
      generalize (1 + L) ^ reps - 1 = d at *
      have d1 := mul_le_mul (hγ16 N hN) (add_le_add_right b2 1) (by linarith) (by norm_num)
      have s0 := Real.sqrt_nonneg (2 ^ N)
      have d2 := hγ16 N hN
      nlinarith

example : (Item.layer .yzy [0, 1] [0.1, 0.2, 0.3, 0.4, 0.5, 0.6] : Item 2).cost (2⁻¹ ^ 24) (2⁻¹ ^ 23) ≤ 2e-5 :=
  (C105_cost _ _ (by positivity) (by positivity) le_rfl le_rfl (by norm_num) (.layer .yzy [0, 1] [0.1, 0.2, 0.3, 0.4, 0.5, 0.6])
    (by simp [Item.WF, LayerKind.axes])).2

/-- C105, single precision: with up to 4 qubits and 50 gates and layers (`BasicEntangleLayer` aside) every measured
value is within `0.0021` of the value for the parameters stored. -/
theorem C105_float32 (A : Arith) (hu : A.u ≤ 2⁻¹ ^ 24) (hδ : A.δ ≤ 2⁻¹ ^ 23) (hN : 0 < N) (hN' : N ≤ 4)
    (l : List (Item N)) (hw : ∀ it ∈ l, it.WF) (hb : ∀ ws p reps, Item.basic ws p reps ∉ l) (hl : l.length ≤ 50)
    (b : Bits N) (state : Tensor ℂ) (hs : IsCol state (basisVec b)) :
    ∃ ops sv, ∃ f : Fin N → ℝ, l.mapM A.buildItem = .ok ops ∧ A.runItems N ops state = .ok sv ∧
      A.measure N sv .none = .ok (List.ofFn f) ∧
      ∀ i, |f i - biasZ (circuitOp (l.map (Item.mapAngles A.fl)) *ᵥ basisVec b) i| ≤ 0.0021 := by
  obtain ⟨ops, sv, f, h1, h2, h3, -, -, h4, -⟩ := C105_measure A hN l hw b state hs
  refine ⟨ops, sv, f, h1, h2, h3, fun i => (h4 i).trans ?_⟩
  have r : 1 ≤ (l.map (fun it => 1 + it.cost A.u A.δ)).prod ∧
      (l.map (fun it => 1 + it.cost A.u A.δ)).prod ≤ (1 + 2e-5) ^ l.length := by
    clear h1 h4 hl
    induction l with
    | nil => simp
    | cons it l ih =>
      obtain ⟨i1, i2⟩ := ih (fun x hx => hw x (by simp [hx])) (fun ws p reps h => hb ws p reps (by simp [h]))
      obtain ⟨c0, c1⟩ := C105_cost A.u A.δ A.u_nonneg A.δ_nonneg hu hδ hN' it (hw it (by simp))
      have c2 : it.cost A.u A.δ ≤ 2e-5 := by
        cases it with
        | basic ws p reps => exact absurd (by simp) (hb ws p reps)
        | _ => exact c1
      rw [List.map_cons, List.prod_cons, List.length_cons, pow_succ, mul_comm]
      exact ⟨one_le_mul_of_one_le_of_one_le i1 (by linarith),
        mul_le_mul i2 (by linarith) (by linarith) (by positivity)⟩
  have r1 : 0 ≤ itemBound A.u A.δ l := by unfold itemBound; linarith [r.1]
  have r2 : itemBound A.u A.δ l ≤ 0.001001 := by
    have h5 : ((1 : ℝ) + 2e-5) ^ l.length ≤ (1 + 2e-5) ^ 50 := pow_le_pow_right₀ (by norm_num) hl
    have h6 : ((1 : ℝ) + 2e-5) ^ 50 ≤ 1.001001 := by
      have h7 : (1 + 2e-5 : ℝ) ≤ Real.exp 2e-5 := by
        have := Real.add_one_le_exp (2e-5 : ℝ)
        linarith
      have h8 : ((1 : ℝ) + 2e-5) ^ 50 ≤ Real.exp 0.001 := by
        refine (pow_le_pow_left₀ (by norm_num) h7 50).trans (le_of_eq ?_)
        rw [← Real.exp_nat_mul]; norm_num
      have h9 := Real.exp_bound' (x := 0.001) (by norm_num) (by norm_num) (n := 3) (by norm_num)
      refine h8.trans (h9.trans ?_)
      norm_num [Finset.sum_range_succ, Nat.factorial]
    unfold itemBound
    exact (sub_le_sub_right (r.2.trans (h5.trans h6)) 1).trans (by norm_num)
  have hγ0 := sumErr_nonneg A.u_nonneg (2 ^ N)
  have hγ : sumErr A.u (2 ^ N) ≤ 2e-6 := by
    refine (sumErr_mono A.u_nonneg (Nat.pow_le_pow_right (by norm_num) hN')).trans ?_
    have hs2 : Real.sqrt 2 ≤ 1.4143 := by rw [Real.sqrt_le_left (by norm_num)]; norm_num
    have hk : (1 + A.u) ^ 2 - 1 ≤ 2.0001 * 2⁻¹ ^ 24 := by
      have : (1 + A.u) ^ 2 ≤ (1 + 2⁻¹ ^ 24) ^ 2 := pow_le_pow_left₀ (by linarith [A.u_nonneg]) (by linarith) 2
      refine (sub_le_sub_right this 1).trans ?_
      norm_num
    have hk0 : 0 ≤ (1 + A.u) ^ 2 - 1 := by nlinarith [A.u_nonneg]
    have hμ0 : 0 ≤ mulErr A.u := mulErr_nonneg A.u_nonneg
    have hμ : mulErr A.u ≤ 2.829 * 2⁻¹ ^ 24 := by
      unfold mulErr
      refine (mul_le_mul hs2 hk hk0 (by norm_num)).trans ?_
      norm_num
    unfold sumErr
    have h1 : (1 + A.u) ^ (2 ^ 4) ≤ (1 + 2⁻¹ ^ 24) ^ (2 ^ 4) :=
      pow_le_pow_left₀ (by linarith [A.u_nonneg]) (by linarith) _
    have : (1 + A.u) ^ (2 ^ 4) * (1 + mulErr A.u) ≤ (1 + 2⁻¹ ^ 24) ^ (2 ^ 4) * (1 + 2.829 * 2⁻¹ ^ 24) :=
      mul_le_mul h1 (by linarith) (by linarith) (by positivity)
    refine (sub_le_sub_right this 1).trans ?_
    norm_num
  unfold measErr
  have e1 : itemBound A.u A.δ l * (2 + itemBound A.u A.δ l) ≤ 0.001001 * (2 + 0.001001) :=
    mul_le_mul r2 (by linarith) (by linarith) (by norm_num)
  have e2 : sumErr A.u (2 ^ N) * (1 + itemBound A.u A.δ l) ^ 2 ≤ 2e-6 * (1 + 0.001001) ^ 2 :=
    mul_le_mul hγ (pow_le_pow_left₀ (by linarith) (by linarith) 2) (by positivity) (by norm_num)
  refine (add_le_add e1 e2).trans ?_
  norm_num

example := C105_float32 (binary 24 (by norm_num)) (N := 2)
  (show (2 : ℝ) ^ (-((24 : ℕ) : ℤ)) ≤ _ by norm_num) (show (2 : ℝ) ^ (-((24 : ℕ) : ℤ)) ≤ _ by norm_num)
  (by norm_num) (by norm_num) [.hlayer [0, 1], .layer .yzy [0, 1] [0.1, 0.2, 0.3, 0.4, 0.5, 0.6], .ring [0, 1]]
  (by simp [Item.WF, LayerKind.axes]) (by simp) (by simp) 0 _ isCol_two

end QTN.Props
