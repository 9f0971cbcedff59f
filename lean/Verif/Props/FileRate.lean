import Verif.Lemmas.Blocks
import Verif.Props.Descent

/-! # Property C109: the training loops with the learning rate of the file lower the expectation value -/

namespace QTN.Props

open QTN QTN.Spec Matrix Finset

variable {N : ℕ}

/-! ## The circuit of the demo, gate by gate -/

/-- A YZY layer as one layer per wire. -/
noncomputable def single : List (Fin N) → List ℝ → List (Item N)
  | [], _ => []
  | w :: ws, p => .layer .yzy [w] (p.take 3) :: single ws (p.drop 3)

theorem layerOp_cons {w : Fin N} {ws : List (Fin N)} (h : w ∉ ws) (p : List ℝ) :
    layerOp [Spec.Y, Spec.Z, Spec.Y] (w :: ws) p =
      layerOp [Spec.Y, Spec.Z, Spec.Y] ws (p.drop 3) * layerOp [Spec.Y, Spec.Z, Spec.Y] [w] (p.take 3) := by
  unfold layerOp
  rw [onEach_mul]
  congr 1
  funext j
  by_cases hj : j = w
  · subst hj
    simp [h, seqRot_take]
  · have : w ≠ j := fun e => hj e.symm
    by_cases hm : j ∈ ws
    · simp [hj, hm, List.idxOf_cons_ne _ this, Nat.mul_add, add_comm]
    · simp [hj, hm]

theorem circuitOp_single {ws : List (Fin N)} (h : ws.Nodup) (p : List ℝ) :
    circuitOp (single ws p) = layerOp [Spec.Y, Spec.Z, Spec.Y] ws p := by
  induction ws generalizing p with
  | nil =>
    unfold layerOp single circuitOp
    simp [onEach_one]
  | cons w ws ih =>
    rw [single, circuitOp_cons, ih (List.nodup_cons.1 h).2, layerOp_cons (List.nodup_cons.1 h).1]
    rfl

/-- The circuit of the demo without the last rotations of the qubits that are not measured. -/
noncomputable def core (hN : 2 ≤ N) : ℕ → List ℝ → List (Item N)
  | 0, p => [.layer .yzy [⟨0, by omega⟩] (p.take 3)]
  | R + 1, p => single (List.finRange N) (p.take (3 * N)) ++ .ring (List.finRange N) :: core hN R (p.drop (3 * N))

theorem layer_dead (hN : 2 ≤ N) {ws : List (Fin N)} (h : (⟨0, by omega⟩ : Fin N) ∉ ws) (p : List ℝ) (v : QState N) :
    braket (firstZ hN) (layerOp [Spec.Y, Spec.Z, Spec.Y] ws p *ᵥ v) = braket (firstZ hN) v := by
  have hu : ∀ j : Fin N, IsU2 (if j ∈ ws then seqRot [Spec.Y, Spec.Z, Spec.Y] (p.drop (3 * ws.idxOf j)) else 1) := by
    intro j
    split_ifs
    · exact seqRot_u2 _ (axes_axis .yzy) _
    · exact ⟨by simp, by simp⟩
  rw [braket_mul]
  congr 1
  unfold firstZ layerOp
  rw [← onEach_update_one, onEach_conjTranspose, onEach_mul, onEach_mul]
  congr 1
  funext j
  by_cases hj : j = ⟨0, by omega⟩
  · subst hj
    simp [h]
  · have := (hu j).2
    simpa [hj] using this

theorem finRange_cons (hN : 2 ≤ N) : ∃ ws : List (Fin N), List.finRange N = ⟨0, by omega⟩ :: ws := by
  obtain ⟨n, rfl⟩ : ∃ n, N = n + 1 := ⟨N - 1, by omega⟩
  exact ⟨_, List.finRange_succ⟩

theorem core_energy (hN : 2 ≤ N) (R : ℕ) (p : List ℝ) (v : QState N) :
    energy (firstZ hN) v (core hN R p) = energy (firstZ hN) v (stack N R p) := by
  induction R generalizing p v with
  | zero =>
    obtain ⟨ws, hws⟩ := finRange_cons hN
    have hnd := List.nodup_finRange N
    rw [hws] at hnd
    rw [core, stack, energy_cons, energy_cons]
    unfold energy
    rw [show circuitOp ([] : List (Item N)) = 1 from rfl, Matrix.one_mulVec, Matrix.one_mulVec]
    simp only [Item.op, LayerKind.axes]
    rw [hws, layerOp_cons (List.nodup_cons.1 hnd).1, ← Matrix.mulVec_mulVec, layer_dead hN (List.nodup_cons.1 hnd).1,
      List.take_take, min_eq_left (by omega)]
  | succ R ih =>
    have e : ∀ l l' : List (Item N), energy (firstZ hN) v (l ++ l') = energy (firstZ hN) (circuitOp l *ᵥ v) l' := by
      intro l l'
      unfold energy
      rw [show circuitOp (l ++ l') = circuitOp l' * circuitOp l by
        unfold circuitOp; rw [List.map_append, timeOrdered_append], Matrix.mulVec_mulVec]
    rw [core, e, circuitOp_single (List.nodup_finRange N), energy_cons, ih, stack, energy_cons, energy_cons]
    rfl

theorem active_cons (it : Item N) (l : List (Item N)) :
    active (it :: l) = (if it.params = [] then 0 else 1) + active l := by
  simp [active]

theorem single_facts {ws : List (Fin N)} (p : List ℝ) (h : p.length = 3 * ws.length) :
    allParams (single ws p) = p ∧ active (single ws p) = ws.length ∧
      ∀ it ∈ single ws p, ∃ w q, it = .layer .yzy [w] q ∧ q.length = 3 := by
  induction ws generalizing p with
  | nil =>
    rw [List.length_nil, mul_zero, List.length_eq_zero_iff] at h
    subst h
    simp [single, allParams, active]
  | cons w ws ih =>
    rw [List.length_cons] at h
    obtain ⟨h1, h2, h3⟩ := ih (p.drop 3) (by rw [List.length_drop]; omega)
    have ht : (p.take 3).length = 3 := by rw [List.length_take]; omega
    refine ⟨?_, ?_, ?_⟩
    · unfold allParams at h1
      simp only [single, allParams, List.flatMap_cons, Item.params, h1, List.take_append_drop]
    · have hne : p.take 3 ≠ [] := fun e => by rw [e] at ht; simp at ht
      rw [single, active_cons, h2, if_neg (show ¬ Item.params (.layer .yzy [w] (p.take 3)) = [] from hne), List.length_cons, add_comm]
    · intro it hit
      rcases List.mem_cons.1 hit with rfl | hit
      · exact ⟨w, _, rfl, ht⟩
      · exact h3 it hit

theorem core_facts (hN : 2 ≤ N) (R : ℕ) (p : List ℝ) (h : 3 * N * R + 3 ≤ p.length) :
    allParams (core hN R p) = p.take (3 * N * R + 3) ∧ active (core hN R p) = N * R + 1 ∧
      ∀ it ∈ core hN R p, (∃ w q, it = .layer .yzy [w] q ∧ q.length = 3) ∨ it = .ring (List.finRange N) := by
  induction R generalizing p with
  | zero =>
    have ht : (p.take 3).length = 3 := by rw [List.length_take]; omega
    have hne : p.take 3 ≠ [] := fun e => by rw [e] at ht; simp at ht
    refine ⟨by simp [core, allParams, Item.params], ?_, ?_⟩
    · rw [core, active_cons, if_neg (show ¬ Item.params (N := N) (.layer .yzy [⟨0, by omega⟩] (p.take 3)) = [] from hne)]
      simp [active]
    · intro it hit
      obtain rfl := List.mem_singleton.1 hit
      exact .inl ⟨_, _, rfl, ht⟩
  | succ R ih =>
    have e1 : 3 * N * (R + 1) = 3 * N + 3 * N * R := by ring
    obtain ⟨h1, h2, h3⟩ := ih (p.drop (3 * N)) (by rw [List.length_drop]; omega)
    obtain ⟨g1, g2, g3⟩ := single_facts (ws := List.finRange N) (p.take (3 * N))
      (by rw [List.length_take, List.length_finRange]; omega)
    refine ⟨?_, ?_, ?_⟩
    · rw [core, allParams_append, g1]
      have : allParams (Item.ring (List.finRange N) :: core hN R (p.drop (3 * N))) = allParams (core hN R (p.drop (3 * N))) := by
        simp [allParams, Item.params]
      rw [this, h1, e1, add_assoc]
      exact List.take_add.symm
    · have : active (core hN (R + 1) p) = active (single (List.finRange N) (p.take (3 * N))) +
          (0 + active (core hN R (p.drop (3 * N)))) := by
        simp [active, core, Item.params]
      rw [this, g2, h2, List.length_finRange]
      ring
    · intro it hit
      rw [core] at hit
      rcases List.mem_append.1 hit with hit | hit
      · exact .inl (g3 it hit)
      rcases List.mem_cons.1 hit with rfl | hit
      · exact .inr rfl
      · exact h3 it hit

theorem single_sameForm (ws : List (Fin N)) {p q : List ℝ} (h : p.length = q.length) :
    SameForm (single ws p) (single ws q) := by
  induction ws generalizing p q with
  | nil => exact .nil
  | cons w ws ih => exact .cons ⟨q.take 3, by simp [Item.params, h], rfl⟩ (ih (by simp [h]))

theorem core_sameForm (hN : 2 ≤ N) (R : ℕ) {p q : List ℝ} (h : p.length = q.length) :
    SameForm (core hN R p) (core hN R q) := by
  induction R generalizing p q with
  | zero => exact .cons ⟨q.take 3, by simp [Item.params, h], rfl⟩ .nil
  | succ R ih =>
    exact List.rel_append (single_sameForm _ (by simp [h])) (.cons ⟨[], rfl, rfl⟩ (ih (by simp [h])))

theorem core_near (hN : 2 ≤ N) {it : Item N}
    (h : (∃ w q, it = .layer .yzy [w] q ∧ q.length = 3) ∨ it = .ring (List.finRange N)) :
    it.WF ∧ ¬ IsCu3 it ∧ it.params.length ≤ 3 ∧
      ∀ p, p.length = it.params.length → NearOp 1 (blockMove it.params p) it.op (it.withParams p).op := by
  rcases h with ⟨w, q, rfl, hq⟩ | rfl
  · refine ⟨⟨by omega, by simp, ?_⟩, fun h => h, by simp [Item.params, hq], fun p hp => ?_⟩
    · simp [hq, LayerKind.axes]
    · have e : ∀ p : List ℝ, layerOp [Spec.Y, Spec.Z, Spec.Y] [w] p = onQubit w (seqRot [Spec.Y, Spec.Z, Spec.Y] p) := by
        intro p
        rw [← onEach_update_one]
        unfold layerOp
        congr 1
        funext j
        by_cases hj : j = w
        · subst hj; simp
        · simp [hj]
      simp only [Item.op, Item.withParams, Item.params, LayerKind.axes] at hp ⊢
      rw [e, e]
      exact near_yzy w q p hq (hp.trans hq)
  · have hw : (Item.ring (List.finRange N)).WF := ⟨List.nodup_finRange N, by simpa using hN⟩
    refine ⟨hw, fun h => h, by simp [Item.params], fun p hp => ?_⟩
    have := NearOp.refl (item_unitary _ hw)
    simpa [blockMove, sqDist, Item.params, Item.withParams] using this

theorem sameForm_unique {l a b : List (Item N)} (ha : SameForm l a) (hb : SameForm l b) (h : allParams a = allParams b) :
    a = b := by
  rw [← fill_of_sameForm ha, ← fill_of_sameForm hb, h]

/-! ## One step -/

theorem core_move (hN : 2 ≤ N) {p q : List ℝ} (hp : p.length = 9 * N) (hq : q.length = 9 * N) :
    demoEnergy hN q ≤ demoEnergy hN p +
      ∑ j ∈ range (6 * N + 3), shiftValue (firstZ hN) (ket0 N) (core hN 2 p) j * (q.getD j 0 - p.getD j 0) +
      (2 * N + 3 / 2) * ∑ j ∈ range (6 * N + 3), (q.getD j 0 - p.getD j 0) ^ 2 := by
  have e6 : 3 * N * 2 + 3 = 6 * N + 3 := by ring
  obtain ⟨p1, p2, p3⟩ := core_facts hN 2 p (by omega)
  obtain ⟨q1, q2, q3⟩ := core_facts hN 2 q (by omega)
  rw [e6] at p1 q1
  have hs := core_sameForm hN 2 (p := p) (q := q) (by omega)
  have h := block_descent zero_le_one (firstZ_bound hN) hs (fun it hit => (core_near hN (p3 it hit)).1)
    (fun it hit => (core_near hN (p3 it hit)).2.1) (fun it hit => (core_near hN (p3 it hit)).2.2.2) blockMove_nonneg (ket0 N)
  have hc := blockCost_le hs fun it hit => (core_near hN (p3 it hit)).2.2.1
  have hlen : (p.take (6 * N + 3)).length = 6 * N + 3 := by rw [List.length_take]; omega
  have hget : ∀ r : List ℝ, ∀ j, j < 6 * N + 3 → (r.take (6 * N + 3)).getD j 0 = r.getD j 0 := fun r j hj => by
    simp [List.getD_eq_getElem?_getD, hj]
  rw [p1, q1, ket0_norm, core_energy, core_energy, hlen] at h
  have e1 : ∑ j ∈ range (6 * N + 3), shiftValue (firstZ hN) (ket0 N) (core hN 2 p) j *
      ((q.take (6 * N + 3)).getD j 0 - (p.take (6 * N + 3)).getD j 0) =
      ∑ j ∈ range (6 * N + 3), shiftValue (firstZ hN) (ket0 N) (core hN 2 p) j * (q.getD j 0 - p.getD j 0) :=
    Finset.sum_congr rfl fun j hj => by rw [hget q j (Finset.mem_range.1 hj), hget p j (Finset.mem_range.1 hj)]
  have e2 : sqDist (p.take (6 * N + 3)) (q.take (6 * N + 3)) = ∑ j ∈ range (6 * N + 3), (q.getD j 0 - p.getD j 0) ^ 2 := by
    unfold sqDist
    rw [hlen]
    exact Finset.sum_congr rfl fun j hj => by
      rw [hget q j (Finset.mem_range.1 hj), hget p j (Finset.mem_range.1 hj)]; ring
  rw [p1, q1, e2, p2] at hc
  rw [e1, one_pow, mul_one, one_mul] at h
  have e3 : (((N * 2 + 1 : ℕ) : ℝ) + 1 / 2) = 2 * N + 3 / 2 := by push_cast; ring
  rw [e3] at hc
  unfold demoEnergy demoItems
  linarith

theorem core_set (hN : 2 ≤ N) {p : List ℝ} (hp : p.length = 9 * N) (j : ℕ) (x : ℝ) :
    core hN 2 (p.set j x) = setParam (core hN 2 p) j x := by
  obtain ⟨p1, -, -⟩ := core_facts hN 2 p (by omega)
  obtain ⟨q1, -, -⟩ := core_facts hN 2 (p.set j x) (by rw [List.length_set]; omega)
  refine sameForm_unique (core_sameForm hN 2 (by rw [List.length_set])) (sameForm_setParam _ j x) ?_
  rw [q1, allParams_setParam, p1, List.take_set]

theorem core_deriv (hN : 2 ≤ N) {p : List ℝ} (hp : p.length = 9 * N) {j : ℕ} (hj : j < 6 * N + 3) :
    HasDerivAt (fun x => demoEnergy hN (p.set j x)) (shiftValue (firstZ hN) (ket0 N) (core hN 2 p) j) (p.getD j 0) := by
  obtain ⟨p1, -, p3⟩ := core_facts hN 2 p (by omega)
  have h := shift_partial (firstZ hN) (ket0 N) (core hN 2 p) (fun it hit => (core_near hN (p3 it hit)).1) j
    (by rw [p1, List.length_take]; omega) (fun it hit => shiftOk_of (core_near hN (p3 it (QTN.owner_mem hit))).2.1)
  unfold IsPartial at h
  simp only [← core_set hN hp, core_energy] at h
  have hget : (allParams (core hN 2 p)).getD j 0 = p.getD j 0 := by
    rw [p1]
    simp [List.getD_eq_getElem?_getD, show j < 3 * N * 2 + 3 by omega]
  rwa [hget] at h

theorem core_dead (hN : 2 ≤ N) {p : List ℝ} (hp : p.length = 9 * N) {j : ℕ} (hj : 6 * N + 3 ≤ j) (x : ℝ) :
    demoEnergy hN (p.set j x) = demoEnergy hN p := by
  unfold demoEnergy demoItems
  rw [← core_energy, ← core_energy]
  congr 1
  obtain ⟨p1, -, -⟩ := core_facts hN 2 p (by omega)
  obtain ⟨q1, -, -⟩ := core_facts hN 2 (p.set j x) (by rw [List.length_set]; omega)
  refine sameForm_unique (l := core hN 2 p) (core_sameForm hN 2 (by rw [List.length_set])) (core_sameForm hN 2 rfl) ?_
  rw [q1, p1, List.take_set_of_le (by omega)]

theorem gradSq_core (hN : 2 ≤ N) {p : List ℝ} (hp : p.length = 9 * N) :
    gradSq hN p = ∑ j ∈ range (6 * N + 3), shiftValue (firstZ hN) (ket0 N) (core hN 2 p) j ^ 2 := by
  unfold gradSq
  rw [hp, show 9 * N = 6 * N + 3 + (3 * N - 3) by omega, Finset.sum_range_add]
  have h0 : ∑ i ∈ range (3 * N - 3), deriv (fun x => demoEnergy hN (p.set (6 * N + 3 + i) x)) (p.getD (6 * N + 3 + i) 0) ^ 2
      = 0 := Finset.sum_eq_zero fun i _ => by
    simp only [core_dead hN hp (Nat.le_add_right (6 * N + 3) i), deriv_const]
    ring
  rw [h0, add_zero]
  exact Finset.sum_congr rfl fun j hj => by rw [(core_deriv hN hp (Finset.mem_range.1 hj)).deriv]

theorem step_scalar {lr K ε δ d : ℝ} (hl : 0 < lr) (hK : 0 ≤ K) (hlr : lr * K < 1) (hd : |d + lr * δ| ≤ lr * ε) :
    δ * d + K * d ^ 2 ≤ -(lr * ((1 - lr * K) / 2 * δ ^ 2 - (1 + 1 / (2 * (1 - lr * K))) * ε ^ 2)) := by
  obtain ⟨t, rfl⟩ : ∃ t, d = lr * (t - δ) := ⟨d / lr + δ, by field_simp; ring⟩
  have ht : |t| ≤ ε := by
    rw [show lr * (t - δ) + lr * δ = lr * t by ring, abs_mul, abs_of_pos hl] at hd
    exact le_of_mul_le_mul_left hd hl
  set κ := lr * K with hκ
  have hκ0 : 0 ≤ κ := by positivity
  have hc : 0 < 1 - κ := by linarith
  have htt : t ^ 2 ≤ ε ^ 2 := sq_le_sq' (by linarith [(abs_le.1 ht).1]) (abs_le.1 ht).2
  have e : δ * (lr * (t - δ)) + K * (lr * (t - δ)) ^ 2 = lr * (-(1 - κ) * δ ^ 2 + (1 - 2 * κ) * (δ * t) + κ * t ^ 2) := by
    rw [hκ]; ring
  rw [e, ← mul_neg]
  refine mul_le_mul_of_nonneg_left ?_ hl.le
  have h1 : (1 - 2 * κ) * (δ * t) ≤ |δ * t| := by
    refine (le_abs_self _).trans ?_
    rw [abs_mul]
    exact mul_le_of_le_one_left (abs_nonneg _) (abs_le.2 ⟨by linarith, by linarith⟩)
  have h2 : |δ * t| ≤ (1 - κ) / 2 * δ ^ 2 + 1 / (2 * (1 - κ)) * t ^ 2 := by
    have h3 := two_mul_le_add_sq ((1 - κ) * |δ|) |t|
    rw [mul_pow, sq_abs, sq_abs] at h3
    rw [abs_mul, show (1 - κ) / 2 * δ ^ 2 + 1 / (2 * (1 - κ)) * t ^ 2 = ((1 - κ) ^ 2 * δ ^ 2 + t ^ 2) / (2 * (1 - κ)) by
      field_simp, le_div_iff₀ (by positivity)]
    linarith
  have h4 : κ * t ^ 2 ≤ ε ^ 2 := (mul_le_of_le_one_left (sq_nonneg _) (by linarith)).trans htt
  have h5 : 1 / (2 * (1 - κ)) * t ^ 2 ≤ 1 / (2 * (1 - κ)) * ε ^ 2 := mul_le_mul_of_nonneg_left htt (by positivity)
  linarith

/-- C109, one step: if the learning rate is below `1/(2N + 3/2)`, a step with derivatives that are off by at most `ε`
lowers the expectation value by at least `lr (1 - lr (2N + 3/2)) / 2` times the sum of the squared derivatives, up to a
term quadratic in `ε`. -/
theorem C109_step (hN : 2 ≤ N) (lr ε : ℝ) (hl : 0 < lr) (hlr : lr * (2 * N + 3 / 2) < 1) (p q : List ℝ)
    (hp : p.length = 9 * N) (hs : DescentStep hN lr ε p q) :
    demoEnergy hN q ≤ demoEnergy hN p - lr * ((1 - lr * (2 * N + 3 / 2)) / 2 * gradSq hN p -
      (6 * N + 3) * ((1 + 1 / (2 * (1 - lr * (2 * N + 3 / 2)))) * ε ^ 2)) := by
  have h1 := core_move hN hp (hs.1.trans hp)
  have h2 : ∀ j ∈ range (6 * N + 3), shiftValue (firstZ hN) (ket0 N) (core hN 2 p) j * (q.getD j 0 - p.getD j 0) +
      (2 * N + 3 / 2) * (q.getD j 0 - p.getD j 0) ^ 2 ≤ -(lr * ((1 - lr * (2 * N + 3 / 2)) / 2 *
        shiftValue (firstZ hN) (ket0 N) (core hN 2 p) j ^ 2 - (1 + 1 / (2 * (1 - lr * (2 * N + 3 / 2)))) * ε ^ 2)) := by
    intro j hj
    have hj' := Finset.mem_range.1 hj
    refine step_scalar hl (by positivity) hlr ?_
    obtain ⟨δ, hδ, hb⟩ := hs.2 j (by omega)
    rw [hδ.unique (core_deriv hN hp hj'), abs_of_pos hl] at hb
    rwa [show q.getD j 0 - p.getD j 0 + lr * shiftValue (firstZ hN) (ket0 N) (core hN 2 p) j =
      q.getD j 0 - (p.getD j 0 - lr * shiftValue (firstZ hN) (ket0 N) (core hN 2 p) j) by ring]
  have h3 := Finset.sum_le_sum h2
  rw [Finset.sum_add_distrib, ← Finset.mul_sum, Finset.sum_neg_distrib, ← Finset.mul_sum, Finset.sum_sub_distrib,
    ← Finset.mul_sum, Finset.sum_const, Finset.card_range, nsmul_eq_mul, ← gradSq_core hN hp] at h3
  push_cast at h3
  linarith

/-- The hypotheses hold for the numbers of the file and a step with exact derivatives. -/
example (p : List ℝ) (hp : p.length = 9 * 4) : (0.1 : ℝ) * (2 * (4 : ℕ) + 3 / 2) < 1 ∧
    ∃ q, DescentStep (N := 4) (by norm_num) 0.1 0 p q := by
  refine ⟨by norm_num, List.zipWith (fun x y => x - 0.1 * y) p
    ((List.range p.length).map fun j => deriv (fun x => demoEnergy (N := 4) (by norm_num) (p.set j x)) (p.getD j 0)),
    by simp, fun j hj => ⟨_, (demo_shift (N := 4) (by norm_num) hp hj), ?_⟩⟩
  rw [descend_getD (by simp) hj, ← (demo_shift (N := 4) (by norm_num) hp hj).deriv,
    List.getD_eq_getElem (List.map _ _) _ (by simpa using hj)]
  simp

/-! ## The loops -/

/-- Every pass of a loop whose steps are descent steps. -/
theorem loop_steps (hN : 2 ≤ N) {lr ε : ℝ} (T : ℕ → List ℝ → TNM (List ℝ)) (hT0 : ∀ p s, T 0 p s = (.ok p, s))
    (hT : ∀ p s, p.length = 9 * N → ∃ m s1, DescentStep hN lr ε p m ∧ ∀ k, T (k + 1) p s = T k m s1) (k : ℕ)
    (p : List ℝ) (hp : p.length = 9 * N) (s : List (Tensor ℂ)) :
    ∃ q q' s' s'', T k p s = (.ok q, s') ∧ T (k + 1) p s = (.ok q', s'') ∧ q.length = 9 * N ∧ DescentStep hN lr ε q q' := by
  induction k generalizing p s with
  | zero =>
    obtain ⟨m, s1, hm, e⟩ := hT p s hp
    exact ⟨p, m, s, s1, hT0 p s, by rw [e, hT0], hp, hm⟩
  | succ k ih =>
    obtain ⟨m, s1, hm, e⟩ := hT p s hp
    obtain ⟨q, q', s', s'', e1, e2, h1, h2⟩ := ih m (hm.1.trans hp) s1
    exact ⟨q, q', s', s'', by rw [e, e1], by rw [e, e2], h1, h2⟩

theorem train_pass {svd : SVDOracle} (hv : ValidSVD svd) (hN : 2 ≤ N) (lr : ℝ) (p : List ℝ)
    (ha : accuracy (demoItems N p) < 1) (p' : List ℝ) (s : List (Tensor ℂ)) (hp' : p'.length = 9 * N) :
    ∃ m s1, DescentStep hN lr (2 * accuracy (demoItems N p)) p' m ∧
      ∀ k, ShiftDemo.train svd N lr (k + 1) p' s = ShiftDemo.train svd N lr k m s1 := by
  have hac : ∀ q, accuracy (demoItems N q) = accuracy (demoItems N p) := fun q => stack_accuracy 2 q p
  obtain ⟨g, s1, e1, hgl, hg⟩ := C73_gradient hv hN p' hp' (by rw [hac]; exact ha) s
  rw [hac] at hg
  obtain ⟨m, e2, hm⟩ := demo_descend hN lr hgl hg
  obtain ⟨r, s2, e3, -⟩ := C73_forward hv hN m (hm.1.trans hp') (by rw [hac]; exact ha) s1
  refine ⟨m, s2, hm, fun k => ?_⟩
  rw [ShiftDemo.train, TNM.bind_ok e1]
  dsimp only
  rw [e2, TNM.lift_ok_bind, TNM.bind_ok e3]

theorem train2_pass {svd : SVDOracle} (hv : ValidSVD svd) (hN : 2 ≤ N) (lr : ℝ) (p : List ℝ)
    (ha : accuracy (demoItems N p) < 1) (p' : List ℝ) (s : List (Tensor ℂ)) (hp' : p'.length = 9 * N) :
    ∃ m s1, DescentStep hN lr (2 * accuracy (demoItems N p)) p' m ∧
      ∀ k, ShiftDemo.train2 svd N lr (k + 1) p' s = ShiftDemo.train2 svd N lr k m s1 := by
  have hac : ∀ q, accuracy (demoItems N q) = accuracy (demoItems N p) := fun q => stack_accuracy 2 q p
  obtain ⟨m, s1, e1, hm⟩ := demo_step2 hv hN lr p' hp' (by rw [hac]; exact ha) s
  rw [hac] at hm
  exact ⟨m, s1, hm, fun k => by rw [ShiftDemo.train2, TNM.bind_ok e1]⟩

/-- C109, both training loops, for every start, every learning rate below `1/(2N + 3/2)` and every pass: the pass lowers
the expectation value by a multiple of the sum of the squared derivatives, up to a term quadratic in the accuracy. -/
theorem C109_train {svd : SVDOracle} (hv : ValidSVD svd) (hN : 2 ≤ N) (lr : ℝ) (hl : 0 < lr)
    (hlr : lr * (2 * N + 3 / 2) < 1) (k : ℕ) (p : List ℝ) (hp : p.length = 9 * N) (ha : accuracy (demoItems N p) < 1)
    (s : List (Tensor ℂ)) :
    (∃ q q' s' s'', ShiftDemo.train svd N lr k p s = (.ok q, s') ∧ ShiftDemo.train svd N lr (k + 1) p s = (.ok q', s'') ∧
      demoEnergy hN q' ≤ demoEnergy hN q - lr * ((1 - lr * (2 * N + 3 / 2)) / 2 * gradSq hN q -
        (6 * N + 3) * ((1 + 1 / (2 * (1 - lr * (2 * N + 3 / 2)))) * (2 * accuracy (demoItems N p)) ^ 2))) ∧
    (∃ q q' s' s'', ShiftDemo.train2 svd N lr k p s = (.ok q, s') ∧ ShiftDemo.train2 svd N lr (k + 1) p s = (.ok q', s'') ∧
      demoEnergy hN q' ≤ demoEnergy hN q - lr * ((1 - lr * (2 * N + 3 / 2)) / 2 * gradSq hN q -
        (6 * N + 3) * ((1 + 1 / (2 * (1 - lr * (2 * N + 3 / 2)))) * (2 * accuracy (demoItems N p)) ^ 2))) := by
  constructor
  · obtain ⟨q, q', s', s'', e1, e2, h1, h2⟩ := loop_steps hN (ShiftDemo.train svd N lr) (fun _ _ => rfl)
      (fun p' s hp' => train_pass hv hN lr p ha p' s hp') k p hp s
    exact ⟨q, q', s', s'', e1, e2, C109_step hN lr _ hl hlr q q' h1 h2⟩
  · obtain ⟨q, q', s', s'', e1, e2, h1, h2⟩ := loop_steps hN (ShiftDemo.train2 svd N lr) (fun _ _ => rfl)
      (fun p' s hp' => train2_pass hv hN lr p ha p' s hp') k p hp s
    exact ⟨q, q', s', s'', e1, e2, C109_step hN lr _ hl hlr q q' h1 h2⟩

/-- C109 with the numbers of the file, four qubits and learning rate 0.1: every pass of either loop lowers the expectation
value by at least 0.0025 times the sum of the squared derivatives, up to `2e-11`. -/
theorem C109_file {svd : SVDOracle} (hv : ValidSVD svd) (k : ℕ) (p : List ℝ) (hp : p.length = 36)
    (s : List (Tensor ℂ)) :
    (∃ q q' s' s'', ShiftDemo.train svd 4 0.1 k p s = (.ok q, s') ∧ ShiftDemo.train svd 4 0.1 (k + 1) p s = (.ok q', s'') ∧
      demoEnergy (N := 4) (by norm_num) q' ≤
        demoEnergy (N := 4) (by norm_num) q - 0.0025 * gradSq (N := 4) (by norm_num) q + 2e-11) ∧
    (∃ q q' s' s'', ShiftDemo.train2 svd 4 0.1 k p s = (.ok q, s') ∧
      ShiftDemo.train2 svd 4 0.1 (k + 1) p s = (.ok q', s'') ∧
      demoEnergy (N := 4) (by norm_num) q' ≤
        demoEnergy (N := 4) (by norm_num) q - 0.0025 * gradSq (N := 4) (by norm_num) q + 2e-11) := by
  have ha : accuracy (demoItems 4 p) < 1 := by rw [demo_accuracy_four]; norm_num
  obtain ⟨⟨q, q', s', s'', e1, e2, h⟩, t, t', u', u'', f1, f2, g⟩ :=
    C109_train hv (N := 4) (by norm_num) 0.1 (by norm_num) (by norm_num) k p hp ha s
  rw [demo_accuracy_four] at h g
  refine ⟨⟨q, q', s', s'', e1, e2, h.trans ?_⟩, t, t', u', u'', f1, f2, g.trans ?_⟩ <;>
  · push_cast
    norm_num
    linarith

/-- The loops as the file runs them, 20 and 50 passes: the expectation value at the end is not above the one at the start,
up to `1e-9`. -/
theorem C109_runs {svd : SVDOracle} (hv : ValidSVD svd) (p : List ℝ) (hp : p.length = 36) (s : List (Tensor ℂ)) :
    (∃ q s', ShiftDemo.train svd 4 0.1 20 p s = (.ok q, s') ∧
      demoEnergy (N := 4) (by norm_num) q ≤ demoEnergy (N := 4) (by norm_num) p + 1e-9) ∧
    (∃ q s', ShiftDemo.train2 svd 4 0.1 50 p s = (.ok q, s') ∧
      demoEnergy (N := 4) (by norm_num) q ≤ demoEnergy (N := 4) (by norm_num) p + 1e-9) := by
  have key : ∀ T : ℕ → List ℝ → TNM (List ℝ), (∀ p s, T 0 p s = (.ok p, s)) →
      (∀ k, ∃ q q' s' s'', T k p s = (.ok q, s') ∧ T (k + 1) p s = (.ok q', s'') ∧
        demoEnergy (N := 4) (by norm_num) q' ≤
          demoEnergy (N := 4) (by norm_num) q - 0.0025 * gradSq (N := 4) (by norm_num) q + 2e-11) →
      ∀ k : ℕ, ∃ q s', T k p s = (.ok q, s') ∧
        demoEnergy (N := 4) (by norm_num) q ≤ demoEnergy (N := 4) (by norm_num) p + k * 2e-11 := by
    intro T h0 hk k
    induction k with
    | zero => exact ⟨p, s, h0 p s, by simp⟩
    | succ k ih =>
      obtain ⟨q, s', e, h⟩ := ih
      obtain ⟨q1, q2, t', t'', e1, e2, h1⟩ := hk k
      rw [e] at e1
      have hq : q = q1 := by simpa using congrArg Prod.fst e1
      subst hq
      have hg : 0 ≤ gradSq (N := 4) (by norm_num) q := Finset.sum_nonneg fun _ _ => sq_nonneg _
      refine ⟨q2, t'', e2, ?_⟩
      push_cast
      linarith
  obtain ⟨q, s', e, h⟩ := key (ShiftDemo.train svd 4 0.1) (fun _ _ => rfl) (fun k => (C109_file hv k p hp s).1) 20
  obtain ⟨t, u', f, g⟩ := key (ShiftDemo.train2 svd 4 0.1) (fun _ _ => rfl) (fun k => (C109_file hv k p hp s).2) 50
  refine ⟨⟨q, s', e, h.trans ?_⟩, t, u', f, g.trans ?_⟩ <;> norm_num

example : (List.replicate 36 (0.3 : ℝ)).length = 36 ∧ ∃ svd, ValidSVD svd :=
  ⟨by simp, _, Classical.choose_spec exists_validSVD⟩

end QTN.Props
