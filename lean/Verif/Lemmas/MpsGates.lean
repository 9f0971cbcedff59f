import Verif.Lemmas.SwapChain

/-! # Gates, layers, rings and circuits on matrix product states -/

namespace QTN

open Finset Spec Matrix

variable {N : ℕ} {svd : SVDOracle} (T : Theory N svd)

theorem TNM.bind_pure {α : Type} (x : TNM α) : (x >>= fun a => pure a) = x := by
  funext s
  rcases h : x s with ⟨r | r, s'⟩
  · rw [TNM.bind_error h]
  · rw [TNM.bind_ok h]; rfl

/-! ## Single-qubit gates -/

theorem single_mps {g : Gate} (i : Fin N) {m : Mat2} (hn : g.nqubits = (N : ℤ))
    (hw : g.wires = .int (wire i)) (hm : Represents2 g.matrix m) (mps : List (Tensor ℂ)) (v : QState N)
    (h : IsMPS mps v) : ∃ mps', g.single_TN_operation mps = .ok mps' ∧ IsMPS mps' (onQubit i m *ᵥ v) := by
  obtain ⟨t, t', e1, e2, e3, h'⟩ := site_ok hm h i
  refine ⟨_, ?_, h'⟩
  unfold Gate.single_TN_operation
  rw [guard_ok hn hw, Py.ok_bind, hw]
  show (do
    let t ← pyGet mps (wire i)
    pySet mps (wire i) (← Tensor.einsum_ab_bcd g.matrix t)) = _
  rw [e1, Py.ok_bind, e2, Py.ok_bind, e3]

/-! ## Two-qubit gates -/

/-- The chain of SWAPs, a gate on two neighbours, and the chain back. -/
theorem Theory.chain {G : Tensor ℂ} {M : QOp 2}
    (hG : Represents G M) (hU : IsUnitaryOp M) {a n : ℕ} (h : a + n + 1 < N) {lo hi : ℤ}
    (hlo : lo = a) (hhi : hi = ((a + n + 1 : ℕ) : ℤ)) :
    T.Act (fun mps => do
      let mps ← (pyRange2 lo (hi - 1)).foldlM (fun mps i => Gate.swapCall svd N i (i + 1) mps) mps
      let mps ← Gate.applyTwo svd G mps (hi - 1)
      (pyRangeDown (hi - 1) lo).foldlM (fun mps i => Gate.swapCall svd N (i - 1) i mps) mps)
      (embed ![(⟨a, by omega⟩ : Fin N), ⟨a + n + 1, h⟩] M) (2 * n + 1) := by
  subst hlo hhi
  have c1 : ((a + n + 1 : ℕ) : ℤ) - 1 = ((a + n : ℕ) : ℤ) := by push_cast; ring
  rw [c1]
  have h1 := T.up (F := fun (i : ℤ) mps => Gate.swapCall svd (N : ℤ) i (i + 1) mps)
    (fun i hi => T.swapCall' hi) (a := a) (n := n) (by omega) (lo := (a : ℤ)) rfl rfl
  have h2 := T.two hG hU (i := a + n)
    (f := ![(⟨a + n, by omega⟩ : Fin N), ⟨a + n + 1, h⟩]) (by intro j; fin_cases j <;> rfl)
  have h3 := T.down (F := fun (i : ℤ) mps => Gate.swapCall svd (N : ℤ) i (i + 1) mps)
    (fun i hi => T.swapCall' hi) (a := a) (n := n) (by omega) (lo := (a : ℤ)) rfl rfl
  refine T.cast (T.congr (T.comp h1 (T.comp h2 h3)) (fun mps => ?_)) ?_ (by omega)
  · simp only [sub_add_cancel]
  · rw [embed_conj]
    congr 1
    funext j
    fin_cases j
    · exact cyc_last _
    · exact cyc_fix (by simp)

theorem Theory.adjacent {G : Tensor ℂ} {M : QOp 2}
    (hG : Represents G M) (hU : IsUnitaryOp M) {a n : ℕ} (h : a + n + 1 < N) (hn : n = 0) {lo : ℤ}
    (hlo : lo = a) :
    T.Act (fun mps => Gate.applyTwo svd G mps lo)
      (embed ![(⟨a, by omega⟩ : Fin N), ⟨a + n + 1, h⟩] M) (2 * n + 1) := by
  subst hlo hn
  exact T.two hG hU (by intro j; fin_cases j <;> rfl)

theorem swapped_ctrl {g : Mat2} (hg : IsU2 g) : IsUnitaryOp (controlled [(1 : Fin 2)] 0 g) :=
  controlled_unitary hg (by decide)

theorem ctrl_u {g : Mat2} (hg : IsU2 g) : IsUnitaryOp (controlled [(0 : Fin 2)] 1 g) :=
  controlled_unitary hg (by decide)

theorem embed_ctrl {c t : Fin N} (h : c ≠ t) (g : Mat2) :
    embed ![c, t] (controlled [0] 1 g) = controlled [c] t g := embed_two_controlled h g

theorem embed_ctrl_rev {c t : Fin N} (h : c ≠ t) (g : Mat2) :
    embed ![t, c] (controlled [1] 0 g) = controlled [c] t g := by
  rw [embed_controlled (inj_two (Ne.symm h))]; rfl

/-- `ctrl_TN_operation` (cz, cphase, cu3). -/
theorem Theory.ctrl {g : Gate} {c t : Fin N} (h : c ≠ t) {m : Mat2}
    (hU : IsU2 m) (hn : g.nqubits = (N : ℤ)) (hw : g.wires = .list [wire c, wire t])
    (hm : Represents g.matrix (controlled [(0 : Fin 2)] 1 m)) {Grev : Py (Tensor ℂ)}
    (hr : ∃ G, Grev = .ok G ∧ Represents G (controlled [(1 : Fin 2)] 0 m)) :
    T.Act (g.ctrl_TN_operation svd Grev) (controlled [c] t m) (2 * gap c t - 1) := by
  obtain ⟨G, hG, rG⟩ := hr
  obtain ⟨a, n, h', hmin, hmax, hpq⟩ := minmax_wires h
  have hcost : 2 * n + 1 = 2 * gap c t - 1 := by rw [gap_eq hpq]; omega
  have w0 : pyGet [wire c, wire t] 0 = .ok (wire c) := rfl
  rcases hpq with ⟨rfl, rfl⟩ | ⟨rfl, rfl⟩
  · refine T.cast (T.congr (T.chain hm (ctrl_u hU) h' hmin hmax) (fun mps => ?_)) (embed_ctrl h m) hcost
    unfold Gate.ctrl_TN_operation
    rw [guard_list hn hw, TNM.lift_ok_bind, hw, asList_list, TNM.lift_ok_bind,
      raiseIf_false (by simp), TNM.lift_ok_bind, pyMin_pair, TNM.lift_ok_bind, pyMax_pair,
      TNM.lift_ok_bind, w0, TNM.lift_ok_bind, hn, if_pos (by rw [hmin])]
    rfl
  · refine T.cast (T.congr (T.chain rG (swapped_ctrl hU) h' hmin hmax) (fun mps => ?_))
      (embed_ctrl_rev h m) hcost
    unfold Gate.ctrl_TN_operation
    rw [guard_list hn hw, TNM.lift_ok_bind, hw, asList_list, TNM.lift_ok_bind,
      raiseIf_false (by simp), TNM.lift_ok_bind, pyMin_pair, TNM.lift_ok_bind, pyMax_pair,
      TNM.lift_ok_bind, w0, TNM.lift_ok_bind, hn, if_neg (by
        rw [hmin]; simp; omega), hG]
    rfl

theorem cnot_rev : ∃ G, (mkCnot 2 (.list [1, 0])).U_expand = .ok G ∧
    Represents G (controlled [(1 : Fin 2)] 0 Spec.X) :=
  ctrl_rep (N := 2) (g := mkCnot 2 (.list [1, 0])) (c := 1) (t := 0) (by decide) rfl rfl pauliXMat_rep

theorem Theory.cnot {g : Gate} {c t : Fin N} (h : c ≠ t)
    (hn : g.nqubits = (N : ℤ)) (hw : g.wires = .list [wire c, wire t]) :
    T.Act (g.cnot_TN_operation svd) (controlled [c] t Spec.X) (2 * gap c t - 1) := by
  obtain ⟨G, hG, rG⟩ := cnot_rev
  obtain ⟨a, n, h', hmin, hmax, hpq⟩ := minmax_wires h
  have hcost : 2 * n + 1 = 2 * gap c t - 1 := by rw [gap_eq hpq]; omega
  have w0 : pyGet [wire c, wire t] 0 = .ok (wire c) := rfl
  have hcond : (min (wire c) (wire t) + 1 = max (wire c) (wire t)) ↔ n = 0 := by
    rw [hmin, hmax]; push_cast; constructor <;> intro _ <;> omega
  rcases hpq with ⟨rfl, rfl⟩ | ⟨rfl, rfl⟩
  · have hup : (⟨a, by omega⟩ : Fin N).val = a := rfl
    by_cases hn0 : n = 0
    · refine T.cast (T.congr (T.adjacent cnotMat_rep (ctrl_u X_u2) h' hn0 hmin) (fun mps => ?_))
        (embed_ctrl h _) hcost
      unfold Gate.cnot_TN_operation
      rw [guard_list hn hw, TNM.lift_ok_bind, hw, asList_list, TNM.lift_ok_bind, pyMin_pair,
        TNM.lift_ok_bind, pyMax_pair, TNM.lift_ok_bind, w0, TNM.lift_ok_bind,
        if_pos (hcond.2 hn0), if_pos (by rw [hmin]), TNM.lift_ok_bind]
    · refine T.cast (T.congr (T.chain cnotMat_rep (ctrl_u X_u2) h' hmin hmax) (fun mps => ?_))
        (embed_ctrl h _) hcost
      unfold Gate.cnot_TN_operation
      rw [guard_list hn hw, TNM.lift_ok_bind, hw, asList_list, TNM.lift_ok_bind, pyMin_pair,
        TNM.lift_ok_bind, pyMax_pair, TNM.lift_ok_bind, w0, TNM.lift_ok_bind, hn,
        if_neg (fun e => hn0 (hcond.1 e)), if_pos (by rw [hmin])]
      rfl
  · by_cases hn0 : n = 0
    · refine T.cast (T.congr (T.adjacent rG (swapped_ctrl X_u2) h' hn0 hmin) (fun mps => ?_))
        (embed_ctrl_rev h _) hcost
      unfold Gate.cnot_TN_operation
      rw [guard_list hn hw, TNM.lift_ok_bind, hw, asList_list, TNM.lift_ok_bind, pyMin_pair,
        TNM.lift_ok_bind, pyMax_pair, TNM.lift_ok_bind, w0, TNM.lift_ok_bind,
        if_pos (hcond.2 hn0), if_neg (by rw [hmin]; simp; omega), hG, TNM.lift_ok_bind]
    · refine T.cast (T.congr (T.chain rG (swapped_ctrl X_u2) h' hmin hmax) (fun mps => ?_))
        (embed_ctrl_rev h _) hcost
      unfold Gate.cnot_TN_operation
      rw [guard_list hn hw, TNM.lift_ok_bind, hw, asList_list, TNM.lift_ok_bind, pyMin_pair,
        TNM.lift_ok_bind, pyMax_pair, TNM.lift_ok_bind, w0, TNM.lift_ok_bind, hn,
        if_neg (fun e => hn0 (hcond.1 e)), if_neg (by rw [hmin]; simp; omega), hG]
      rfl

/-! ## Toffoli -/

theorem cyc_disjoint {a n b m : ℕ} (h : a + n < b) : (cyc N a n).Disjoint (cyc N b m) := by
  intro x
  by_cases hx : (x : ℕ) ≤ a + n
  · exact Or.inr (cyc_fix (Or.inl (by omega)))
  · exact Or.inl (cyc_fix (Or.inr (by omega)))

theorem Theory.chain3 {G : Tensor ℂ} {M : QOp 3}
    (hG : Represents G M) (hU : IsUnitaryOp M) {a n m : ℕ} (h : a + n + 2 + m < N) {lo mid hi : ℤ}
    (hlo : lo = a) (hmid : mid = ((a + n + 1 : ℕ) : ℤ)) (hhi : hi = ((a + n + 2 + m : ℕ) : ℤ)) :
    T.Act (fun mps => do
      let mps ← (pyRange2 lo (mid - 1)).foldlM (fun mps i => Gate.swapCall svd N i (i + 1) mps) mps
      let mps ← (pyRangeDown hi (mid + 1)).foldlM
        (fun mps i => Gate.swapCall svd N (i - 1) i mps) mps
      let mps ← Gate.applyThree svd G mps mid
      let mps ← (pyRangeDown (mid - 1) lo).foldlM
        (fun mps i => Gate.swapCall svd N (i - 1) i mps) mps
      (pyRange2 (mid + 1) hi).foldlM (fun mps i => Gate.swapCall svd N i (i + 1) mps) mps)
      (embed ![(⟨a, by omega⟩ : Fin N), ⟨a + n + 1, by omega⟩, ⟨a + n + 2 + m, h⟩] M)
      (2 * (n + m) + 2) := by
  subst hlo hhi hmid
  have c1 : ((a + n + 1 : ℕ) : ℤ) - 1 = ((a + n : ℕ) : ℤ) := by push_cast; ring
  have c2 : ((a + n + 1 : ℕ) : ℤ) + 1 = ((a + n + 2 : ℕ) : ℤ) := by push_cast; ring
  rw [c1, c2]
  let F : ℤ → List (Tensor ℂ) → TNM (List (Tensor ℂ)) := fun i mps =>
    Gate.swapCall svd (N : ℤ) i (i + 1) mps
  have hF : ∀ i : ℕ, i + 1 < N → T.Act (F (i : ℤ)) (permOp (adj N i)) 1 :=
    fun i hi => T.swapCall' hi
  have h1 := T.up (F := F) hF (a := a) (n := n) (by omega) (lo := (a : ℤ)) rfl rfl
  have h2 := T.down (F := F) hF (a := a + n + 2) (n := m) (by omega) rfl rfl
  have h3 := T.three hG hU (i := a + n)
    (f := ![(⟨a + n, by omega⟩ : Fin N), ⟨a + n + 1, by omega⟩, ⟨a + n + 2, by omega⟩])
    (by intro j; fin_cases j <;> rfl)
  have h4 := T.down (F := F) hF (a := a) (n := n) (by omega) (lo := (a : ℤ)) rfl rfl
  have h5 := T.up (F := F) hF (a := a + n + 2) (n := m) (by omega) rfl rfl
  have hcomm := (cyc_disjoint (N := N) (a := a) (n := n) (b := a + n + 2) (m := m) (by omega)).commute
  refine T.cast (T.congr (T.comp h1 (T.comp h2 (T.comp h3 (T.comp h4 h5)))) (fun mps => ?_)) ?_ (by omega)
  · simp only [F, sub_add_cancel, ← Nat.cast_succ]
  · have e1 : permOp (cyc N a n * (cyc N (a + n + 2) m)⁻¹)⁻¹ =
        permOp (cyc N (a + n + 2) m) * permOp (cyc N a n)⁻¹ := by
      rw [permOp_mul, _root_.mul_inv_rev, inv_inv]
      congr 1
      exact (hcomm.inv_left.eq).symm
    have e2 : permOp (cyc N a n * (cyc N (a + n + 2) m)⁻¹) =
        permOp (cyc N (a + n + 2) m)⁻¹ * permOp (cyc N a n) := by
      rw [permOp_mul]
    have := embed_conj (cyc N a n * (cyc N (a + n + 2) m)⁻¹)
      ![(⟨a + n, by omega⟩ : Fin N), ⟨a + n + 1, by omega⟩, ⟨a + n + 2, by omega⟩] M
    rw [e1, e2] at this
    simp only [Matrix.mul_assoc] at this ⊢
    rw [this]
    congr 1
    funext j
    fin_cases j
    · show cyc N a n ((cyc N (a + n + 2) m)⁻¹ _) = _
      rw [cyc_inv_fix (by simp)]
      exact cyc_last _
    · show cyc N a n ((cyc N (a + n + 2) m)⁻¹ _) = _
      rw [cyc_inv_fix (by simp)]
      exact cyc_fix (by simp)
    · show cyc N a n ((cyc N (a + n + 2) m)⁻¹ ⟨a + n + 2, by omega⟩) = _
      rw [cyc_inv_first h]
      exact cyc_fix (by simp; omega)

theorem controlled_comm (p q r : Fin N) (g : Mat2) : controlled [p, q] r g = controlled [q, p] r g := by
  unfold controlled
  ext a b
  simp only [List.mem_cons, List.not_mem_nil, or_false, forall_eq_or_imp, forall_eq]
  simp only [and_comm]

theorem sort3 {x y z : ℤ} (h1 : x < y) (h2 : y < z) {l : List ℤ} (h : l.Perm [x, y, z]) :
    l.mergeSort (· ≤ ·) = [x, y, z] := by
  have hs : List.Pairwise (· ≤ ·) (l.mergeSort (· ≤ ·)) := by
    have := List.pairwise_mergeSort (le := fun a b : ℤ => decide (a ≤ b))
      (by intro a b c; simp; omega) (by intro a b; simp; omega) l
    simpa using this
  refine List.Perm.eq_of_pairwise (le := (· ≤ ·)) (fun a b _ _ h1 h2 => le_antisymm h1 h2) hs ?_
    ((List.mergeSort_perm l _).trans h)
  simp; omega

theorem toffoli_mid : ∃ G, (do (← mkToffoli 3 (.list [0, 2, 1])).U_expand : Py _) = .ok G ∧
    Represents G (controlled [(0 : Fin 3), 2] 1 Spec.X) := by
  obtain ⟨U, hU, hr⟩ := mc_rep (N := 3) (g := ⟨.toffoli, 3, .list [0, 2, 1], [], toffoliMat, noMat⟩)
    (cs := [0, 2]) (t := 1) (by simp) (by decide) rfl rfl
  exact ⟨U, hU, hr⟩

theorem toffoli_up : ∃ G, (do (← mkToffoli 3 (.list [1, 2, 0])).U_expand : Py _) = .ok G ∧
    Represents G (controlled [(1 : Fin 3), 2] 0 Spec.X) := by
  obtain ⟨U, hU, hr⟩ := mc_rep (N := 3) (g := ⟨.toffoli, 3, .list [1, 2, 0], [], toffoliMat, noMat⟩)
    (cs := [1, 2]) (t := 0) (by simp) (by decide) rfl rfl
  exact ⟨U, hU, hr⟩

/-- The sorted case with the position of the target as data. -/
theorem Theory.toffoli_aux {g : Gate} {p q r x y z : Fin N}
    (hxy : x < y) (hyz : y < z) (hperm : [wire p, wire q, wire r].Perm [wire x, wire y, wire z])
    (hn : g.nqubits = (N : ℤ)) (hw : g.wires = .list [wire p, wire q, wire r])
    {G : Tensor ℂ} {M : QOp 3} (hG : Gate.toffoliG (wire r) (wire y) (wire z) = .ok G)
    (rG : Represents G M) (hU : IsUnitaryOp M) :
    T.Act (g.toffoli_TN_operation svd) (embed ![x, y, z] M) (2 * ((z : ℕ) - x) - 2) := by
  have g2 : pyGet [wire p, wire q, wire r] 2 = .ok (wire r) := rfl
  have s0 : pyGet [wire x, wire y, wire z] 0 = .ok (wire x) := rfl
  have s1 : pyGet [wire x, wire y, wire z] 1 = .ok (wire y) := rfl
  have s2 : pyGet [wire x, wire y, wire z] 2 = .ok (wire z) := rfl
  have hs := sort3 (x := wire x) (y := wire y) (z := wire z) (by simpa [wire] using hxy)
    (by simpa [wire] using hyz) hperm
  have hx := x.isLt
  have hz := z.isLt
  have hxy' : (x : ℕ) < y := hxy
  have hyz' : (y : ℕ) < z := hyz
  have ey : y = (⟨x + (y - x - 1) + 1, by omega⟩ : Fin N) := Fin.ext (by simp; omega)
  have ez : z = (⟨x + (y - x - 1) + 2 + (z - y - 1), by omega⟩ : Fin N) := Fin.ext (by simp; omega)
  have h1 := T.chain3 rG hU (a := x) (n := y - x - 1) (m := z - y - 1) (by omega)
    (lo := wire x) (mid := wire y) (hi := wire z) rfl (by unfold wire; omega) (by unfold wire; omega)
  refine T.cast (T.congr h1 (fun mps => ?_)) ?_ (by omega)
  · unfold Gate.toffoli_TN_operation
    rw [guard_list hn hw, TNM.lift_ok_bind, hw, asList_list, TNM.lift_ok_bind, hs]
    show ((liftM (pyGet [wire x, wire y, wire z] 0) : TNM ℤ) >>= _) = _
    rw [s0, TNM.lift_ok_bind, s1, TNM.lift_ok_bind, s2, TNM.lift_ok_bind, hn]
    simp only [g2, TNM.lift_ok_bind, hG]
  · rw [← ey, ← ez]

theorem Theory.toffoli {g : Gate} {p q r : Fin N}
    (h1 : p ≠ q) (h2 : p ≠ r) (h3 : q ≠ r)
    (hn : g.nqubits = (N : ℤ)) (hw : g.wires = .list [wire p, wire q, wire r]) :
    T.Act (g.toffoli_TN_operation svd) (controlled [p, q] r Spec.X)
      (2 * (max (p : ℕ) (max (q : ℕ) r) - min (p : ℕ) (min (q : ℕ) r)) - 2) := by
  obtain ⟨Gm, em, rm⟩ := toffoli_mid
  obtain ⟨Gu, eu, ru⟩ := toffoli_up
  have um : IsUnitaryOp (controlled [(0 : Fin 3), 2] 1 Spec.X) := controlled_unitary X_u2 (by decide)
  have uu : IsUnitaryOp (controlled [(1 : Fin 3), 2] 0 Spec.X) := controlled_unitary X_u2 (by decide)
  have ud : IsUnitaryOp (controlled [(0 : Fin 3), 1] 2 Spec.X) := controlled_unitary X_u2 (by decide)
  have kd : ∀ {x y z : Fin N}, x < y → y < z → embed ![x, y, z] (controlled [0, 1] 2 Spec.X) =
      controlled [x, y] z Spec.X := by
    intro x y z a b
    rw [embed_controlled (inj_three a.ne (a.trans b).ne b.ne)]; rfl
  have km : ∀ {x y z : Fin N}, x < y → y < z → embed ![x, y, z] (controlled [0, 2] 1 Spec.X) =
      controlled [x, z] y Spec.X := by
    intro x y z a b
    rw [embed_controlled (inj_three a.ne (a.trans b).ne b.ne)]; rfl
  have ku : ∀ {x y z : Fin N}, x < y → y < z → embed ![x, y, z] (controlled [1, 2] 0 Spec.X) =
      controlled [y, z] x Spec.X := by
    intro x y z a b
    rw [embed_controlled (inj_three a.ne (a.trans b).ne b.ne)]; rfl
  have gd : ∀ {x y z : Fin N}, x < y → y < z →
      Gate.toffoliG (wire z) (wire y) (wire z) = .ok toffoliMat := by
    intro x y z a b
    unfold Gate.toffoliG; rw [if_pos rfl]
  have gm : ∀ {x y z : Fin N}, x < y → y < z → Gate.toffoliG (wire y) (wire y) (wire z) = .ok Gm := by
    intro x y z a b
    unfold Gate.toffoliG; rw [if_neg (wire_ne b.ne'), if_pos rfl, em]
  have gu : ∀ {x y z : Fin N}, x < y → y < z → Gate.toffoliG (wire x) (wire y) (wire z) = .ok Gu := by
    intro x y z a b
    unfold Gate.toffoliG; rw [if_neg (wire_ne (a.trans b).ne'), if_neg (wire_ne a.ne'), eu]
  have sw : ∀ (a b c : ℤ), [a, b, c].Perm [b, a, c] := fun a b c => List.Perm.swap _ _ _
  have sw2 : ∀ (a b c : ℤ), [a, b, c].Perm [a, c, b] := fun a b c => (List.Perm.swap _ _ _).cons _
  have lt : ∀ {x y : Fin N}, x < y → (x : ℕ) < y := fun h => h
  rcases lt_or_gt_of_ne h1 with a | a
  · rcases lt_or_gt_of_ne h3 with b | b
    · exact T.cast (T.toffoli_aux a b (List.Perm.refl _) hn hw (gd a b) toffoliMat_rep ud) (kd a b)
        (by have := lt a; have := lt b; omega)
    · rcases lt_or_gt_of_ne h2 with c | c
      · exact T.cast (T.toffoli_aux c b (sw2 _ _ _) hn hw (gm c b) rm um) (km c b)
          (by have := lt c; have := lt b; omega)
      · exact T.cast (T.toffoli_aux c a ((sw2 _ _ _).trans (sw _ _ _)) hn hw (gu c a) ru uu) (ku c a)
          (by have := lt c; have := lt a; omega)
  · rcases lt_or_gt_of_ne h2 with b | b
    · exact T.cast (T.toffoli_aux a b (sw _ _ _) hn hw (gd a b) toffoliMat_rep ud)
        ((kd a b).trans (controlled_comm _ _ _ _)) (by have := lt a; have := lt b; omega)
    · rcases lt_or_gt_of_ne h3 with c | c
      · exact T.cast (T.toffoli_aux c b ((sw _ _ _).trans (sw2 _ _ _)) hn hw (gm c b) rm um)
          ((km c b).trans (controlled_comm _ _ _ _)) (by have := lt c; have := lt b; omega)
      · exact T.cast (T.toffoli_aux c a (((sw _ _ _).trans (sw2 _ _ _)).trans (sw _ _ _)) hn hw
          (gu c a) ru uu) ((ku c a).trans (controlled_comm _ _ _ _))
          (by have := lt c; have := lt a; omega)

/-! ## Gates -/

/-- the gates with a `TN_operation` method -/
def Spec.Instr.mpsOp : Instr N → Prop
  | .rxx _ _ _ | .ryy _ _ _ | .rzz _ _ _ | .mcnot _ _ => False
  | _ => True

theorem Theory.single {g : Gate} (i : Fin N) {m : Mat2} (hU : IsU2 m)
    (hn : g.nqubits = (N : ℤ)) (hw : g.wires = .int (wire i)) (hm : Represents2 g.matrix m)
    (hc : ∀ mps, g.TN_operation svd mps = TNM.lift (g.single_TN_operation mps)) :
    T.Act (g.TN_operation svd) (onQubit i m) 0 := by
  refine T.congr (T.site i hm hU) (fun mps => ?_)
  rw [hc]
  congr 1
  unfold Gate.single_TN_operation
  rw [guard_ok hn hw, Py.ok_bind, hw]
  rfl

theorem Theory.gate (ins : Instr N) (h : ins.WF) (hc : Spec.Instr.mpsOp ins) :
    ∃ g, build ins = .ok g ∧ T.Act (g.TN_operation svd) ins.op ins.decomps := by
  cases ins with
  | h i => exact ⟨_, rfl, T.single i H_u2 rfl rfl hadamardMat_rep (fun _ => rfl)⟩
  | x i => exact ⟨_, rfl, T.single i X_u2 rfl rfl pauliXMat_rep (fun _ => rfl)⟩
  | y i => exact ⟨_, rfl, T.single i Y_u2 rfl rfl pauliYMat_rep (fun _ => rfl)⟩
  | z i => exact ⟨_, rfl, T.single i Z_u2 rfl rfl pauliZMat_rep (fun _ => rfl)⟩
  | rx θ i => exact ⟨_, rfl, T.single i (rot_u2 X_conj X_sq θ) rfl rfl (rotMat_rep pauliXMat_rep θ) (fun _ => rfl)⟩
  | ry θ i => exact ⟨_, rfl, T.single i (rot_u2 Y_conj Y_sq θ) rfl rfl (rotMat_rep pauliYMat_rep θ) (fun _ => rfl)⟩
  | rz θ i => exact ⟨_, rfl, T.single i (rot_u2 Z_conj Z_sq θ) rfl rfl (rotMat_rep pauliZMat_rep θ) (fun _ => rfl)⟩
  | u1 θ i => exact ⟨_, rfl, T.single i (phase_u2 θ) rfl rfl (u1Mat_rep θ) (fun _ => rfl)⟩
  | u3 θ φ l i =>
    obtain ⟨u, hu, hr⟩ := u3Mat_rep θ φ l
    refine ⟨⟨.u3, N, .int (wire i), [θ, φ, l], u, noMat⟩, ?_,
      T.single i (U3_u2 θ φ l) rfl rfl hr (fun _ => rfl)⟩
    simp only [build, mkU3, hu, Py.ok_bind]
  | rxx θ p q => exact hc.elim
  | ryy θ p q => exact hc.elim
  | rzz θ p q => exact hc.elim
  | cnot c t => exact ⟨_, rfl, T.cnot h rfl rfl⟩
  | cz c t =>
    refine ⟨_, rfl, T.ctrl (g := mkCz N (.list [wire c, wire t])) h Z_u2 rfl rfl czMat_rep ?_⟩
    exact ctrl_rep (N := 2) (g := mkCz 2 (.list [1, 0])) (c := 1) (t := 0) (by decide) rfl rfl
      pauliZMat_rep
  | cphase θ c t =>
    refine ⟨_, rfl, T.ctrl (g := mkCphase θ N (.list [wire c, wire t])) h (phase_u2 θ) rfl rfl
      ?_ ?_⟩
    · rw [show (mkCphase θ N (.list [wire c, wire t])).matrix = cphaseMatUpd θ from
        (cphaseMat_eq θ).symm]
      exact cphaseMatUpd_rep θ
    · obtain ⟨g, hg, hU⟩ := build_ok (N := 2) (.cphase θ 1 0) (show (1 : Fin 2) ≠ 0 by decide)
      cases hg
      exact hU
  | cu3 θ φ l c t =>
    obtain ⟨u, hu, hr⟩ := u3Mat_rep θ φ l
    obtain ⟨m, hm, rm⟩ := cu3_matrix hr
    refine ⟨⟨.cu3, N, .list [wire c, wire t], [θ, φ, l], m, u⟩, ?_,
      T.ctrl (g := ⟨.cu3, N, .list [wire c, wire t], [θ, φ, l], m, u⟩) h (U3_u2 θ φ l) rfl rfl rm ?_⟩
    · simp only [build, mkCu3, hu, Py.ok_bind, hm]
    · exact two_qubit_control_rep (N := 2) (c := 1) (t := 0) (by decide) hr
  | swap p q => exact ⟨_, rfl, T.swap_gate h rfl rfl rfl⟩
  | toffoli a b t => exact ⟨_, rfl, T.toffoli h.1 h.2.1 h.2.2 rfl rfl⟩
  | mcnot cs t => exact hc.elim

/-! ## Layers of single-qubit gates -/

theorem calGates_mps {wm : ℕ → Py (Tensor ℂ)} (ws : List (Fin N)) (hw : ws.Nodup) (m : ℕ → Mat2)
    (h : ∀ i < ws.length, ∃ t, wm i = .ok t ∧ Represents2 t (m i)) (mps : List (Tensor ℂ))
    (v : QState N) (hm : IsMPS mps v) :
    ∃ mps', SingleLayer.TN_operation (SingleLayer.calGates N (wires ws) wm) (wires ws) mps = .ok mps' ∧
      IsMPS mps' (onEach (fun j => if j ∈ ws then m (ws.idxOf j) else 1) *ᵥ v) := by
  obtain ⟨f, hf, hr⟩ := calGates_rep ws hw m h
  have hfold : ∀ (us : List (Fin N)) (mps : List (Tensor ℂ)) (v : QState N), IsMPS mps v →
      ∃ mps', (us.map (fun w => wire w)).foldlM (fun mps q => do
        pySet mps q (← Tensor.einsum_ab_bcd (← pyGet (List.ofFn f) q) (← pyGet mps q))) mps =
          (.ok mps' : Py _) ∧ IsMPS mps' (timeOrdered (us.map (fun w => onQubit w
            (if w ∈ ws then m (ws.idxOf w) else 1))) *ᵥ v) := by
    intro us
    induction us with
    | nil => intro mps v h; exact ⟨mps, rfl, by simpa using h⟩
    | cons w us ih =>
      intro mps v h
      obtain ⟨t, t', e1, e2, e3, h'⟩ := site_ok (hr w) h w
      obtain ⟨mps', e, hm'⟩ := ih _ _ h'
      refine ⟨mps', ?_, ?_⟩
      · rw [List.map_cons, List.foldlM_cons, pyGet_ofFn, Py.ok_bind]
        show (do
          let x ← pyGet mps ((w : ℕ) : ℤ)
          let y ← Tensor.einsum_ab_bcd (f w) x
          pySet mps ((w : ℕ) : ℤ) y) >>= _ = _
        rw [e1, Py.ok_bind, e2, Py.ok_bind, e3, Py.ok_bind, e]
      · rw [List.map_cons, timeOrdered_cons, ← Matrix.mulVec_mulVec]; exact hm'
  obtain ⟨mps', e, hm'⟩ := hfold ws mps v hm
  refine ⟨mps', ?_, ?_⟩
  · unfold SingleLayer.TN_operation
    rw [hf, Py.ok_bind]
    exact e
  · rw [timeOrdered_onQubit ws hw] at hm'
    have e : (fun j => if j ∈ ws then (if j ∈ ws then m (ws.idxOf j) else 1) else 1) =
        (fun j => if j ∈ ws then m (ws.idxOf j) else 1) := by
      funext j; by_cases hj : j ∈ ws <;> simp [hj]
    rwa [e] at hm'

theorem sLayer_mps (l : SLayer) (hn : l.nqubits = N) (ws : List (Fin N)) (hw : ws.Nodup)
    (hl : l.wires = wires ws) (m : ℕ → Mat2)
    (h : ∀ i < ws.length, ∃ t, l.wireMat i = .ok t ∧ Represents2 t (m i)) (mps : List (Tensor ℂ))
    (v : QState N) (hm : IsMPS mps v) :
    ∃ mps', l.TN_operation mps = .ok mps' ∧
      IsMPS mps' (onEach (fun j => if j ∈ ws then m (ws.idxOf j) else 1) *ᵥ v) := by
  have := calGates_mps ws hw m h mps v hm
  rw [← hn, ← hl] at this
  exact this

theorem TNM.lift_bind {α β : Type} (x : Py α) (f : α → Py β) :
    (TNM.lift (x >>= f)) = (TNM.lift x >>= fun a => TNM.lift (f a)) := by
  cases x <;> rfl

theorem TNM.lift_foldlM {α β : Type} (F : β → α → Py β) (l : List α) (b : β) :
    TNM.lift (l.foldlM F b) = l.foldlM (fun b a => TNM.lift (F b a)) b := by
  induction l generalizing b with
  | nil => rfl
  | cons a l ih =>
    rw [List.foldlM_cons, List.foldlM_cons, TNM.lift_bind]
    simp only [ih]

theorem Theory.calGates {wm : ℕ → Py (Tensor ℂ)} (ws : List (Fin N)) (hw : ws.Nodup) (m : ℕ → Mat2)
    (h : ∀ i < ws.length, ∃ t, wm i = .ok t ∧ Represents2 t (m i)) (hU : ∀ i < ws.length, IsU2 (m i)) :
    T.Act (fun mps => TNM.lift
      (SingleLayer.TN_operation (SingleLayer.calGates N (wires ws) wm) (wires ws) mps))
      (onEach (fun j => if j ∈ ws then m (ws.idxOf j) else 1)) 0 := by
  obtain ⟨f, hf, hr⟩ := calGates_rep ws hw m h
  have h1 := T.foldlM (fun w : Fin N => fun mps => TNM.lift (siteStep (f w) ((w : ℕ) : ℤ) mps))
    (fun w => onQubit w (if w ∈ ws then m (ws.idxOf w) else 1)) (fun _ => 0) ws (fun w hm =>
      T.site w (hr w) (by rw [if_pos hm]; exact hU _ (List.idxOf_lt_length_of_mem hm)))
  refine T.cast (T.congr h1 (fun mps => ?_)) ?_ (by simp)
  · unfold SingleLayer.TN_operation
    rw [hf, Py.ok_bind, TNM.lift_foldlM]
    unfold wires
    rw [List.foldlM_map]
    congr 1
    funext mps w
    congr 1
    rw [pyGet_ofFn, Py.ok_bind]
    rfl
  · rw [timeOrdered_onQubit ws hw]
    congr 1
    funext j; by_cases hj : j ∈ ws <;> simp [hj]

theorem Theory.sLayer (l : SLayer) (hn : l.nqubits = N) (ws : List (Fin N)) (hw : ws.Nodup)
    (hl : l.wires = wires ws) (m : ℕ → Mat2)
    (h : ∀ i < ws.length, ∃ t, l.wireMat i = .ok t ∧ Represents2 t (m i))
    (hU : ∀ i < ws.length, IsU2 (m i)) :
    T.Act (fun mps => TNM.lift (l.TN_operation mps))
      (onEach (fun j => if j ∈ ws then m (ws.idxOf j) else 1)) 0 := by
  have := T.calGates ws hw m h hU
  rw [← hn, ← hl] at this
  exact this

/-! ## Rings -/

theorem Theory.cnotCall {c t : Fin N} (h : c ≠ t) :
    T.Act (Ring.cnotCall svd N (wire c) (wire t)) (controlled [c] t Spec.X) (2 * gap c t - 1) :=
  T.cnot (g := mkCnot N (.list [wire c, wire t])) h rfl rfl

/-- The CNOT between neighbours `i`, `i+1`, as an operator. -/
noncomputable def nextCnot (N i : ℕ) : QOp N :=
  if h : i + 1 < N then controlled [(⟨i, by omega⟩ : Fin N)] ⟨i + 1, h⟩ Spec.X else 1

theorem Theory.nextCnotCall {i : ℕ} (h : i + 1 < N) :
    T.Act (fun mps => Ring.cnotCall svd (N : ℤ) (i : ℤ) ((i : ℤ) + 1) mps) (nextCnot N i) 1 := by
  have hne : (⟨i, by omega⟩ : Fin N) ≠ ⟨i + 1, h⟩ := by simp
  have := T.cast (T.cnotCall hne) rfl (show 2 * gap _ _ - 1 = 1 by simp [gap])
  unfold nextCnot
  rw [dif_pos h]
  have e : wire (⟨i + 1, h⟩ : Fin N) = (i : ℤ) + 1 := by unfold wire; push_cast; rfl
  rw [e] at this
  exact this

theorem Theory.wrap {n : ℕ} (hn : N = n + 2) (h1 : 1 ≤ n) :
    T.Act (Ring.wrapCnot svd (N : ℤ) (N : ℤ))
      (controlled [(⟨n + 1, by omega⟩ : Fin N)] ⟨0, by omega⟩ Spec.X) (2 * n + 1) := by
  subst hn
  have hne : (⟨n + 1, by omega⟩ : Fin (n + 2)) ≠ ⟨n, by omega⟩ := by simp
  have hup := T.foldlM_one
    (fun k : ℕ => if ((k : ℕ) : ℤ) ≠ ((n + 2 : ℕ) : ℤ) - 2
      then Ring.swapCall' svd ((n + 2 : ℕ) : ℤ) (k : ℤ) ((k : ℤ) + 1)
      else Ring.cnotCall svd ((n + 2 : ℕ) : ℤ) ((k : ℤ) + 1) (k : ℤ))
    (fun k => if k ≠ n then permOp (adj (n + 2) (0 + k)) else
      controlled [(⟨n + 1, by omega⟩ : Fin (n + 2))] ⟨n, by omega⟩ Spec.X) (List.range (n + 1)) (by
      intro k hk
      have hk := List.mem_range.1 hk
      by_cases hkn : k = n
      · subst hkn
        rw [if_neg (by omega), if_neg (by simp)]
        have := T.cast (T.cnotCall hne) rfl (show 2 * gap _ _ - 1 = 1 by simp [gap])
        have e : wire (⟨k + 1, by omega⟩ : Fin (k + 2)) = (k : ℤ) + 1 := by unfold wire; push_cast; rfl
        rw [e] at this
        exact this
      · rw [if_pos (by omega), if_pos hkn, Nat.zero_add]
        exact T.swapCall (by omega))
  have hdown := T.foldlM_one
    (fun k : ℕ => Ring.swapCall' svd ((n + 2 : ℕ) : ℤ) (((n + 2 : ℕ) : ℤ) - 3 - (k : ℤ))
      (((n + 2 : ℕ) : ℤ) - 3 - (k : ℤ) + 1))
    (fun k => permOp (adj (n + 2) (0 + (n - 1 - k)))) (List.range n) (by
      intro k hk
      have hk := List.mem_range.1 hk
      have := T.swapCall (i := n - 1 - k) (by omega)
      rw [show ((n - 1 - k : ℕ) : ℤ) = ((n + 2 : ℕ) : ℤ) - 3 - (k : ℤ) by omega] at this
      rw [Nat.zero_add]
      exact this)
  rw [timeOrdered_permOp (List.range n) (fun k => adj (n + 2) (0 + (n - 1 - k))), cyc_inv] at hdown
  have e1 : (List.range (n + 1)).map (fun k => if k ≠ n then permOp (adj (n + 2) (0 + k)) else
      controlled [(⟨n + 1, by omega⟩ : Fin (n + 2))] ⟨n, by omega⟩ Spec.X) =
      (List.range n).map (fun k => permOp (adj (n + 2) (0 + k))) ++
        [controlled [(⟨n + 1, by omega⟩ : Fin (n + 2))] ⟨n, by omega⟩ Spec.X] := by
    rw [List.range_succ, List.map_append]
    congr 1
    · apply List.map_congr_left
      intro k hk
      have hk := List.mem_range.1 hk
      rw [if_pos (by omega)]
    · simp
  rw [e1, timeOrdered_append, timeOrdered_singleton,
    timeOrdered_permOp (List.range n) (fun k => adj (n + 2) (0 + k))] at hup
  refine T.cast (T.congr (T.comp hup hdown) (fun mps => ?_)) ?_ (by simp; omega)
  · unfold Ring.wrapCnot pyRange pyRangeDown
    rw [show (((n + 2 : ℕ) : ℤ) - 1).toNat = n + 1 by omega,
      show (((n + 2 : ℕ) : ℤ) - 3 - (-1)).toNat = n by omega]
    simp only [List.foldlM_map]
    congr 2
    funext mps k
    split <;> rfl
  · have h2 : ((List.range n).map (fun k => adj (n + 2) (0 + k))).prod = cyc (n + 2) 0 n := rfl
    rw [h2, ← embed_two_controlled hne, ← Matrix.mul_assoc, embed_conj,
      ← embed_two_controlled (c := (⟨n + 1, by omega⟩ : Fin (n + 2))) (t := ⟨0, by omega⟩) (by simp)]
    congr 1
    funext j
    fin_cases j
    · exact cyc_fix (by simp)
    · show cyc (n + 2) 0 n ⟨n, by omega⟩ = ⟨0, by omega⟩
      have := cyc_last (N := n + 2) (a := 0) (n := n) (by omega)
      simpa using this

theorem finRange_gates (h : 0 < N) : ringGates 1 (List.finRange N) =
    (List.range N).map (fun i : ℕ => if hi : i < N then
      controlled [(⟨i, hi⟩ : Fin N)] ⟨(i + 1) % N, Nat.mod_lt _ h⟩ Spec.X else 1) := by
  rw [ringGates_eq_map _ _ (by simpa using h)]
  simp

theorem finRange_gates' {n : ℕ} (hn : N = n + 2) : ringGates 1 (List.finRange N) =
    (List.range (n + 1)).map (nextCnot N) ++
      [controlled [(⟨n + 1, by omega⟩ : Fin N)] ⟨0, by omega⟩ Spec.X] := by
  subst hn
  rw [finRange_gates (by omega), List.range_succ, List.map_append]
  congr 1
  · apply List.map_congr_left
    intro i hi
    have hi := List.mem_range.1 hi
    unfold nextCnot
    rw [dif_pos (by omega), dif_pos (by omega)]
    congr 1
    exact Fin.ext (Nat.mod_eq_of_lt (by omega))
  · simp

theorem Theory.ring (k : RingKind) (hk : k ≠ .ring2) (h2 : 2 ≤ N) :
    T.Act ((⟨k, N, wires (List.finRange N)⟩ : Ring).TN_operation svd)
      (ringKindOp k (List.finRange N)) (if N = 2 then 1 else 3 * N - 4) := by
  have hlen : (wires (List.finRange N)).length = N := by simp [wires]
  have hlen2 : (((wires (List.finRange N)).length : ℕ) : ℤ) = (N : ℤ) := by rw [hlen]
  have hw : ¬ (wires (List.finRange N) ≠ pyRange (N : ℤ)) := by rw [wires_finRange]; simp
  have hfor := T.foldlM_one (fun i : ℕ => Ring.cnotCall svd (N : ℤ) (i : ℤ) ((i : ℤ) + 1))
    (nextCnot N) (List.range (N - 1)) (fun i hi => T.nextCnotCall (by
      have := List.mem_range.1 hi; omega))
  have hbwd := T.foldlM_one
    (fun i : ℕ => Ring.cnotCall svd (N : ℤ) ((N : ℤ) - 2 - (i : ℤ)) ((N : ℤ) - 2 - (i : ℤ) + 1))
    (fun i => nextCnot N (N - 2 - i)) (List.range (N - 1)) (fun i hi => by
      have hi := List.mem_range.1 hi
      have := T.nextCnotCall (i := N - 2 - i) (by omega)
      rw [show ((N - 2 - i : ℕ) : ℤ) = (N : ℤ) - 2 - (i : ℤ) by omega] at this
      exact this)
  by_cases hN : N = 2
  · subst hN
    have hop : ringKindOp k (List.finRange 2) = controlled [0] 1 Spec.X := by
      cases k <;> rfl
    have hc := T.cnotCall (c := 0) (t := 1) (by decide)
    rw [hop]
    refine T.cast (T.congr hc (fun mps => ?_)) rfl (by simp [gap])
    cases k
    · unfold Ring.TN_operation
      dsimp only
      rw [raiseIf_false hw, TNM.lift_ok_bind, hlen2]
      have h2 : ((2 : ℕ) : ℤ) = 2 := rfl
      simp only [if_pos h2, TNM.bind_pure]
      exact TNM.bind_pure (Ring.cnotCall svd 2 0 1 mps)
    · unfold Ring.TN_operation
      dsimp only
      rw [raiseIf_false hw, TNM.lift_ok_bind, if_pos (by norm_num)]
      rfl
    · exact absurd rfl hk
  · obtain ⟨n, rfl⟩ : ∃ n, N = n + 2 := ⟨N - 2, by omega⟩
    have hl : (List.finRange (n + 2)).length ≠ 2 := by simpa using hN
    have hNz : ((n + 2 : ℕ) : ℤ) ≠ 2 := by omega
    have hwrap := T.wrap rfl (by omega)
    rw [show n + 2 - 1 = n + 1 by omega] at hfor hbwd
    cases k
    · simp only [ringKindOp, ringOp_of_ne hl]
      refine T.cast (T.congr (T.comp hfor hwrap) (fun mps => ?_)) ?_
        (by rw [if_neg hN, List.length_range]; omega)
      · unfold Ring.TN_operation
        dsimp only
        rw [raiseIf_false hw, TNM.lift_ok_bind, hlen2]
        simp only [if_neg hNz]
        unfold pyRange
        rw [show (((n + 2 : ℕ) : ℤ) - 1).toNat = n + 1 by omega, List.foldlM_map]
      · rw [finRange_gates' rfl, timeOrdered_append, timeOrdered_singleton]
    · simp only [ringKindOp, ringDagOp_of_ne hl]
      refine T.cast (T.congr (T.comp hwrap hbwd) (fun mps => ?_)) ?_
        (by rw [if_neg hN, List.length_range]; omega)
      · unfold Ring.TN_operation
        dsimp only
        rw [raiseIf_false hw, TNM.lift_ok_bind, if_neg hNz, hlen2]
        unfold pyRangeDown
        rw [show (((n + 2 : ℕ) : ℤ) - 2 - (-1)).toNat = n + 1 by omega]
        simp only [List.foldlM_map]
      · rw [finRange_gates' rfl, List.reverse_append, timeOrdered_append, List.reverse_singleton,
          timeOrdered_singleton, ← List.map_reverse]
        congr 2
        apply List.ext_getElem
        · simp
        · intro i h1 h2
          simp only [List.getElem_map, List.getElem_reverse, List.getElem_range, List.length_range]
          congr 1
    · exact absurd rfl hk

/-! ## Items and circuits -/

/-- the items with a working `TN_operation` -/
def Spec.Item.mpsOp : Item N → Prop
  | .gate ins => Spec.Instr.mpsOp ins
  | .layer _ _ _ | .hlayer _ => True
  | .ring ws | .ringDag ws => ws = List.finRange N
  | .ring2 _ | .basic _ _ _ => False

theorem Theory.item (it : Item N) (h : it.WF)
    (hc : Spec.Item.mpsOp it) :
    ∃ o, buildItem it = .ok o ∧ o.supportTN = true ∧
      T.Act (o.TN_operation svd) it.op it.decomps := by
  cases it with
  | gate ins =>
    obtain ⟨g, hg, rg⟩ := T.gate ins h hc
    refine ⟨.gate g, by simp [buildItem, hg], ?_, rg⟩
    exact build_supportTN hg (by cases ins <;> trivial)
  | layer k ws p =>
    obtain ⟨hN, hw, hp⟩ := h
    exact ⟨.single ⟨layerCls k, N, wires ws, p⟩, by
      simp only [buildItem]
      rw [mkSLayer_ok hw (by rw [layerCls_arity]; exact hp.symm)]
      rfl, rfl, T.sLayer _ rfl ws hw rfl (fun i => seqRot k.axes (p.drop (k.axes.length * i)))
        (fun _ hi => wireMat_rep k hi hp) (fun _ _ => seqRot_u2 _ (axes_axis k) _)⟩
  | hlayer ws =>
    obtain ⟨hN, hw⟩ := h
    exact ⟨.single ⟨.h, N, wires ws, []⟩, by
      simp only [buildItem]
      rw [mkSLayer_ok hw (by simp [LayerCls.arity])]
      rfl, rfl, T.sLayer _ rfl ws hw rfl (fun _ => H) (fun _ _ => ⟨_, rfl, hadamardMat_rep⟩)
        (fun _ _ => H_u2)⟩
  | ring ws =>
    obtain ⟨hw, h2⟩ := h
    have hc' : ws = List.finRange N := hc
    subst hc'
    exact ⟨.ring ⟨.ring, N, wires (List.finRange N)⟩, by
      simp only [buildItem]; rw [mkRing_ok hw h2]; rfl, rfl,
      T.ring .ring (by simp) (by simpa using h2)⟩
  | ringDag ws =>
    obtain ⟨hw, h2⟩ := h
    have hc' : ws = List.finRange N := hc
    subst hc'
    exact ⟨.ring ⟨.dagger, N, wires (List.finRange N)⟩, by
      simp only [buildItem]; rw [mkRing_ok hw h2]; rfl, rfl,
      T.ring .dagger (by simp) (by simpa using h2)⟩
  | ring2 ws => exact hc.elim
  | basic ws p reps => exact hc.elim

/-! ## The exact theory -/

theorem acts_toffoli {svd : SVDOracle} (hv : ValidSVD svd) {g : Gate} {p q r : Fin N}
    (h1 : p ≠ q) (h2 : p ≠ r) (h3 : q ≠ r)
    (hn : g.nqubits = (N : ℤ)) (hw : g.wires = .list [wire p, wire q, wire r]) :
    Acts (g.toffoli_TN_operation svd) (controlled [p, q] r Spec.X) :=
  (exactTheory N hv).toffoli h1 h2 h3 hn hw

theorem gate_mps {svd : SVDOracle} (hv : ValidSVD svd) (ins : Instr N) (h : ins.WF)
    (hc : Spec.Instr.mpsOp ins) :
    ∃ g, build ins = .ok g ∧ Acts (g.TN_operation svd) ins.op := (exactTheory N hv).gate ins h hc

theorem item_mps {svd : SVDOracle} (hv : ValidSVD svd) (it : Item N) (h : it.WF)
    (hc : Spec.Item.mpsOp it) :
    ∃ o, buildItem it = .ok o ∧ o.supportTN = true ∧ Acts (o.TN_operation svd) it.op :=
  (exactTheory N hv).item it h hc

end QTN
