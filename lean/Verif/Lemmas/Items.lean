import Verif.Lemmas.Rings

/-! # Items: gates and layers -/

namespace QTN

open Finset Spec Complex

variable {N : ℕ}

/-! ## BasicEntangleLayer -/

theorem seqRot_take (axes : List Mat2) (p : List ℝ) (n : ℕ) (h : axes.length ≤ n) :
    seqRot axes (p.take n) = seqRot axes p := by
  induction axes generalizing p n with
  | nil => simp [seqRot]
  | cons a axes ih =>
    cases n with
    | zero => simp at h
    | succ n =>
      cases p with
      | nil => simp
      | cons x p =>
        simp only [List.take_succ_cons, seqRot]
        rw [ih p n (by simpa using h)]

/-- a layer only reads its own block of parameters -/
theorem layerOp_take (axes : List Mat2) (ws : List (Fin N)) (p : List ℝ) :
    layerOp axes ws (p.take (axes.length * ws.length)) = layerOp axes ws p := by
  unfold layerOp
  congr 1
  funext j
  by_cases hj : j ∈ ws
  · rw [if_pos hj, if_pos hj, List.drop_take]
    apply seqRot_take
    have := List.idxOf_lt_length_of_mem hj
    rw [← Nat.mul_sub]
    exact Nat.le_mul_of_pos_right _ (by omega)
  · rw [if_neg hj, if_neg hj]

/-- the blocks of a parameter list -/
noncomputable def block (p : List ℝ) (L i : ℕ) : List ℝ := (p.drop (i * (3 * L))).take (3 * L)

theorem block_length {p : List ℝ} {L reps i : ℕ} (hi : i < reps) (hp : 3 * L * reps ≤ p.length) :
    (block p L i).length = 3 * L := by
  have h1 : (i + 1) * (3 * L) ≤ p.length := by
    calc (i + 1) * (3 * L) ≤ reps * (3 * L) := Nat.mul_le_mul_right _ hi
      _ = 3 * L * reps := by ring
      _ ≤ _ := hp
  simp only [block, List.length_take, List.length_drop]
  rw [Nat.add_mul, Nat.one_mul] at h1
  omega

theorem mapM_ok {α β : Type} (l : List α) (f : α → Py β) (g : α → β) (h : ∀ a ∈ l, f a = .ok (g a)) :
    l.mapM f = .ok (l.map g) := by
  induction l with
  | nil => rfl
  | cons a l ih =>
    rw [List.mapM_cons, h a (by simp), ih (fun b hb => h b (by simp [hb]))]
    rfl

theorem basicParts_ok {ws : List (Fin N)} {p : List ℝ} {reps : ℕ} (hw : ws.Nodup)
    (h2 : 2 ≤ ws.length) (hp : 3 * ws.length * reps ≤ p.length) :
    basicParts N (wires ws) p reps = .ok
      ((List.range reps).map (fun i => (⟨.yzy, N, wires ws, block p ws.length i⟩ : SLayer)),
       (List.range reps).map (fun _ => (⟨.ring, N, wires ws⟩ : Ring))) := by
  unfold basicParts
  rw [Int.toNat_natCast, mapM_ok _ _ (fun i => (⟨.yzy, N, wires ws, block p ws.length i⟩ : SLayer)),
    Py.ok_bind, mapM_ok _ _ (fun _ => (⟨.ring, N, wires ws⟩ : Ring)), Py.ok_bind]
  · intro i _
    exact mkRing_ok hw h2
  · intro i hi
    have e : (wires ws).length = ws.length := by simp
    rw [e]
    exact mkSLayer_ok hw (block_length (List.mem_range.1 hi) hp).symm

/-- the object built by the `BasicEntangleLayer` constructor -/
noncomputable def basicObj (N : ℕ) (ws : List (Fin N)) (p : List ℝ) (pyList : Bool) (reps : ℕ) :
    Basic :=
  ⟨N, wires ws, p, pyList, reps,
    (List.range reps).map (fun i => (⟨.yzy, N, wires ws, block p ws.length i⟩ : SLayer)),
    (List.range reps).map (fun _ => (⟨.ring, N, wires ws⟩ : Ring))⟩

theorem mkBasic_ok {ws : List (Fin N)} {p : List ℝ} {reps : ℕ} {b : Bool} (hw : ws.Nodup)
    (h2 : 2 ≤ ws.length) (hr : 1 ≤ reps) (hp : p.length = 3 * ws.length * reps) :
    mkBasic N (wires ws) p b reps = .ok (basicObj N ws p b reps) := by
  have := nodup_length_le hw
  unfold mkBasic
  have e : (wires ws).length = ws.length := by simp
  rw [raiseIf_false (by rw [e, hp]; push_cast; simp), Py.ok_bind,
    raiseIf_false (by rw [e]; simp; omega), Py.ok_bind, raiseIf_false (by rw [e]; simp; omega),
    Py.ok_bind, raiseIf_false (by simp; omega), Py.ok_bind, basicParts_ok hw h2 hp.ge, Py.ok_bind]
  rfl

theorem basic_rep {ws : List (Fin N)} {p : List ℝ} {reps : ℕ} {b : Bool} (hw : ws.Nodup)
    (h2 : 2 ≤ ws.length) (hr : 1 ≤ reps) (hp : 3 * ws.length * reps ≤ p.length) :
    Computes (basicObj N ws p b reps).U_expand (basicOp ws p reps) := by
  have hN : 0 < N := by have := nodup_length_le hw; omega
  obtain ⟨R, hR, rR⟩ := ring_rep .ring ws hw h2
  have hf : ∀ i ∈ List.range reps, Computes (do
      let u ← (← pyGet (basicObj N ws p b reps).part1 ((i : ℕ) : ℤ)).U_expand
      R.matmul u) (ringOp 1 ws * layerOp [Y, Z, Y] ws (p.drop (i * (3 * ws.length)))) := by
    intro i hi
    have hi' := List.mem_range.1 hi
    have hg : pyGet (basicObj N ws p b reps).part1 ((i : ℕ) : ℤ) =
        .ok ⟨.yzy, N, wires ws, block p ws.length i⟩ := by
      rw [pyGet_nat (by simpa [basicObj] using hi')]
      simp [basicObj]
    obtain ⟨u, hu, ru⟩ := layer_rep .yzy ws (block p ws.length i) hN hw
      (block_length hi' hp)
    rw [block, show 3 * ws.length = (LayerKind.yzy.axes).length * ws.length from rfl,
      layerOp_take] at ru
    obtain ⟨v, hv, rv⟩ := rR.matmul ru
    refine ⟨v, ?_, rv⟩
    rw [hg, Py.ok_bind]
    have hu' : (⟨.yzy, N, wires ws, block p ws.length i⟩ : SLayer).U_expand = .ok u := hu
    rw [hu', Py.ok_bind, hv]
  obtain ⟨r, hr', rr⟩ := foldlM_left _ _ _ hf _ _ (represents_eye (N := N))
  refine ⟨r, ?_, ?_⟩
  · rw [← hr']
    unfold Basic.U_expand
    have h0 : pyGet (basicObj N ws p b reps).part2 0 = .ok ⟨.ring, N, wires ws⟩ := by
      have := pyGet_nat (l := (basicObj N ws p b reps).part2) (k := 0) (by simp [basicObj]; omega)
      rw [show ((0 : ℕ) : ℤ) = 0 from rfl] at this
      rw [this]
      simp [basicObj]
    rw [h0, Py.ok_bind, hR, Py.ok_bind]
    simp [basicObj, bind_assoc]
  · rw [foldl_left_timeOrdered] at rr
    exact rr

theorem basicOp_unitary {ws : List (Fin N)} {p : List ℝ} {reps : ℕ} (hw : ws.Nodup)
    (h2 : 2 ≤ ws.length) : IsUnitaryOp (basicOp ws p reps) := by
  apply timeOrdered_unitary
  intro u hu
  obtain ⟨r, _, rfl⟩ := List.mem_map.1 hu
  exact (ringKindOp_unitary .ring hw h2).mul (layerOp_unitary _ (axes_axis .yzy) ws _)

/-! ## Building an item -/

theorem item_ok (it : Item N) (h : it.WF) : ∃ o, buildItem it = .ok o ∧ Computes o.U_expand it.op := by
  cases it with
  | gate ins =>
    obtain ⟨g, hg, rg⟩ := build_ok ins h
    exact ⟨.gate g, by simp [buildItem, hg], rg⟩
  | layer k ws p =>
    obtain ⟨hN, hw, hp⟩ := h
    exact ⟨.single ⟨layerCls k, N, wires ws, p⟩, by
      simp only [buildItem]
      rw [mkSLayer_ok hw (by rw [layerCls_arity]; exact hp.symm)]
      rfl, layer_rep k ws p hN hw hp⟩
  | hlayer ws =>
    obtain ⟨hN, hw⟩ := h
    exact ⟨.single ⟨.h, N, wires ws, []⟩, by
      simp only [buildItem]
      rw [mkSLayer_ok hw (by simp [LayerCls.arity])]
      rfl, hlayer_rep ws hN hw⟩
  | ring ws =>
    obtain ⟨hw, h2⟩ := h
    exact ⟨.ring ⟨.ring, N, wires ws⟩, by simp only [buildItem]; rw [mkRing_ok hw h2]; rfl,
      ring_rep .ring ws hw h2⟩
  | ringDag ws =>
    obtain ⟨hw, h2⟩ := h
    exact ⟨.ring ⟨.dagger, N, wires ws⟩, by simp only [buildItem]; rw [mkRing_ok hw h2]; rfl,
      ring_rep .dagger ws hw h2⟩
  | ring2 ws =>
    obtain ⟨hw, h2⟩ := h
    exact ⟨.ring ⟨.ring2, N, wires ws⟩, by simp only [buildItem]; rw [mkRing_ok hw h2]; rfl,
      ring_rep .ring2 ws hw h2⟩
  | basic ws p reps =>
    obtain ⟨hw, h2, hr, hp⟩ := h
    exact ⟨.basic (basicObj N ws p false reps), by
      simp only [buildItem]; rw [mkBasic_ok hw h2 hr hp]; rfl, basic_rep hw h2 hr hp.ge⟩

theorem item_unitary (it : Item N) (h : it.WF) : IsUnitaryOp it.op := by
  cases it with
  | gate ins => exact instr_unitary ins h
  | layer k ws p => exact layerOp_unitary _ (axes_axis k) ws p
  | hlayer ws => exact hOp_unitary ws
  | ring ws => exact ringKindOp_unitary .ring h.1 h.2
  | ringDag ws => exact ringKindOp_unitary .dagger h.1 h.2
  | ring2 ws => exact ringKindOp_unitary .ring2 h.1 h.2
  | basic ws p reps => exact basicOp_unitary h.1 h.2.1

theorem circuitOp_unitary (l : List (Item N)) (h : ∀ it ∈ l, it.WF) : IsUnitaryOp (circuitOp l) := by
  apply timeOrdered_unitary
  intro u hu
  obtain ⟨it, hit, rfl⟩ := List.mem_map.1 hu
  exact item_unitary it (h it hit)

/-! ## Adjoint of a rotation layer -/

theorem getD_set {p : List ℝ} {a : ℕ} (ha : a < p.length) (x : ℝ) (j : ℕ) :
    (p.set a x).getD j 0 = if j = a then x else p.getD j 0 := by
  simp only [List.getD_eq_getElem?_getD, List.getElem?_set]
  by_cases h : a = j
  · subst h; simp [ha]
  · have h' : ¬ j = a := fun e => h e.symm
    simp [h, h']

theorem swapEntries_ok {p : List ℝ} {a b : ℕ} (ha : a < p.length) (hb : b < p.length) :
    ∃ q, SLayer.swapEntries p a b = .ok q ∧ q.length = p.length ∧
      ∀ j, q.getD j 0 = if j = a then p.getD b 0 else if j = b then p.getD a 0 else p.getD j 0 := by
  refine ⟨(p.set a (p[b])).set b (p[a]), ?_, by simp, ?_⟩
  · unfold SLayer.swapEntries
    rw [pyGet_nat ha, Py.ok_bind, pyGet_nat hb, Py.ok_bind, pySet_nat ha, Py.ok_bind,
      pySet_nat (by simpa using hb)]
  · intro j
    rw [getD_set (by simpa using hb), getD_set ha]
    have e1 : p[b] = p.getD b 0 := by simp [List.getD_eq_getElem?_getD, hb]
    have e2 : p[a] = p.getD a 0 := by simp [List.getD_eq_getElem?_getD, ha]
    rw [e1, e2]
    by_cases h1 : j = a <;> by_cases h2 : j = b
    · rw [if_pos h2, if_pos h1]; rw [← h1, ← h2]
    · rw [if_neg h2, if_pos h1, if_pos h1]
    · rw [if_pos h2, if_neg h1, if_pos h2]
    · rw [if_neg h2, if_neg h1, if_neg h1, if_neg h2]

/-- the parameters of the adjoint layer -/
theorem daggerParams_ok (l : SLayer) (k : ℕ) (hk : 2 ≤ k) (hp : l.params.length = k * l.wires.length) :
    ∃ q, l.daggerParams k = .ok q ∧ q.length = l.params.length ∧
      ∀ i < l.wires.length, ∀ r < k, q.getD (k * i + r) 0 =
        if r = 0 then -l.params.getD (k * i + (k - 1)) 0
        else if r = k - 1 then -l.params.getD (k * i) 0 else -l.params.getD (k * i + r) 0 := by
  have key : ∀ m ≤ l.wires.length, ∃ q,
      (List.range m).foldlM (fun p i => SLayer.swapEntries p (k * i) (k * i + (k - 1)))
        (l.params.map (fun x => -1 * x)) = .ok q ∧ q.length = l.params.length ∧
      (∀ j, k * m ≤ j → q.getD j 0 = -l.params.getD j 0) ∧
      ∀ i < m, ∀ r < k, q.getD (k * i + r) 0 =
        if r = 0 then -l.params.getD (k * i + (k - 1)) 0
        else if r = k - 1 then -l.params.getD (k * i) 0 else -l.params.getD (k * i + r) 0 := by
    intro m
    induction m with
    | zero =>
      intro _
      refine ⟨_, rfl, by simp, ?_, by simp⟩
      intro j _
      by_cases hj : j < l.params.length
      · simp [List.getD_eq_getElem?_getD, hj]
      · simp [List.getD_eq_getElem?_getD, not_lt.1 hj]
    | succ m ih =>
      intro hm
      obtain ⟨q, hq, hl, hq1, hq2⟩ := ih (by omega)
      have hbound : k * m + k ≤ l.params.length := by
        rw [hp, ← Nat.mul_succ]; exact Nat.mul_le_mul_left _ hm
      obtain ⟨q', hq', hl', hq''⟩ := swapEntries_ok (p := q) (a := k * m) (b := k * m + (k - 1))
        (by omega) (by omega)
      refine ⟨q', ?_, by omega, ?_, ?_⟩
      · rw [List.range_succ, List.foldlM_append, hq, Py.ok_bind]
        simp only [List.foldlM_cons, List.foldlM_nil, hq']
        rfl
      · intro j hj
        rw [Nat.mul_succ] at hj
        rw [hq'', if_neg (by omega), if_neg (by omega), hq1 j (by omega)]
      · intro i hi r hr
        rw [hq'']
        by_cases him : i = m
        · subst him
          by_cases h0 : r = 0
          · rw [if_pos (by omega), if_pos h0, hq1 _ (by omega)]
          · by_cases h1 : r = k - 1
            · rw [if_neg (by omega), if_pos (by omega), if_neg h0, if_pos h1, hq1 _ (by omega)]
            · rw [if_neg (by omega), if_neg (by omega), if_neg h0, if_neg h1, hq1 _ (by omega)]
        · have : k * i + k ≤ k * m := by
            rw [← Nat.mul_succ]; exact Nat.mul_le_mul_left _ (by omega)
          rw [if_neg (by omega), if_neg (by omega), hq2 i (by omega) r hr]
  obtain ⟨q, hq, hl, _, h2⟩ := key _ le_rfl
  exact ⟨q, hq, hl, h2⟩

/-- the kind of the adjoint layer -/
def Spec.LayerKind.adj : LayerKind → LayerKind
  | .xyz => .zyx
  | .zyx => .xyz
  | .yzy => .yzy
  | .xzx => .xzx
  | .xz => .zx
  | .zx => .xz

theorem getD_lt {p : List ℝ} {j : ℕ} (h : j < p.length) : p.getD j 0 = p[j] := by
  simp [List.getD_eq_getElem?_getD, h]

open Matrix in
theorem IsAxis.conj {P : Mat2} (h : IsAxis P) (θ : ℝ) : (Spec.rot P θ)ᴴ = Spec.rot P (-θ) := by
  rcases h with rfl | rfl | rfl
  · exact rot_conj X_conj θ
  · exact rot_conj Y_conj θ
  · exact rot_conj Z_conj θ

open Matrix in
theorem seqRot3_conj {a b c : Mat2} (ha : IsAxis a) (hb : IsAxis b) (hc : IsAxis c) {p q : List ℝ}
    {i : ℕ} (hp : 3 * i + 2 < p.length) (hq : 3 * i + 2 < q.length)
    (h : ∀ r < 3, q.getD (3 * i + r) 0 =
        if r = 0 then -p.getD (3 * i + (3 - 1)) 0
        else if r = 3 - 1 then -p.getD (3 * i) 0 else -p.getD (3 * i + r) 0) :
    seqRot [c, b, a] (q.drop (3 * i)) = (seqRot [a, b, c] (p.drop (3 * i)))ᴴ := by
  rw [seqRot3 hq, seqRot3 hp, conjTranspose_mul, conjTranspose_mul, ha.conj, hb.conj, hc.conj,
    Matrix.mul_assoc]
  have h0 := h 0 (by omega)
  have h1 := h 1 (by omega)
  have h2 := h 2 (by omega)
  norm_num at h0 h1 h2
  simp only [← List.getD_eq_getElem?_getD] at h0 h1 h2
  rw [getD_lt (by omega), getD_lt (by omega)] at h0 h1 h2
  rw [h0, h1, h2]

open Matrix in
theorem seqRot2_conj {a b : Mat2} (ha : IsAxis a) (hb : IsAxis b) {p q : List ℝ}
    {i : ℕ} (hp : 2 * i + 1 < p.length) (hq : 2 * i + 1 < q.length)
    (h : ∀ r < 2, q.getD (2 * i + r) 0 =
        if r = 0 then -p.getD (2 * i + (2 - 1)) 0
        else if r = 2 - 1 then -p.getD (2 * i) 0 else -p.getD (2 * i + r) 0) :
    seqRot [b, a] (q.drop (2 * i)) = (seqRot [a, b] (p.drop (2 * i)))ᴴ := by
  rw [seqRot2 hq, seqRot2 hp, conjTranspose_mul, ha.conj, hb.conj]
  have h0 := h 0 (by omega)
  have h1 := h 1 (by omega)
  norm_num at h0 h1
  simp only [← List.getD_eq_getElem?_getD] at h0 h1
  rw [getD_lt (by omega), getD_lt (by omega)] at h0 h1
  rw [h0, h1]

open Matrix in
theorem layerOp_conj {axes axes' : List Mat2} {ws : List (Fin N)} {p q : List ℝ}
    (h : ∀ i < ws.length, seqRot axes' (q.drop (axes'.length * i)) =
      (seqRot axes (p.drop (axes.length * i)))ᴴ) :
    layerOp axes' ws q = (layerOp axes ws p)ᴴ := by
  unfold layerOp
  rw [onEach_conjTranspose]
  congr 1
  funext j
  by_cases hj : j ∈ ws
  · rw [if_pos hj, if_pos hj, h _ (List.idxOf_lt_length_of_mem hj)]
  · rw [if_neg hj, if_neg hj, conjTranspose_one]

open Matrix in
theorem layer_dagger (k : LayerKind) (ws : List (Fin N)) (p : List ℝ) (hw : ws.Nodup)
    (hp : p.length = k.axes.length * ws.length) :
    ∃ q, q.length = k.adj.axes.length * ws.length ∧
      (⟨layerCls k, N, wires ws, p⟩ : SLayer).operation_dagger =
        .ok ⟨layerCls k.adj, N, wires ws, q⟩ ∧
      layerOp k.adj.axes ws q = (layerOp k.axes ws p)ᴴ := by
  have hl : (wires ws).length = ws.length := by simp
  have h3 : ∀ {q : List ℝ}, q.length = 3 * ws.length → ∀ i < ws.length, 3 * i + 2 < q.length :=
    fun h i hi => by omega
  have h2 : ∀ {q : List ℝ}, q.length = 2 * ws.length → ∀ i < ws.length, 2 * i + 1 < q.length :=
    fun h i hi => by omega
  have aX : IsAxis Spec.X := Or.inl rfl
  have aY : IsAxis Spec.Y := Or.inr (Or.inl rfl)
  have aZ : IsAxis Spec.Z := Or.inr (Or.inr rfl)
  have three : k.axes.length = 3 → _ := fun e => daggerParams_ok
    (⟨layerCls k, N, wires ws, p⟩ : SLayer) 3 (by omega) (by rw [hl, ← e]; exact hp)
  have two : k.axes.length = 2 → _ := fun e => daggerParams_ok
    (⟨layerCls k, N, wires ws, p⟩ : SLayer) 2 (by omega) (by rw [hl, ← e]; exact hp)
  cases k
  case xz =>
    obtain ⟨q, hq, hql, hq'⟩ := two rfl
    have e : q.length = 2 * ws.length := hql.trans hp
    refine ⟨q, e, ?_, layerOp_conj fun i hi =>
      seqRot2_conj aX aZ (h2 hp i hi) (h2 e i hi) (hq' i (by simpa using hi))⟩
    simp only [layerCls] at hq
    simp only [layerCls, SLayer.operation_dagger, hq, Py.ok_bind]
    exact mkSLayer_ok hw e.symm
  case zx =>
    obtain ⟨q, hq, hql, hq'⟩ := two rfl
    have e : q.length = 2 * ws.length := hql.trans hp
    refine ⟨q, e, ?_, layerOp_conj fun i hi =>
      seqRot2_conj aZ aX (h2 hp i hi) (h2 e i hi) (hq' i (by simpa using hi))⟩
    simp only [layerCls] at hq
    simp only [layerCls, SLayer.operation_dagger, hq, Py.ok_bind]
    exact mkSLayer_ok hw e.symm
  all_goals
    obtain ⟨q, hq, hql, hq'⟩ := three rfl
    have e : q.length = 3 * ws.length := hql.trans hp
    refine ⟨q, e, ?_, layerOp_conj fun i hi =>
      seqRot3_conj (by assumption) (by assumption) (by assumption) (h3 hp i hi) (h3 e i hi)
        (hq' i (by simpa using hi))⟩
    simp only [layerCls] at hq
    simp only [layerCls, SLayer.operation_dagger, hq, Py.ok_bind]
    exact mkSLayer_ok hw e.symm

open Matrix in
theorem hOp_conj (ws : List (Fin N)) : (hOp ws)ᴴ = hOp ws := by
  unfold hOp
  rw [onEach_conjTranspose]
  congr 1
  funext j
  by_cases hj : j ∈ ws
  · rw [if_pos hj, H_conj]
  · rw [if_neg hj, conjTranspose_one]

/-- the items whose `operation_dagger` returns an operation -/
def Spec.Item.hasDagger : Item N → Prop
  | .ring2 _ => False
  | .basic _ _ _ => False
  | _ => True

open Matrix in
theorem item_dagger (it : Item N) (h : it.WF) (hd : Spec.Item.hasDagger it) :
    ∃ o it', buildItem it = .ok o ∧ Item.WF it' ∧ Spec.Item.hasDagger it' ∧ it'.op = (it.op)ᴴ ∧
      ∃ o', buildItem it' = .ok o' ∧ o.operation_dagger = .ok (some o') := by
  cases it with
  | gate ins =>
    obtain ⟨g, hg, rg⟩ := build_ok ins h
    obtain ⟨g', hg', rg'⟩ := build_ok (Instr.adj ins) (Instr.adj_WF h)
    refine ⟨.gate g, .gate (Instr.adj ins), by simp [buildItem, hg], Instr.adj_WF h, trivial,
      Instr.adj_op ins h, .gate g', by simp [buildItem, hg'], ?_⟩
    simp [Op.operation_dagger, build_cls hg, hg']
  | layer k ws p =>
    obtain ⟨hN, hw, hp⟩ := h
    obtain ⟨q, hq, h1, h2⟩ := layer_dagger k ws p hw hp
    refine ⟨.single ⟨layerCls k, N, wires ws, p⟩, .layer k.adj ws q, ?_, ⟨hN, hw, hq⟩, trivial,
      h2, .single ⟨layerCls k.adj, N, wires ws, q⟩, ?_, ?_⟩
    · simp only [buildItem]
      rw [mkSLayer_ok hw (by rw [layerCls_arity]; exact hp.symm)]
      rfl
    · simp only [buildItem]
      rw [mkSLayer_ok hw (by rw [layerCls_arity]; exact hq.symm)]
      rfl
    · simp [Op.operation_dagger, h1]
  | hlayer ws =>
    obtain ⟨hN, hw⟩ := h
    have hb : buildItem (.hlayer ws) = .ok (.single ⟨.h, N, wires ws, []⟩) := by
      simp only [buildItem]
      rw [mkSLayer_ok hw (by simp [LayerCls.arity])]
      rfl
    exact ⟨_, .hlayer ws, hb, ⟨hN, hw⟩, trivial, (hOp_conj ws).symm, _, hb, rfl⟩
  | ring ws =>
    obtain ⟨hw, h2⟩ := h
    refine ⟨.ring ⟨.ring, N, wires ws⟩, .ringDag ws, by simp only [buildItem]; rw [mkRing_ok hw h2]; rfl,
      ⟨hw, h2⟩, trivial, (ringOp_conjTranspose hw h2).symm, .ring ⟨.dagger, N, wires ws⟩,
      by simp only [buildItem]; rw [mkRing_ok hw h2]; rfl, ?_⟩
    simp only [Op.operation_dagger, Ring.operation_dagger]
    rw [mkRing_ok hw h2]; rfl
  | ringDag ws =>
    obtain ⟨hw, h2⟩ := h
    refine ⟨.ring ⟨.dagger, N, wires ws⟩, .ring ws, by simp only [buildItem]; rw [mkRing_ok hw h2]; rfl,
      ⟨hw, h2⟩, trivial, ?_, .ring ⟨.ring, N, wires ws⟩,
      by simp only [buildItem]; rw [mkRing_ok hw h2]; rfl, ?_⟩
    · show ringOp 1 ws = (ringDagOp ws)ᴴ
      rw [← ringOp_conjTranspose hw h2, conjTranspose_conjTranspose]
    · simp only [Op.operation_dagger, Ring.operation_dagger]
      rw [mkRing_ok hw h2]; rfl
  | ring2 ws => exact hd.elim
  | basic ws p reps => exact hd.elim

end QTN
