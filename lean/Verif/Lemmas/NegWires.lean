import Verif.Lemmas.BadWires

/-! # Negative wires: Python's wrap-around in `TN_contract` and `TN_operation` -/

namespace QTN

open Spec

/-! ## permute -/

theorem mapM_set_congr {α β : Type} (f : α → Py β) {a b : α} (h : f a = f b) (l : List α) (k : ℕ) :
    (l.set k a).mapM f = (l.set k b).mapM f := by
  induction l generalizing k with
  | nil => rfl
  | cons x l ih =>
    cases k with
    | zero => rw [List.set_cons_zero, List.set_cons_zero, List.mapM_cons, List.mapM_cons, h]
    | succ k => rw [List.set_cons_succ, List.set_cons_succ, List.mapM_cons, List.mapM_cons, ih]

theorem permute_congr {p p' : List ℤ} (hl : p.length = p'.length)
    (h : p.mapM (wrapIdx p.length) = p'.mapM (wrapIdx p.length)) (T : Tensor ℂ) : T.permute p = T.permute p' := by
  unfold Tensor.permute
  by_cases hr : p.length = T.rank
  · rw [raiseIf_false (by simpa using hr), raiseIf_false (by rw [← hl]; simpa using hr), ← hr, h]
  · rw [raiseIf_true hr, raiseIf_true (by rw [← hl]; exact hr)]; rfl

/-- Negative indices count from the end. -/
theorem wrapIdx_neg {n : ℕ} {w : ℤ} (h1 : -(n : ℤ) ≤ w) (h2 : w < 0) :
    wrapIdx n w = wrapIdx n (n + w) ∧ wrapIdx n w = .ok (n + w).toNat := by
  unfold wrapIdx
  rw [if_neg (by omega), if_pos (by omega), if_pos (by omega), if_pos (by omega), add_comm]
  exact ⟨rfl, rfl⟩

theorem pySet_neg {α : Type} (l : List α) {w : ℤ} (h1 : -(l.length : ℤ) ≤ w) (h2 : w < 0) (v : α) :
    pySet l w v = pySet l (l.length + w) v := by
  unfold pySet
  rw [(wrapIdx_neg h1 h2).1]

theorem pyGet_neg {α : Type} (l : List α) {w : ℤ} (h1 : -(l.length : ℤ) ≤ w) (h2 : w < 0) :
    pyGet l w = pyGet l (l.length + w) := by
  unfold pyGet
  rw [(wrapIdx_neg h1 h2).1]

theorem pySet_in {α : Type} (l : List α) {w : ℤ} (h1 : 0 ≤ w) (h2 : w < l.length) (v : α) :
    pySet l w v = .ok (l.set w.toNat v) := by
  unfold pySet wrapIdx
  rw [if_pos h1, if_pos h2]; rfl

theorem contract1_neg (m T : Tensor ℂ) {n w : ℤ} (h1 : -n ≤ w) (h2 : w < 0) :
    Gate.contract1 m T n w = Gate.contract1 m T n (n + w) := by
  have hlen : ((pyRange n).length : ℤ) = n := by rw [pyRange_len]; omega
  have e1 : pySet (pyRange n) w (n - 1) = .ok ((pyRange n).set (n + w).toNat (n - 1)) := by
    rw [pySet_neg _ (by omega) h2, pySet_in _ (by omega) (by omega), hlen]
  have e2 : pySet (pyRange n) (n + w) (n - 1) = .ok ((pyRange n).set (n + w).toNat (n - 1)) :=
    pySet_in _ (by omega) (by omega) _
  have hl2 : (((pyRange n).set (n + w).toNat (n - 1)).length : ℤ) = n := by rw [List.length_set]; exact hlen
  have f1 : ∀ v, pySet ((pyRange n).set (n + w).toNat (n - 1)) (n - 1) v =
      .ok (((pyRange n).set (n + w).toNat (n - 1)).set (n - 1).toNat v) := fun v =>
    pySet_in _ (by omega) (by omega) _
  have hp : ∀ T : Tensor ℂ, T.permute (((pyRange n).set (n + w).toNat (n - 1)).set (n - 1).toNat w) =
      T.permute (((pyRange n).set (n + w).toNat (n - 1)).set (n - 1).toNat (n + w)) := by
    intro T
    refine permute_congr (by simp) (mapM_set_congr _ ?_ _ _) T
    rw [List.length_set]
    have := (wrapIdx_neg (n := ((pyRange n).set (n + w).toNat (n - 1)).length) (w := w) (by omega) h2).1
    rw [hl2] at this
    exact this
  unfold Gate.contract1 Gate.singlePerm
  simp only [e1, e2, Py.ok_bind, f1, hp]

/-! ## TN_contract of SWAP -/

/-- The two assignments of `SWAP.TN_contract`. -/
theorem swapPerm_neg {n c t : ℤ} (h1 : -n ≤ c) (h2 : c < 0) (h3 : 0 ≤ t) (h4 : t < n) (T : Tensor ℂ) :
    (do
      let p ← pySet (pyRange n) c t
      let p ← pySet p t c
      T.permute p) = (do
      let p ← pySet (pyRange n) (n + c) t
      let p ← pySet p t (n + c)
      T.permute p) := by
  have hlen : ((pyRange n).length : ℤ) = n := by rw [pyRange_len]; omega
  rw [pySet_neg _ (by omega) h2, hlen, pySet_in _ (by omega) (by omega), Py.ok_bind,
    pySet_in _ h3 (by simpa using by omega), Py.ok_bind, Py.ok_bind, pySet_in _ h3 (by simpa using by omega),
    Py.ok_bind]
  refine permute_congr (by simp) (mapM_set_congr _ ?_ _ _) T
  have := (wrapIdx_neg (n := (pyRange n).length) (w := c) (by omega) h2).1
  rw [hlen] at this
  simpa using this

/-! ## The batch dimension -/

theorem mapM_wrap {m : ℕ} : ∀ (p : List ℤ) (q : List ℕ), p.mapM (wrapIdx m) = .ok q →
    q.length = p.length ∧ ∀ k ∈ q, k < m := by
  intro p
  induction p with
  | nil => intro q h; cases h; simp
  | cons a p ih =>
    intro q h
    rw [List.mapM_cons] at h
    cases ha : wrapIdx m a with
    | error e => rw [ha] at h; cases h
    | ok k =>
      rw [ha, Py.ok_bind] at h
      cases hb : p.mapM (wrapIdx m) with
      | error e => rw [hb] at h; cases h
      | ok q' =>
        rw [hb, Py.ok_bind] at h
        cases h
        obtain ⟨i1, i2⟩ := ih q' hb
        refine ⟨by simp [i1], fun x hx => ?_⟩
        rcases List.mem_cons.1 hx with rfl | hx
        · unfold wrapIdx at ha
          split_ifs at ha <;> cases ha <;> omega
        · exact i2 x hx

theorem permute_replicate {T T1 : Tensor ℂ} {r : ℕ} (hT : T.shape = List.replicate r 2) {p : List ℤ}
    (h : T.permute p = .ok T1) : T1.shape = List.replicate r 2 := by
  have hr : T.rank = r := by simp [Tensor.rank, hT]
  unfold Tensor.permute at h
  by_cases hp : p.length = T.rank
  · rw [raiseIf_false (by simpa using hp), Py.ok_bind] at h
    cases hq : p.mapM (wrapIdx T.rank) with
    | error e => rw [hq] at h; cases h
    | ok q =>
      rw [hq, Py.ok_bind] at h
      by_cases hn : q.Nodup
      · rw [raiseIf_false (by simpa using hn), Py.ok_bind] at h
        cases h
        show q.map _ = _
        obtain ⟨h1, h2⟩ := mapM_wrap p q hq
        rw [List.eq_replicate_iff]
        refine ⟨by rw [List.length_map, h1, hp, hr], fun x hx => ?_⟩
        obtain ⟨k, hk, rfl⟩ := List.mem_map.1 hx
        rw [hT]
        have := h2 k hk
        rw [hr] at this
        simp [List.getD, this]
      · rw [raiseIf_true hn] at h; cases h
  · rw [raiseIf_true hp] at h; cases h

/-- In a tensor with all dimensions 2 (at least three of them) the two output shapes agree, so the
batched contraction is the unbatched contraction of all dimensions. -/
theorem contract2_batch_two (m T : Tensor ℂ) {N : ℕ} (hN : 2 ≤ N) (hT : T.shape = List.replicate (N + 1) 2)
    (c t : ℤ) : Gate.contract2 m T (N + 1) c t (fun s => (s.getD 0 0 : ℤ) :: pyRep 2 (N : ℤ)) =
      Gate.contract2 m T (N + 1) c t (fun _ => pyRep 2 ((N : ℤ) + 1)) := by
  unfold Gate.contract2
  simp only
  cases h1 : pyRemove (pyRange ((N : ℤ) + 1)) c with
  | error e => rw [Py.error_bind, Py.error_bind]
  | ok p =>
    rw [Py.ok_bind, Py.ok_bind]
    cases h2 : pyRemove p t with
    | error e => rw [Py.error_bind, Py.error_bind]
    | ok p =>
      rw [Py.ok_bind, Py.ok_bind]
      cases h3 : T.permute (p ++ [c, t]) with
      | error e => rw [Py.error_bind, Py.error_bind]
      | ok T1 =>
        rw [Py.ok_bind, Py.ok_bind]
        obtain ⟨k, rfl⟩ : ∃ k, N = k + 2 := ⟨N - 2, by omega⟩
        have hs : T1.shape = (2 :: List.replicate k 2) ++ [2, 2] := by
          rw [permute_replicate hT h3]
          rw [show ([2, 2] : List ℕ) = List.replicate 2 2 from rfl, ← List.replicate_succ, List.replicate_append_replicate]
        rw [hs, pyGet_app_m2, pyGet_app_m1]
        simp only [Py.ok_bind, pySet_app_m2, pySet_app_m1]
        have e : pyRep (2 : ℤ) (((k + 2 : ℕ) : ℤ) + 1) = 2 :: pyRep 2 ((k + 2 : ℕ) : ℤ) := by
          rw [pyRep, pyRep, show (((k + 2 : ℕ) : ℤ) + 1).toNat = ((k + 2 : ℕ) : ℤ).toNat + 1 by omega,
            List.replicate_succ]
        simp only [e, List.cons_append, List.getD_cons_zero, Nat.cast_ofNat]

/-! ## TN_operation -/

theorem pySet_in_len {α : Type} {l l' : List α} {i : ℤ} {v : α} (h : pySet l i v = .ok l') :
    (l'.length : ℤ) = l.length := by rw [pySet_length h]

theorem applyTwo_neg (svd : SVDOracle) (G : Tensor ℂ) (mps : List (Tensor ℂ)) {i : ℤ}
    (h1 : -(mps.length : ℤ) ≤ i) (h2 : i + 1 < 0) :
    Gate.applyTwo svd G mps i = Gate.applyTwo svd G mps (mps.length + i) := by
  unfold Gate.applyTwo
  rw [pyGet_neg mps h1 (by omega), pyGet_neg mps (by omega) h2, add_assoc]
  have : ∀ (ab : Tensor ℂ × Tensor ℂ), ((do
      let mps' ← (pySet mps i ab.1 : Py _)
      (pySet mps' (i + 1) ab.2 : Py _)) : TNM (List (Tensor ℂ))) = (do
      let mps' ← (pySet mps (mps.length + i) ab.1 : Py _)
      (pySet mps' (mps.length + (i + 1)) ab.2 : Py _)) := by
    intro ab
    rw [pySet_neg mps h1 (by omega)]
    cases hm : pySet mps (mps.length + i) ab.1 with
    | error e => rfl
    | ok m =>
      rw [TNM.lift_ok_bind, TNM.lift_ok_bind, pySet_neg m (by rw [pySet_length hm]; omega) h2, pySet_length hm]
  simp only [this]

theorem foldlM_shift {n : ℕ} {d : ℤ} {f f' : List (Tensor ℂ) → ℤ → TNM (List (Tensor ℂ))} (xs : List ℤ)
    (hk : ∀ l x, l.length = n → KeepsLen n (f l x))
    (h : ∀ l, l.length = n → ∀ x ∈ xs, f l x = f' l (d + x)) (l : List (Tensor ℂ)) (hl : l.length = n) :
    xs.foldlM f l = (xs.map (fun x => d + x)).foldlM f' l := by
  induction xs generalizing l with
  | nil => rfl
  | cons x xs ih =>
    rw [List.map_cons, List.foldlM_cons, List.foldlM_cons, ← h l hl x (by simp)]
    funext s
    rcases hx : f l x s with ⟨e | a, s'⟩
    · rw [TNM.bind_error hx, TNM.bind_error hx]
    · rw [TNM.bind_ok hx, TNM.bind_ok hx, ih (fun l hl y hy => h l hl y (by simp [hy])) a (hk l x hl s a s' hx)]

theorem pyRange2_shift (d a b : ℤ) : (pyRange2 a b).map (fun x => d + x) = pyRange2 (d + a) (d + b) := by
  unfold pyRange2
  rw [List.map_map, show d + b - (d + a) = b - a by ring]
  congr 1
  funext k
  simp; ring

theorem pyRangeDown_shift (d a b : ℤ) : (pyRangeDown a b).map (fun x => d + x) = pyRangeDown (d + a) (d + b) := by
  unfold pyRangeDown
  rw [List.map_map, show d + a - (d + b) = a - b by ring]
  congr 1
  funext k
  simp; ring

theorem swapTN_neg (svd : SVDOracle) (m : Tensor ℂ) (mps : List (Tensor ℂ)) {c t : ℤ}
    (hc : -(mps.length : ℤ) ≤ c) (hc' : c < 0) (ht : -(mps.length : ℤ) ≤ t) (ht' : t < 0) :
    Gate.swapTN svd m [c, t] mps = Gate.swapTN svd m [mps.length + c, mps.length + t] mps := by
  unfold Gate.swapTN
  rw [(foldl_max_pair c t).1, (foldl_max_pair c t).2, (foldl_max_pair _ _).1, (foldl_max_pair _ _).2,
    max_add_add_left, min_add_add_left]
  simp only [TNM.lift_ok_bind]
  rw [raiseIf_false (by simp), raiseIf_false (by simp), TNM.lift_ok_bind, TNM.lift_ok_bind, ← pyRange2_shift,
    ← foldlM_shift (n := mps.length) (d := mps.length) (f := fun l i => Gate.applyTwo svd m l i)
      (f' := fun l i => Gate.applyTwo svd m l i) _ (fun l x hl => hl ▸ applyTwo_len svd m l x)
      (fun l hl x hx => ?_) mps rfl]
  · funext s
    rcases hx : (pyRange2 (min c t) (max c t)).foldlM (fun l i => Gate.applyTwo svd m l i) mps s with ⟨e | a, s'⟩
    · rw [TNM.bind_error hx, TNM.bind_error hx]
    · rw [TNM.bind_ok hx, TNM.bind_ok hx]
      have ha := KeepsLen.foldlM (n := mps.length) (fun l x hl => hl ▸ applyTwo_len svd m l x) _ mps rfl s a s' hx
      rw [show (mps.length : ℤ) + max c t - 1 = mps.length + (max c t - 1) by ring, ← pyRangeDown_shift,
        ← foldlM_shift (n := mps.length) (d := mps.length) (f := fun l i => Gate.applyTwo svd m l (i - 1))
          (f' := fun l i => Gate.applyTwo svd m l (i - 1)) _ (fun l x hl => hl ▸ applyTwo_len svd m l _)
          (fun l hl x hx => ?_) a ha]
      rw [mem_pyRangeDown] at hx
      rw [applyTwo_neg svd m l (by omega) (by omega), hl, add_sub_assoc]
  · rw [mem_pyRange2] at hx
    rw [applyTwo_neg svd m l (by omega) (by omega), hl]

/-- The guard does not look inside a wire list. -/
theorem guard_wires (g : Gate) (w w' : List ℤ) (h : g.wires = .list w) :
    ({ g with wires := .list w' } : Gate).guard = g.guard := by
  unfold Gate.guard
  rw [h]
  simp

theorem swap_neg (svd : SVDOracle) (g : Gate) (mps : List (Tensor ℂ)) {c t : ℤ} (hw : g.wires = .list [c, t])
    (hc : -(mps.length : ℤ) ≤ c) (hc' : c < 0) (ht : -(mps.length : ℤ) ≤ t) (ht' : t < 0) :
    g.swap_TN_operation svd mps =
      ({ g with wires := .list [mps.length + c, mps.length + t] } : Gate).swap_TN_operation svd mps := by
  unfold Gate.swap_TN_operation
  rw [guard_wires g [c, t] _ hw, hw]
  simp only [asList_list, TNM.lift_ok_bind]
  rw [swapTN_neg svd g.matrix mps hc hc' ht ht']

theorem swapCall_neg (svd : SVDOracle) (N : ℤ) (mps : List (Tensor ℂ)) {i j : ℤ}
    (hc : -(mps.length : ℤ) ≤ i) (hc' : i < 0) (ht : -(mps.length : ℤ) ≤ j) (ht' : j < 0) :
    Gate.swapCall svd N i j mps = Gate.swapCall svd N (mps.length + i) (mps.length + j) mps :=
  swap_neg svd _ mps rfl hc hc' ht ht'

/-- The swaps before and after the gate. -/
theorem swapsUp_neg (svd : SVDOracle) (N : ℤ) (mps : List (Tensor ℂ)) {a b : ℤ} (ha : -(mps.length : ℤ) ≤ a)
    (hb : b < 0) :
    (pyRange2 a b).foldlM (fun l i => Gate.swapCall svd N i (i + 1) l) mps =
      (pyRange2 (mps.length + a) (mps.length + b)).foldlM (fun l i => Gate.swapCall svd N i (i + 1) l) mps := by
  rw [← pyRange2_shift]
  refine foldlM_shift (n := mps.length) _ (fun l x hl => hl ▸ swapCall_len svd N _ _ l) (fun l hl x hx => ?_) mps rfl
  rw [mem_pyRange2] at hx
  rw [swapCall_neg svd N l (by omega) (by omega) (by omega) (by omega), hl, add_assoc]

theorem swapsDown_neg (svd : SVDOracle) (N : ℤ) {n : ℕ} (mps : List (Tensor ℂ)) (hn : mps.length = n) {a b : ℤ}
    (ha : -(n : ℤ) ≤ b) (hb : a < 0) :
    (pyRangeDown a b).foldlM (fun l i => Gate.swapCall svd N (i - 1) i l) mps =
      (pyRangeDown (n + a) (n + b)).foldlM (fun l i => Gate.swapCall svd N (i - 1) i l) mps := by
  rw [← pyRangeDown_shift]
  refine foldlM_shift (n := n) _ (fun l x hl => hl ▸ swapCall_len svd N _ _ l) (fun l hl x hx => ?_) mps hn
  rw [mem_pyRangeDown] at hx
  rw [swapCall_neg svd N l (by omega) (by omega) (by omega) (by omega), hl, add_sub_assoc]

theorem ite_shift {α : Type} {d a b : ℤ} (x y : α) :
    (if d + a = d + b then x else y) = if a = b then x else y := by
  simp

/-- cz, cphase, cu3 on negative wires act on the wires counted from the end. -/
theorem ctrl_neg (svd : SVDOracle) (g : Gate) (Grev : Py (Tensor ℂ)) (mps : List (Tensor ℂ)) {c t : ℤ}
    (hw : g.wires = .list [c, t]) (hct : c ≠ t) (hc : -(mps.length : ℤ) ≤ c) (hc' : c < 0)
    (ht : -(mps.length : ℤ) ≤ t) (ht' : t < 0) :
    g.ctrl_TN_operation svd Grev mps =
      ({ g with wires := .list [mps.length + c, mps.length + t] } : Gate).ctrl_TN_operation svd Grev mps := by
  unfold Gate.ctrl_TN_operation
  rw [guard_wires g [c, t] _ hw, hw]
  simp only [asList_list, TNM.lift_ok_bind, (foldl_max_pair _ _).1, (foldl_max_pair _ _).2, max_add_add_left,
    min_add_add_left, (pyGet_pair _ _).1, ite_shift]
  rw [raiseIf_false (by simp), raiseIf_false (by simp), add_sub_assoc,
    swapsUp_neg svd g.nqubits mps (a := min c t) (b := max c t - 1) (by omega) (by omega)]
  congr 1
  funext u
  congr 1
  funext u'
  funext s
  rcases hx : (pyRange2 (mps.length + min c t) (mps.length + (max c t - 1))).foldlM
    (fun l i => Gate.swapCall svd g.nqubits i (i + 1) l) mps s with ⟨e | a, s'⟩
  · rw [TNM.bind_error hx, TNM.bind_error hx]
  · rw [TNM.bind_ok hx, TNM.bind_ok hx]
    have ha := KeepsLen.foldlM (n := mps.length) (fun l x hl => hl ▸ swapCall_len svd g.nqubits x (x + 1) l) _ mps rfl
      s a s' hx
    refine congrFun (congrArg (_ >>= ·) (funext fun G => ?_)) s'
    rw [applyTwo_neg svd G a (by omega) (by omega), ha]
    funext s
    rcases hy : Gate.applyTwo svd G a (mps.length + (max c t - 1)) s with ⟨e | b, s''⟩
    · rw [TNM.bind_error hy, TNM.bind_error hy]
    · rw [TNM.bind_ok hy, TNM.bind_ok hy]
      rw [swapsDown_neg svd g.nqubits b ((applyTwo_len svd G a _ _ _ _ hy).trans ha) (by omega) (by omega)]

theorem cnot_neg (svd : SVDOracle) (g : Gate) (mps : List (Tensor ℂ)) {c t : ℤ}
    (hw : g.wires = .list [c, t]) (hct : c ≠ t) (hc : -(mps.length : ℤ) ≤ c) (hc' : c < 0)
    (ht : -(mps.length : ℤ) ≤ t) (ht' : t < 0) :
    g.cnot_TN_operation svd mps =
      ({ g with wires := .list [mps.length + c, mps.length + t] } : Gate).cnot_TN_operation svd mps := by
  unfold Gate.cnot_TN_operation
  rw [guard_wires g [c, t] _ hw, hw]
  simp only [asList_list, TNM.lift_ok_bind, (foldl_max_pair _ _).1, (foldl_max_pair _ _).2, max_add_add_left,
    min_add_add_left, (pyGet_pair _ _).1, add_assoc, add_right_inj]
  congr 1
  funext u
  by_cases h1 : min c t + 1 = max c t
  · rw [if_pos h1, if_pos h1]
    congr 1
    funext G
    exact applyTwo_neg svd G mps (by omega) (by omega)
  rw [if_neg h1, if_neg h1, add_sub_assoc,
    swapsUp_neg svd g.nqubits mps (a := min c t) (b := max c t - 1) (by omega) (by omega)]
  funext s
  rcases hx : (pyRange2 (mps.length + min c t) (mps.length + (max c t - 1))).foldlM
    (fun l i => Gate.swapCall svd g.nqubits i (i + 1) l) mps s with ⟨e | a, s'⟩
  · rw [TNM.bind_error hx, TNM.bind_error hx]
  · rw [TNM.bind_ok hx, TNM.bind_ok hx]
    have ha := KeepsLen.foldlM (n := mps.length) (fun l x hl => hl ▸ swapCall_len svd g.nqubits x (x + 1) l) _ mps rfl
      s a s' hx
    refine congrFun (congrArg (_ >>= ·) (funext fun G => ?_)) s'
    rw [applyTwo_neg svd G a (by omega) (by omega), ha]
    funext s
    rcases hy : Gate.applyTwo svd G a (mps.length + (max c t - 1)) s with ⟨e | b, s''⟩
    · rw [TNM.bind_error hy, TNM.bind_error hy]
    · rw [TNM.bind_ok hy, TNM.bind_ok hy]
      rw [swapsDown_neg svd g.nqubits b ((applyTwo_len svd G a _ _ _ _ hy).trans ha) (by omega) (by omega)]

theorem single_neg (g : Gate) (mps : List (Tensor ℂ)) {i : ℤ} (hw : g.wires = .int i)
    (h1 : -(mps.length : ℤ) ≤ i) (h2 : i < -1) :
    g.single_TN_operation mps = ({ g with wires := .int (mps.length + i) } : Gate).single_TN_operation mps := by
  have hg : ({ g with wires := .int (mps.length + i) } : Gate).guard = g.guard := by
    unfold Gate.guard
    rw [hw]
    have e1 : (Wires.int (mps.length + i) = Wires.int (-1)) ↔ False := by
      simp only [Wires.int.injEq, iff_false]; omega
    have e2 : (Wires.int i = Wires.int (-1)) ↔ False := by
      simp only [Wires.int.injEq, iff_false]; omega
    simp only [e1, e2]
  unfold Gate.single_TN_operation
  rw [hg, hw]
  have : ∀ j, (Wires.int j).asInt = .ok j := fun _ => rfl
  simp only [this, Py.ok_bind]
  rw [pyGet_neg mps h1 (by omega)]
  simp only [pySet_neg mps h1 (show i < 0 by omega)]

/-! ## Repeated wires -/

theorem pyRange2_empty {a b : ℤ} (h : b ≤ a) : pyRange2 a b = [] := by
  unfold pyRange2; rw [show (b - a).toNat = 0 by omega]; rfl

theorem pyRangeDown_empty {a b : ℤ} (h : a ≤ b) : pyRangeDown a b = [] := by
  unfold pyRangeDown; rw [show (a - b).toNat = 0 by omega]; rfl

theorem ctrl_equal (svd : SVDOracle) (g : Gate) (Grev : Py (Tensor ℂ)) (mps : List (Tensor ℂ)) {t : ℤ}
    (hw : g.wires = .list [t, t]) :
    g.ctrl_TN_operation svd Grev mps =
      ({ g with wires := .list [t - 1, t] } : Gate).ctrl_TN_operation svd Grev mps := by
  unfold Gate.ctrl_TN_operation
  rw [guard_wires g [t, t] _ hw, hw]
  simp only [asList_list, TNM.lift_ok_bind, (foldl_max_pair _ _).1, (foldl_max_pair _ _).2, (pyGet_pair _ _).1,
    max_self, min_self, show max (t - 1) t = t by omega, show min (t - 1) t = t - 1 by omega]
  rw [pyRange2_empty (by omega), pyRange2_empty (by omega), pyRangeDown_empty (by omega), pyRangeDown_empty (by omega)]
  simp

theorem cnot_equal (svd : SVDOracle) (g : Gate) (mps : List (Tensor ℂ)) {t : ℤ} (hw : g.wires = .list [t, t]) :
    g.cnot_TN_operation svd mps =
      ({ g with wires := .list [t - 1, t] } : Gate).cnot_TN_operation svd mps := by
  unfold Gate.cnot_TN_operation
  rw [guard_wires g [t, t] _ hw, hw]
  simp only [asList_list, TNM.lift_ok_bind, (foldl_max_pair _ _).1, (foldl_max_pair _ _).2, (pyGet_pair _ _).1,
    max_self, min_self, show max (t - 1) t = t by omega, show min (t - 1) t = t - 1 by omega]
  rw [if_neg (show ¬ t + 1 = t by omega), if_pos (show t - 1 + 1 = t by omega), pyRange2_empty (by omega),
    pyRangeDown_empty (by omega)]
  congr 1
  funext u
  exact TNM.bind_pure _

theorem swap_equal (svd : SVDOracle) (g : Gate) (mps : List (Tensor ℂ)) {t : ℤ} (hw : g.wires = .list [t, t])
    (hn : g.nqubits ≠ -1) (s : List (Tensor ℂ)) : g.swap_TN_operation svd mps s = (.ok mps, s) := by
  unfold Gate.swap_TN_operation Gate.swapTN Gate.guard
  rw [hw, raiseIf_false (by simp [hn])]
  simp only [asList_list, TNM.lift_ok_bind, (foldl_max_pair _ _).1, (foldl_max_pair _ _).2, max_self, min_self]
  rw [raiseIf_false (by simp), pyRange2_empty le_rfl, pyRangeDown_empty (by omega)]
  rfl

theorem mergeSort_three {a b c : ℤ} (h1 : a ≤ b) (h2 : b ≤ c) : [a, b, c].mergeSort (· ≤ ·) = [a, b, c] :=
  List.mergeSort_of_pairwise (by simp; omega)

theorem toffoli_equal (svd : SVDOracle) (g : Gate) (mps : List (Tensor ℂ)) {a t : ℤ} (h : a < t)
    (hw : g.wires = .list [a, a, t]) :
    g.toffoli_TN_operation svd mps =
      ({ g with wires := .list [a - 1, a, t] } : Gate).toffoli_TN_operation svd mps := by
  unfold Gate.toffoli_TN_operation
  rw [guard_wires g [a, a, t] _ hw, hw]
  have e0 : ∀ x y z : ℤ, pyGet [x, y, z] 0 = .ok x := fun _ _ _ => rfl
  have e1 : ∀ x y z : ℤ, pyGet [x, y, z] 1 = .ok y := fun _ _ _ => rfl
  have e2 : ∀ x y z : ℤ, pyGet [x, y, z] 2 = .ok z := fun _ _ _ => rfl
  simp only [asList_list, TNM.lift_ok_bind, mergeSort_three (le_refl a) h.le,
    mergeSort_three (show a - 1 ≤ a by omega) h.le, e0, e1, e2]
  rw [pyRange2_empty (show a - 1 ≤ a by omega), pyRange2_empty (show a - 1 ≤ a - 1 by omega),
    pyRangeDown_empty (show a - 1 ≤ a by omega), pyRangeDown_empty (show a - 1 ≤ a - 1 by omega)]

/-- `toffoli(N,[a,t,t])` with `a < t` acts like `toffoli(N,[a,t,t+1])`. -/
theorem toffoli_target_equal (svd : SVDOracle) (g : Gate) (mps : List (Tensor ℂ)) {a t : ℤ} (h : a < t)
    (hw : g.wires = .list [a, t, t]) :
    g.toffoli_TN_operation svd mps =
      ({ g with wires := .list [a, t, t + 1] } : Gate).toffoli_TN_operation svd mps := by
  unfold Gate.toffoli_TN_operation
  rw [guard_wires g [a, t, t] _ hw, hw]
  have e0 : ∀ x y z : ℤ, pyGet [x, y, z] 0 = .ok x := fun _ _ _ => rfl
  have e1 : ∀ x y z : ℤ, pyGet [x, y, z] 1 = .ok y := fun _ _ _ => rfl
  have e2 : ∀ x y z : ℤ, pyGet [x, y, z] 2 = .ok z := fun _ _ _ => rfl
  have e3 : Gate.toffoliG t t t = Gate.toffoliG (t + 1) t (t + 1) := by unfold Gate.toffoliG; simp
  simp only [asList_list, TNM.lift_ok_bind, mergeSort_three h.le (le_refl t),
    mergeSort_three h.le (show t ≤ t + 1 by omega), e0, e1, e2, e3]
  rw [pyRange2_empty (show t ≤ t + 1 by omega), pyRange2_empty (show t + 1 ≤ t + 1 by omega),
    pyRangeDown_empty (show t ≤ t + 1 by omega), pyRangeDown_empty (show t + 1 ≤ t + 1 by omega)]

end QTN
