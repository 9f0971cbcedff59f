import Verif.Lemmas.ContractItems
import Verif.Lemmas.OpMono
import Verif.Lemmas.Reject

/-! # What `TN_contract` and `TN_operation` do with invalid wires -/

namespace QTN

open Spec

/-! ## Length of the list of sites -/

/-- `f` returns lists of the length of its argument. -/
def KeepsLen (n : ℕ) (x : TNM (List (Tensor ℂ))) : Prop :=
  ∀ s l s', x s = (.ok l, s') → l.length = n

/-- `x` raises whatever the SVD returns. -/
def TNRaises {α : Type} (x : TNM α) : Prop := ∀ s, ∃ e s', x s = (.error e, s')

theorem TNRaises.lift {α : Type} {x : Py α} (h : Raises x) : TNRaises (TNM.lift x) := by
  obtain ⟨e, rfl⟩ := h
  exact fun s => ⟨e, s, rfl⟩

theorem TNRaises.bind_left {α β : Type} {x : TNM α} (h : TNRaises x) (f : α → TNM β) : TNRaises (x >>= f) := by
  intro s
  obtain ⟨e, s', he⟩ := h s
  exact ⟨e, s', TNM.bind_error he _⟩

theorem TNRaises.bind_right {α β : Type} {x : TNM α} {f : α → TNM β}
    (h : ∀ s a s', x s = (.ok a, s') → TNRaises (f a)) : TNRaises (x >>= f) := by
  intro s
  rcases hx : x s with ⟨e | a, s'⟩
  · exact ⟨e, s', TNM.bind_error hx _⟩
  · obtain ⟨e, s'', he⟩ := h s a s' hx s'
    exact ⟨e, s'', by rw [TNM.bind_ok hx]; exact he⟩

/-- The lifted prefix of a `do` block. -/
theorem TNRaises.py_right {α β : Type} {x : Py α} {f : α → TNM β} (h : ∀ a, x = .ok a → TNRaises (f a)) :
    TNRaises (TNM.lift x >>= f) :=
  .bind_right fun s a s' e => h a (by cases x <;> cases e; rfl)

theorem TNRaises.py_left {α β : Type} {x : Py α} {f : α → TNM β} (h : Raises x) :
    TNRaises (TNM.lift x >>= f) := .bind_left (.lift h) f

theorem KeepsLen.bind {α : Type} {n : ℕ} {x : TNM α} {f : α → TNM (List (Tensor ℂ))}
    (h : ∀ s a s', x s = (.ok a, s') → KeepsLen n (f a)) : KeepsLen n (x >>= f) := by
  intro s l s' e
  rcases hx : x s with ⟨e' | a, s''⟩
  · rw [TNM.bind_error hx] at e; cases e
  · rw [TNM.bind_ok hx] at e; exact h s a s'' hx _ _ _ e

theorem KeepsLen.py {α : Type} {n : ℕ} {x : Py α} {f : α → TNM (List (Tensor ℂ))}
    (h : ∀ a, x = .ok a → KeepsLen n (f a)) : KeepsLen n (TNM.lift x >>= f) :=
  .bind fun s a s' e => h a (by cases x <;> cases e; rfl)

theorem KeepsLen.foldlM {α : Type} {n : ℕ} {f : List (Tensor ℂ) → α → TNM (List (Tensor ℂ))}
    (h : ∀ l x, l.length = n → KeepsLen n (f l x)) (xs : List α) (l : List (Tensor ℂ)) (hl : l.length = n) :
    KeepsLen n (xs.foldlM f l) := by
  induction xs generalizing l with
  | nil => intro s l' s' e; cases e; exact hl
  | cons x xs ih =>
    rw [List.foldlM_cons]
    exact .bind fun s a s' e => ih a (h l x hl s a s' e)

theorem pySet_length {α : Type} {l l' : List α} {i : ℤ} {v : α} (h : pySet l i v = .ok l') :
    l'.length = l.length := by
  unfold pySet at h
  cases hk : wrapIdx l.length i with
  | error e => rw [hk] at h; cases h
  | ok k => rw [hk] at h; cases h; simp

/-- `i` is not an index of a sequence of length `n`, not even a negative one. -/
def Outside (n : ℕ) (i : ℤ) : Prop := (n : ℤ) ≤ i ∨ i < -(n : ℤ)

theorem wrapIdx_outside {n : ℕ} {i : ℤ} (h : Outside n i) : wrapIdx n i = .error .indexError := by
  unfold wrapIdx Outside at *
  split_ifs <;> first | rfl | omega

theorem pyGet_raises {α : Type} {l : List α} {i : ℤ} (h : Outside l.length i) : Raises (pyGet l i) :=
  ⟨_, by unfold pyGet; rw [wrapIdx_outside h]; rfl⟩

theorem pySet_raises {α : Type} {l : List α} {i : ℤ} (h : Outside l.length i) (v : α) : Raises (pySet l i v) :=
  ⟨_, by unfold pySet; rw [wrapIdx_outside h]; rfl⟩

theorem applyTwo_len (svd : SVDOracle) (G : Tensor ℂ) (mps : List (Tensor ℂ)) (i : ℤ) :
    KeepsLen mps.length (Gate.applyTwo svd G mps i) := by
  unfold Gate.applyTwo
  refine .py fun _ _ => .py fun _ _ => .py fun _ _ => .bind fun s a s' _ => ?_
  refine .py fun m hm => ?_
  intro s l s' e
  have : pySet m (i + 1) a.2 = .ok l := by
    cases hx : pySet m (i + 1) a.2 <;> rw [hx] at e <;> cases e; rfl
  rw [pySet_length this, pySet_length hm]

theorem applyTwo_raises (svd : SVDOracle) (G : Tensor ℂ) (mps : List (Tensor ℂ)) (i : ℤ)
    (h : (mps.length : ℤ) ≤ i + 1 ∨ i < -(mps.length : ℤ)) : TNRaises (Gate.applyTwo svd G mps i) := by
  unfold Gate.applyTwo
  rcases h with h | h
  · exact .py_right fun _ _ => .py_left (pyGet_raises (.inl h))
  · exact .py_left (pyGet_raises (.inr h))

theorem swap_len (svd : SVDOracle) (g : Gate) (mps : List (Tensor ℂ)) :
    KeepsLen mps.length (g.swap_TN_operation svd mps) := by
  unfold Gate.swap_TN_operation Gate.swapTN
  refine .py fun _ _ => .py fun w _ => .py fun _ _ => .py fun _ _ => .py fun _ _ => .bind fun s a s' h => ?_
  have ha := KeepsLen.foldlM (n := mps.length) (fun l x hl => hl ▸ applyTwo_len svd g.matrix l x) _ mps rfl s a s' h
  exact .foldlM (fun l x hl => hl ▸ applyTwo_len svd g.matrix l _) _ a ha

theorem swapCall_len (svd : SVDOracle) (N i j : ℤ) (mps : List (Tensor ℂ)) :
    KeepsLen mps.length (Gate.swapCall svd N i j mps) := swap_len _ _ _

theorem foldl_max_pair (a b : ℤ) : pyMax [a, b] = .ok (max a b) ∧ pyMin [a, b] = .ok (min a b) := ⟨rfl, rfl⟩

theorem TNRaises.foldlM {α : Type} {n : ℕ} {f : List (Tensor ℂ) → α → TNM (List (Tensor ℂ))}
    (hk : ∀ l x, l.length = n → KeepsLen n (f l x)) {xs : List α} {x : α} (hx : x ∈ xs)
    (h : ∀ l, l.length = n → TNRaises (f l x)) (l : List (Tensor ℂ)) (hl : l.length = n) :
    TNRaises (xs.foldlM f l) := by
  induction xs generalizing l with
  | nil => simp at hx
  | cons y xs ih =>
    rw [List.foldlM_cons]
    rcases List.mem_cons.1 hx with rfl | hx
    · exact .bind_left (h l hl) _
    · exact .bind_right fun s a s' e => ih hx a (hk l y hl s a s' e)

theorem mem_pyRange2 {a b x : ℤ} : x ∈ pyRange2 a b ↔ a ≤ x ∧ x < b := by
  unfold pyRange2
  simp only [List.mem_map, List.mem_range]
  constructor
  · rintro ⟨k, hk, rfl⟩; omega
  · rintro ⟨h1, h2⟩; exact ⟨(x - a).toNat, by omega, by omega⟩

theorem mem_pyRangeDown {a b x : ℤ} : x ∈ pyRangeDown a b ↔ b < x ∧ x ≤ a := by
  unfold pyRangeDown
  simp only [List.mem_map, List.mem_range]
  constructor
  · rintro ⟨k, hk, rfl⟩; omega
  · rintro ⟨h1, h2⟩; exact ⟨(a - x).toNat, by omega, by omega⟩

/-- SWAP with a wire that is no index raises, unless both wires are equal. -/
theorem swap_high (svd : SVDOracle) (g : Gate) (c t : ℤ) (hw : g.wires = .list [c, t]) (hct : c ≠ t)
    (mps : List (Tensor ℂ)) (h : Outside mps.length c ∨ Outside mps.length t) :
    TNRaises (g.swap_TN_operation svd mps) := by
  unfold Gate.swap_TN_operation Gate.swapTN
  rw [hw]
  refine .py_right fun _ _ => ?_
  rw [show (Wires.list [c, t]).asList = .ok [c, t] from rfl, TNM.lift_ok_bind]
  refine .py_right fun _ _ => ?_
  rw [(foldl_max_pair c t).1, (foldl_max_pair c t).2, TNM.lift_ok_bind, TNM.lift_ok_bind]
  unfold Outside at h
  have h' : (mps.length : ℤ) ≤ max c t ∨ min c t < -(mps.length : ℤ) := by omega
  rcases h' with h' | h'
  · exact .bind_left (TNRaises.foldlM (n := mps.length) (fun l x hl => hl ▸ applyTwo_len svd g.matrix l x)
      (x := max c t - 1) (mem_pyRange2.2 (by omega)) (fun l hl => applyTwo_raises _ _ _ _ (by omega)) mps rfl) _
  · exact .bind_left (TNRaises.foldlM (n := mps.length) (fun l x hl => hl ▸ applyTwo_len svd g.matrix l x)
      (x := min c t) (mem_pyRange2.2 (by omega)) (fun l hl => applyTwo_raises _ _ _ _ (by omega)) mps rfl) _

theorem swapCall_high (svd : SVDOracle) (N i : ℤ) (mps : List (Tensor ℂ))
    (h : Outside mps.length i ∨ Outside mps.length (i + 1)) : TNRaises (Gate.swapCall svd N i (i + 1) mps) :=
  swap_high svd _ i (i + 1) rfl (by omega) mps h

/-- The controlled gates with a wire that is no index raise. -/
theorem ctrl_high (svd : SVDOracle) (g : Gate) (Grev : Py (Tensor ℂ)) (c t : ℤ) (hw : g.wires = .list [c, t])
    (mps : List (Tensor ℂ)) (h : Outside mps.length c ∨ Outside mps.length t) :
    TNRaises (g.ctrl_TN_operation svd Grev mps) := by
  unfold Gate.ctrl_TN_operation
  rw [hw]
  refine .py_right fun _ _ => ?_
  rw [show (Wires.list [c, t]).asList = .ok [c, t] from rfl, TNM.lift_ok_bind]
  refine .py_right fun _ _ => ?_
  rw [(foldl_max_pair c t).1, (foldl_max_pair c t).2, TNM.lift_ok_bind, TNM.lift_ok_bind]
  refine .py_right fun _ _ => ?_
  unfold Outside at h
  have h' : (mps.length : ℤ) ≤ max c t ∨ min c t < -(mps.length : ℤ) := by omega
  by_cases hlow : min c t < -(mps.length : ℤ) ∧ min c t < max c t - 1
  · exact .bind_left (TNRaises.foldlM (n := mps.length) (fun l x hl => hl ▸ swapCall_len svd g.nqubits x (x + 1) l)
      (x := min c t) (mem_pyRange2.2 (by omega))
      (fun l hl => swapCall_high _ _ _ _ (.inl (.inr (by omega)))) mps rfl) _
  refine .bind_right fun s a s' e => ?_
  have ha := KeepsLen.foldlM (n := mps.length) (fun l x hl => hl ▸ swapCall_len svd g.nqubits x (x + 1) l) _ mps rfl
    s a s' e
  refine .py_right fun _ _ => .bind_left (applyTwo_raises _ _ _ _ (by omega)) _

theorem cnot_high (svd : SVDOracle) (g : Gate) (c t : ℤ) (hw : g.wires = .list [c, t])
    (mps : List (Tensor ℂ)) (h : Outside mps.length c ∨ Outside mps.length t) :
    TNRaises (g.cnot_TN_operation svd mps) := by
  unfold Gate.cnot_TN_operation
  rw [hw]
  refine .py_right fun _ _ => ?_
  rw [show (Wires.list [c, t]).asList = .ok [c, t] from rfl, TNM.lift_ok_bind]
  rw [(foldl_max_pair c t).1, (foldl_max_pair c t).2, TNM.lift_ok_bind, TNM.lift_ok_bind]
  refine .py_right fun _ _ => ?_
  unfold Outside at h
  have h' : (mps.length : ℤ) ≤ max c t ∨ min c t < -(mps.length : ℤ) := by omega
  by_cases hc : min c t + 1 = max c t
  · rw [if_pos hc]
    exact .py_right fun _ _ => applyTwo_raises _ _ _ _ (by omega)
  · rw [if_neg hc]
    by_cases hlow : min c t < -(mps.length : ℤ) ∧ min c t < max c t - 1
    · exact .bind_left (TNRaises.foldlM (n := mps.length) (fun l x hl => hl ▸ swapCall_len svd g.nqubits x (x + 1) l)
        (x := min c t) (mem_pyRange2.2 (by omega))
        (fun l hl => swapCall_high _ _ _ _ (.inl (.inr (by omega)))) mps rfl) _
    refine .bind_right fun s a s' e => ?_
    have ha := KeepsLen.foldlM (n := mps.length) (fun l x hl => hl ▸ swapCall_len svd g.nqubits x (x + 1) l) _ mps rfl
      s a s' e
    exact .py_right fun _ _ => .bind_left (applyTwo_raises _ _ _ _ (by omega)) _

theorem applyThree_raises (svd : SVDOracle) (G : Tensor ℂ) (mps : List (Tensor ℂ)) (i : ℤ)
    (h : (mps.length : ℤ) ≤ i + 1 ∨ i - 1 < -(mps.length : ℤ)) : TNRaises (Gate.applyThree svd G mps i) := by
  unfold Gate.applyThree
  rcases h with h | h
  · exact .py_right fun _ _ => .py_right fun _ _ => .py_left (pyGet_raises (.inl h))
  · exact .py_left (pyGet_raises (.inr h))

theorem toffoli_high (svd : SVDOracle) (g : Gate) (a b t : ℤ) (hw : g.wires = .list [a, b, t])
    (mps : List (Tensor ℂ)) (h : ∃ w ∈ [a, b, t], Outside mps.length w) :
    TNRaises (g.toffoli_TN_operation svd mps) := by
  unfold Gate.toffoli_TN_operation
  rw [hw]
  refine .py_right fun _ _ => ?_
  rw [show (Wires.list [a, b, t]).asList = .ok [a, b, t] from rfl, TNM.lift_ok_bind]
  have hp : ([a, b, t].mergeSort (· ≤ ·)).Perm [a, b, t] := List.mergeSort_perm _ _
  have hs : ([a, b, t].mergeSort (· ≤ ·)).Pairwise (· ≤ ·) := by
    have := List.pairwise_mergeSort (le := fun (x y : ℤ) => decide (x ≤ y)) (by simp; intro x y z; omega)
      (by simp; intro x y; omega) [a, b, t]
    simpa using this
  have hl := hp.length_eq
  generalize hm : [a, b, t].mergeSort (· ≤ ·) = sw at hp hs hl
  match sw, hl with
  | [u, m, d], _ =>
    obtain ⟨w, hw', hwl⟩ := h
    simp only [List.pairwise_cons, List.mem_cons, List.not_mem_nil, or_false, forall_eq_or_imp, forall_eq] at hs
    have hd : (mps.length : ℤ) ≤ d ∨ u < -(mps.length : ℤ) := by
      have : w ∈ [u, m, d] := hp.mem_iff.2 hw'
      simp only [List.mem_cons, List.not_mem_nil, or_false] at this
      unfold Outside at hwl
      omega
    have hmd : m ≤ d := by omega
    have hum : u ≤ m := by omega
    simp only
    rw [show pyGet [u, m, d] 0 = .ok u from rfl, show pyGet [u, m, d] 1 = .ok m from rfl,
      show pyGet [u, m, d] 2 = .ok d from rfl, TNM.lift_ok_bind, TNM.lift_ok_bind, TNM.lift_ok_bind]
    by_cases hlow : u < -(mps.length : ℤ) ∧ u < m - 1
    · exact .bind_left (TNRaises.foldlM (n := mps.length) (fun l x hl => hl ▸ swapCall_len svd g.nqubits x (x + 1) l)
        (x := u) (mem_pyRange2.2 (by omega))
        (fun l hl => swapCall_high _ _ _ _ (.inl (.inr (by omega)))) mps rfl) _
    refine .bind_right fun s l s' e => ?_
    have ha := KeepsLen.foldlM (n := mps.length) (fun l x hl => hl ▸ swapCall_len svd g.nqubits x (x + 1) l) _ mps
      rfl s l s' e
    by_cases hdm : m + 1 < d ∧ (mps.length : ℤ) ≤ d
    · refine .bind_left (TNRaises.foldlM (n := mps.length)
        (fun l x hl => hl ▸ swapCall_len svd g.nqubits (x - 1) x l) (x := d) (mem_pyRangeDown.2 ⟨hdm.1, le_rfl⟩)
        (fun l hl => ?_) l ha) _
      have := swapCall_high svd g.nqubits (d - 1) l (.inr (.inl (by omega)))
      rwa [show d - 1 + 1 = d by omega] at this
    · refine .bind_right fun s l' s' e => ?_
      have ha' := KeepsLen.foldlM (n := mps.length) (fun l x hl => hl ▸ swapCall_len svd g.nqubits (x - 1) x l) _ l
        ha s l' s' e
      exact .py_right fun _ _ => .py_right fun _ _ => .bind_left (applyThree_raises _ _ _ _ (by omega)) _

theorem single_high (g : Gate) (i : ℤ) (hw : g.wires = .int i) (mps : List (Tensor ℂ))
    (h : Outside mps.length i) : Raises (g.single_TN_operation mps) := by
  unfold Gate.single_TN_operation
  rw [hw]
  refine bind_raises fun _ _ => bind_raises fun j hj => ?_
  cases hj
  obtain ⟨e, he⟩ := pyGet_raises h
  exact ⟨e, by rw [he]; rfl⟩

/-! ## TN_contract -/

theorem pyRemove_raises {l : List ℤ} {x : ℤ} (h : x ∉ l) : Raises (pyRemove l x) :=
  ⟨_, by unfold pyRemove; rw [if_neg h]⟩

theorem mem_pyRange_iff {n x : ℤ} : x ∈ pyRange n ↔ 0 ≤ x ∧ x < n := by
  unfold pyRange
  simp only [List.mem_map, List.mem_range]
  constructor
  · rintro ⟨k, hk, rfl⟩; omega
  · rintro ⟨h1, h2⟩; exact ⟨x.toNat, by omega, by omega⟩

theorem raises_bind {α β : Type} {p : Py α} (h : Raises p) (f : α → Py β) : Raises (p >>= f) := by
  obtain ⟨e, rfl⟩ := h
  exact ⟨e, rfl⟩

theorem pyRemove_ok {l l' : List ℤ} {x : ℤ} (h : pyRemove l x = .ok l') : l' = l.erase x := by
  unfold pyRemove at h
  split_ifs at h
  cases h; rfl

theorem contract2_raises (m T : Tensor ℂ) (n c t : ℤ) (out : List ℕ → List ℤ)
    (h : c ∉ pyRange n ∨ t ∉ pyRange n) : Raises (Gate.contract2 m T n c t out) := by
  unfold Gate.contract2
  by_cases hc : c ∈ pyRange n
  · refine bind_raises fun p hp => raises_bind (pyRemove_raises ?_) _
    rw [pyRemove_ok hp]
    intro hm
    exact (h.resolve_left (not_not.2 hc)) (List.mem_of_mem_erase hm)
  · exact raises_bind (pyRemove_raises hc) _

theorem contract3_raises (m T : Tensor ℂ) (n a b t : ℤ) (out : List ℕ → List ℤ)
    (h : a ∉ pyRange n ∨ b ∉ pyRange n ∨ t ∉ pyRange n) : Raises (Gate.contract3 m T n a b t out) := by
  unfold Gate.contract3
  by_cases hc : a ∈ pyRange n
  · refine bind_raises fun p hp => ?_
    by_cases hb : b ∈ pyRange n
    · refine bind_raises fun q hq => raises_bind (pyRemove_raises ?_) _
      rw [pyRemove_ok hq, pyRemove_ok hp]
      intro hm
      exact ((h.resolve_left (not_not.2 hc)).resolve_left (not_not.2 hb))
        (List.mem_of_mem_erase (List.mem_of_mem_erase hm))
    · refine raises_bind (pyRemove_raises ?_) _
      rw [pyRemove_ok hp]
      intro hm
      exact hb (List.mem_of_mem_erase hm)
  · exact raises_bind (pyRemove_raises hc) _

theorem pyAssert_raises {c : Prop} [Decidable c] (h : ¬ c) : Raises (pyAssert c) := ⟨_, pyAssert_false h⟩

/-- Two-qubit gates other than SWAP. -/
theorem two_contract_raises (g : Gate) (c t : ℤ) (hw : g.wires = .list [c, t]) (T : Tensor ℂ) (b : Bool)
    (h : c = t ∨ (c < 0 ∧ (b = false ∨ c ≠ -1)) ∨ (t < 0 ∧ (b = false ∨ t ≠ -1)) ∨ g.nqubits ≤ c ∨ g.nqubits ≤ t) :
    Raises (g.two_TN_contract T b) := by
  unfold Gate.two_TN_contract
  rw [hw]
  refine bind_raises fun _ _ => ?_
  rw [asList_list, Py.ok_bind, (pyGet_pair _ _).1, Py.ok_bind, (pyGet_pair _ _).2, Py.ok_bind]
  refine bind_raises fun _ ha => ?_
  have hct : c ≠ t := by
    intro hct
    rw [pyAssert_false (by simpa using hct)] at ha; cases ha
  cases b
  · rw [if_pos rfl]
    refine bind_raises fun _ _ => contract2_raises _ _ _ _ _ _ ?_
    rw [mem_pyRange_iff, mem_pyRange_iff]; simp at h; omega
  · rw [if_neg (by simp)]
    refine bind_raises fun _ _ => contract2_raises _ _ _ _ _ _ ?_
    rw [mem_pyRange_iff, mem_pyRange_iff]; simp at h; omega

theorem toffoli_contract_raises (g : Gate) (x y t : ℤ) (hw : g.wires = .list [x, y, t]) (T : Tensor ℂ) (b : Bool)
    (h : x = y ∨ x = t ∨ y = t ∨ ∃ w ∈ [x, y, t], (w < 0 ∧ (b = false ∨ w ≠ -1)) ∨ g.nqubits ≤ w) :
    Raises (g.toffoli_TN_contract T b) := by
  unfold Gate.toffoli_TN_contract
  rw [hw]
  refine bind_raises fun _ _ => ?_
  rw [asList_list, Py.ok_bind, show pyGet [x, y, t] 0 = .ok x from rfl, Py.ok_bind,
    show pyGet [x, y, t] 1 = .ok y from rfl, Py.ok_bind, show pyGet [x, y, t] 2 = .ok t from rfl, Py.ok_bind]
  refine bind_raises fun _ ha => ?_
  have hd : x ≠ t ∧ y ≠ t ∧ x ≠ y := by
    by_contra hd
    rw [pyAssert_false hd] at ha; cases ha
  have h' : ∃ w ∈ [x, y, t], (w < 0 ∧ (b = false ∨ w ≠ -1)) ∨ g.nqubits ≤ w := by
    rcases h with h | h | h | h
    exacts [absurd h hd.2.2, absurd h hd.1, absurd h hd.2.1, h]
  cases b
  · rw [if_pos rfl]
    refine bind_raises fun _ _ => contract3_raises _ _ _ _ _ _ _ ?_
    rw [mem_pyRange_iff, mem_pyRange_iff, mem_pyRange_iff]; simp at h'; omega
  · rw [if_neg (by simp)]
    refine bind_raises fun _ _ => contract3_raises _ _ _ _ _ _ _ ?_
    rw [mem_pyRange_iff, mem_pyRange_iff, mem_pyRange_iff]; simp at h'; omega

theorem pyRange_len (n : ℤ) : (pyRange n).length = n.toNat := by simp [pyRange]

/-- Unbatched SWAP. -/
theorem swap_contract_raises (g : Gate) (c t : ℤ) (hw : g.wires = .list [c, t]) (T : Tensor ℂ)
    (h : c = t ∨ Outside g.nqubits.toNat c ∨ Outside g.nqubits.toNat t) :
    Raises (g.swap_TN_contract T false) := by
  unfold Gate.swap_TN_contract
  rw [hw]
  refine bind_raises fun _ _ => ?_
  rw [asList_list, Py.ok_bind, (pyGet_pair _ _).1, Py.ok_bind, (pyGet_pair _ _).2, Py.ok_bind]
  refine bind_raises fun _ ha => ?_
  have hct : c ≠ t := by
    intro hct
    rw [pyAssert_false (by simpa using hct)] at ha; cases ha
  rw [if_pos rfl]
  refine bind_raises fun _ _ => ?_
  rcases h.resolve_left hct with h | h
  · exact raises_bind (pySet_raises (by rw [pyRange_len]; exact h) _) _
  · exact bind_raises fun p hp => raises_bind (pySet_raises (by rw [pySet_length hp, pyRange_len]; exact h) _) _

/-- Unbatched single-qubit gates. -/
theorem single_contract_raises (g : Gate) (i : ℤ) (hw : g.wires = .int i) (T : Tensor ℂ)
    (h : Outside g.nqubits.toNat i) : Raises (g.single_TN_contract T false) := by
  unfold Gate.single_TN_contract
  rw [hw]
  refine bind_raises fun _ _ => bind_raises fun j hj => ?_
  cases hj
  rw [if_pos rfl]
  unfold Gate.contract1 Gate.singlePerm
  exact raises_bind (raises_bind (pySet_raises (by rw [pyRange_len]; exact h) _) _) _

/-! ## U_expand of SWAP -/

theorem swap_U_raises (g : Gate) (c t : ℤ) (hw : g.wires = .list [c, t])
    (h : Outside g.nqubits.toNat c ∨ Outside g.nqubits.toNat t) : Raises g.swap_U_expand := by
  unfold Gate.swap_U_expand
  rw [hw]
  refine bind_raises fun _ _ => ?_
  rw [asList_list, Py.ok_bind, (pyGet_pair _ _).1, Py.ok_bind, (pyGet_pair _ _).2, Py.ok_bind]
  refine raises_bind ?_ _
  have hl : (pyRep (Tensor.eye 2 : Tensor ℂ) g.nqubits).length = g.nqubits.toNat := by simp [pyRep]
  rcases h with h | h
  · exact raises_bind (pySet_raises (by rw [hl]; exact h) _) _
  · exact bind_raises fun p hp => raises_bind (pySet_raises (by rw [pySet_length hp, hl]; exact h) _) _

end QTN
