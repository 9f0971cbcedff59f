import Verif.Lemmas.KronOp
import Verif.Lemmas.Legacy

/-! # Property C57: the older layer functions -/

namespace QTN.Props

open QTN QTN.Spec QLayer

variable {N : ℕ}

/-! ## With the class that the file imports: every call raises -/

theorem mapM_first {α β : Type} {f : α → Py β} {e : PyErr} : ∀ {l : List α}, l ≠ [] → (∀ a ∈ l, f a = .error e) →
    l.mapM f = .error e
  | [], h, _ => absurd rfl h
  | a :: l, _, h => by rw [List.mapM_cons, h a (by simp)]; rfl

theorem pyRange_ne {n : ℤ} (h : 1 ≤ n) : pyRange n ≠ [] := by
  unfold pyRange
  intro e
  have := congrArg List.length e
  simp at this
  omega

theorem get_ok {p : List ℝ} {i : ℤ} (h0 : 0 ≤ i) (h : i < p.length) : ∃ x, pyGet p i = .ok x := by
  obtain ⟨k, rfl⟩ := Int.eq_ofNat_of_zero_le h0
  exact ⟨_, getI (k := k) (by omega) rfl⟩

theorem mem_pyRange {n i : ℤ} (h : i ∈ pyRange n) : 0 ≤ i ∧ i < n := by
  simp only [pyRange, List.mem_map, List.mem_range] at h
  obtain ⟨k, hk, rfl⟩ := h
  omega

theorem rot3_raises (a b c : ℝ → Py (Tensor ℂ)) (hc : ∀ θ, c θ = .error .typeError) (n : ℤ) (p : List ℝ) :
    rot3Layer circuitClass a b c n p =
      .error (if 1 ≤ n ∧ (p.length : ℤ) = 3 * n then .typeError else .valueError) := by
  unfold rot3Layer
  by_cases h1 : n < 1
  · rw [raiseIf_true h1, if_neg (by omega)]; rfl
  by_cases h2 : (p.length : ℤ) ≠ 3 * n
  · rw [raiseIf_false h1, raiseIf_true h2, if_neg (by omega)]; rfl
  rw [raiseIf_false h1, raiseIf_false h2, if_pos (by omega)]
  simp only [Py.ok_bind]
  rw [mapM_first (e := .typeError) (pyRange_ne (by omega)) fun i hi => ?_]
  · rfl
  · have := mem_pyRange hi
    obtain ⟨x, hx⟩ := get_ok (p := p) (i := 3 * i + 0) (by omega) (by omega)
    obtain ⟨y, hy⟩ := get_ok (p := p) (i := 3 * i + 1) (by omega) (by omega)
    obtain ⟨z, hz⟩ := get_ok (p := p) (i := 3 * i + 2) (by omega) (by omega)
    rw [hx, Py.ok_bind, hy, Py.ok_bind, hz, Py.ok_bind]
    unfold mm
    rw [hc]
    rfl

/-- C57 is false for the class that qlayer.py imports: the rotation layers and the Hadamard layer raise for
every number of qubits and every parameter list - TypeError for valid arguments (the gate methods are called
on the class without an object), ValueError otherwise. -/
theorem C57_rotation_raises (n : ℤ) (p : List ℝ) :
    XYZLayer circuitClass n p = .error (if 1 ≤ n ∧ (p.length : ℤ) = 3 * n then .typeError else .valueError) ∧
    YZYLayer circuitClass n p = .error (if 1 ≤ n ∧ (p.length : ℤ) = 3 * n then .typeError else .valueError) ∧
    XZXLayer circuitClass n p = .error (if 1 ≤ n ∧ (p.length : ℤ) = 3 * n then .typeError else .valueError) ∧
    XZLayer circuitClass n p = .error (if 1 ≤ n ∧ (p.length : ℤ) = 2 * n then .typeError else .valueError) ∧
    HLayer circuitClass n = .error (if 1 ≤ n then .typeError else .valueError) := by
  refine ⟨rot3_raises _ _ _ (fun _ => rfl) n p, rot3_raises _ _ _ (fun _ => rfl) n p,
    rot3_raises _ _ _ (fun _ => rfl) n p, ?_, ?_⟩
  · unfold XZLayer
    by_cases h1 : n < 1
    · rw [raiseIf_true h1, if_neg (by omega)]; rfl
    by_cases h2 : (p.length : ℤ) ≠ 2 * n
    · rw [raiseIf_false h1, raiseIf_true h2, if_neg (by omega)]; rfl
    rw [raiseIf_false h1, raiseIf_false h2, if_pos (by omega)]
    simp only [Py.ok_bind]
    rw [mapM_first (e := .typeError) (pyRange_ne (by omega)) fun i hi => ?_]
    · rfl
    · have := mem_pyRange hi
      obtain ⟨x, hx⟩ := get_ok (p := p) (i := 2 * i + 0) (by omega) (by omega)
      obtain ⟨y, hy⟩ := get_ok (p := p) (i := 2 * i + 1) (by omega) (by omega)
      rw [hx, Py.ok_bind, hy, Py.ok_bind]
      rfl
  · unfold HLayer
    by_cases h1 : n < 1
    · rw [raiseIf_true h1, if_neg (by omega)]; rfl
    have hm : (pyRange n).mapM (fun _ => circuitClass.hadamard) = .error .typeError :=
      mapM_first (pyRange_ne (by omega)) fun _ _ => rfl
    rw [raiseIf_false h1, if_pos (by omega), Py.ok_bind, hm]
    rfl

theorem loop_first {g : ℤ → ℤ → ℤ → Py (Tensor ℂ)} (hg : ∀ a b c, g a b c = .error .attributeError) (n : ℤ)
    {l : List (ℤ × ℤ)} (hl : l ≠ []) (rst : Tensor ℂ) : loop g n l rst = .error .attributeError := by
  obtain ⟨x, l, rfl⟩ := List.exists_cons_of_ne_nil hl
  unfold loop
  rw [List.foldlM_cons, hg]
  rfl

theorem entangle_raises {g : ℤ → ℤ → ℤ → Py (Tensor ℂ)} (hg : ∀ a b c, g a b c = .error .attributeError) (n : ℤ)
    (up : Bool) (rest : Tensor ℂ → Py (Tensor ℂ)) (hr : 3 ≤ n → ∀ rst, rest rst = .error .attributeError) :
    entangle g n up rest = .error (if 2 ≤ n then .attributeError else .valueError) := by
  unfold entangle
  by_cases h1 : n < 2
  · rw [raiseIf_true h1, if_neg (c := 2 ≤ n) (by omega)]; rfl
  rw [raiseIf_false h1, if_pos (c := 2 ≤ n) (by omega), Py.ok_bind]
  by_cases h2 : n = 2
  · rw [if_pos h2]
    split <;> exact hg _ _ _
  · rw [if_neg h2]
    exact hr (by omega) _

theorem map_ne {α β : Type} {l : List α} {f : α → β} (h : 0 < l.length) : l.map f ≠ [] := by
  intro e
  have := congrArg List.length e
  simp at this
  simp [this] at h

theorem length_down (n : ℤ) : (pyRangeDown (n - 1) (-1)).length = n.toNat := by
  simp [pyRangeDown]

theorem ring_raises {g : ℤ → ℤ → ℤ → Py (Tensor ℂ)} (hg : ∀ a b c, g a b c = .error .attributeError) (d n : ℤ)
    (up : Bool) : ring g d n up = .error (if 2 ≤ n then .attributeError else .valueError) := by
  refine entangle_raises hg n up _ fun h rst => ?_
  split
  · exact loop_first hg n (map_ne (by simp [pyRange]; omega)) rst
  · exact loop_first hg n (map_ne (by rw [length_down]; omega)) rst

theorem nearest_raises {g : ℤ → ℤ → ℤ → Py (Tensor ℂ)} (hg : ∀ a b c, g a b c = .error .attributeError) (n : ℤ)
    (up : Bool) : nearest g n up = .error (if 2 ≤ n then .attributeError else .valueError) := by
  refine entangle_raises hg n up _ fun h rst => ?_
  split
  · rw [loop_first hg n (map_ne (by simp [rangeUp2]; omega)) rst]; rfl
  · rw [loop_first hg n (map_ne (by simp [rangeDown2]; omega)) rst]; rfl

/-- C57 is false for the class that qlayer.py imports: the entangling layers raise for every number of qubits -
AttributeError from two qubits on (`self` is an integer), ValueError below. -/
theorem C57_entangle_raises (n : ℤ) (up : Bool) :
    let e : Py (Tensor ℂ) := .error (if 2 ≤ n then .attributeError else .valueError)
    ring_of_cnot circuitClass n up = e ∧ ring_of_cnot2 circuitClass n up = e ∧
    ring_of_cz circuitClass n up = e ∧ nearest_neighbor_cnot circuitClass n up = e ∧
    nearest_neighbor_cz circuitClass n up = e ∧ all2all_cnot circuitClass n up = e := by
  have hc : ∀ a b c, circuitClass.cnot a b c = .error .attributeError := fun _ _ _ => rfl
  have hz : ∀ a b c, circuitClass.cz a b c = .error .attributeError := fun _ _ _ => rfl
  refine ⟨ring_raises hc 1 n up, ring_raises hc 2 n up, ring_raises hz 1 n up, nearest_raises hc n up,
    nearest_raises hz n up, entangle_raises hc n up _ fun h rst => loop_first hc n ?_ rst⟩
  have key : ∀ r : List ℤ, (0 : ℤ) ∈ r → (1 : ℤ) ∈ r →
      r.flatMap (fun i => (r.filter (fun j => j ≠ i)).map (fun j => (i, j))) ≠ [] := by
    intro r h0 h1 e
    have : ((0 : ℤ), (1 : ℤ)) ∈ r.flatMap (fun i => (r.filter (fun j => j ≠ i)).map (fun j => (i, j))) := by
      simp [h0, h1]
    rw [e] at this
    simp at this
  refine key _ ?_ ?_
  · split
    · simp only [pyRange, List.mem_map, List.mem_range]; exact ⟨0, by omega, rfl⟩
    · simp only [pyRangeDown, List.mem_map, List.mem_range]; exact ⟨(n - 1).toNat, by omega, by omega⟩
  · split
    · simp only [pyRange, List.mem_map, List.mem_range]; exact ⟨1, by omega, rfl⟩
    · simp only [pyRangeDown, List.mem_map, List.mem_range]; exact ⟨(n - 2).toNat, by omega, by omega⟩

theorem slice_len (p : List ℝ) (k : ℤ) : (slice p 0 k).length = min k.toNat p.length := by
  simp [slice]

theorem select_raises (n : ℤ) (p : List ℝ) (s : String) {k : ℤ} (hk : 1 ≤ k)
    (hp : s ∈ ["YZY", "XZX", "XYZ", "XZ"] → (p.length : ℤ) = k * s.length * n) :
    select circuitClass n p s 0 1 =
      .error (if s ∈ ["YZY", "XZX", "XYZ", "XZ"] ∧ 1 ≤ n then .typeError else .valueError) := by
  have key : ∀ (m : ℤ), 0 ≤ m → (p.length : ℤ) = k * m * n →
      ((1 ≤ n ∧ ((slice p (m * 0 * n) (m * 1 * n)).length : ℤ) = m * n) ↔ 1 ≤ n) := by
    refine fun m hm h => ⟨fun h => h.1, fun hn => ⟨hn, ?_⟩⟩
    have h2 : m * n ≤ k * m * n := by nlinarith [mul_nonneg hm (show (0 : ℤ) ≤ n by omega)]
    have h3 : 0 ≤ m * n := mul_nonneg hm (by omega)
    rw [mul_zero, zero_mul, mul_one, slice_len]
    omega
  unfold select
  by_cases h1 : s = "YZY"
  · subst h1
    rw [if_pos rfl, (C57_rotation_raises n _).2.1]
    simp only [key 3 (by norm_num) (hp (by simp)), List.mem_cons, true_or, true_and]
  by_cases h2 : s = "XZX"
  · subst h2
    rw [if_neg h1, if_pos rfl, (C57_rotation_raises n _).2.2.1]
    simp only [key 3 (by norm_num) (hp (by simp)), List.mem_cons, true_or, or_true, true_and]
  by_cases h3 : s = "XYZ"
  · subst h3
    rw [if_neg h1, if_neg h2, if_pos rfl, (C57_rotation_raises n _).1]
    simp only [key 3 (by norm_num) (hp (by simp)), List.mem_cons, true_or, or_true, true_and]
  by_cases h4 : s = "XZ"
  · subst h4
    rw [if_neg h1, if_neg h2, if_neg h3, if_pos rfl, (C57_rotation_raises n _).2.2.2.1]
    simp only [key 2 (by norm_num) (hp (by simp)), List.mem_cons, true_or, or_true, true_and]
  rw [if_neg h1, if_neg h2, if_neg h3, if_neg h4, if_neg]
  simp [h1, h2, h3, h4]

theorem check_cases (k n : ℤ) (p : List ℝ) (s : String) :
    (checkParams k n p s = .error .valueError ∧
      ¬ (s ∈ ["YZY", "XZX", "XYZ", "XZ"] ∧ (p.length : ℤ) = k * s.length * n)) ∨
    (checkParams k n p s = .ok () ∧
      (s ∈ ["YZY", "XZX", "XYZ", "XZ"] → (p.length : ℤ) = k * s.length * n)) := by
  unfold checkParams
  by_cases h3 : s.length = 3 ∧ (p.length : ℤ) ≠ 3 * k * n
  · refine .inl ⟨by rw [raiseIf_true h3]; rfl, fun h => h3.2 ?_⟩
    rw [h.2, h3.1]; push_cast; ring
  by_cases h2 : s.length = 2 ∧ (p.length : ℤ) ≠ 2 * k * n
  · refine .inl ⟨by rw [raiseIf_false h3, raiseIf_true h2]; rfl, fun h => h2.2 ?_⟩
    rw [h.2, h2.1]; push_cast; ring
  refine .inr ⟨by rw [raiseIf_false h3, raiseIf_false h2]; rfl, fun h => ?_⟩
  have hs : s.length = 3 ∨ s.length = 2 := by
    simp only [List.mem_cons, List.not_mem_nil, or_false] at h
    rcases h with rfl | rfl | rfl | rfl
    · exact .inl rfl
    · exact .inl rfl
    · exact .inl rfl
    · exact .inr rfl
  rcases hs with hs | hs
  · have : (p.length : ℤ) = 3 * k * n := by_contra fun h => h3 ⟨hs, h⟩
    rw [this, hs]; push_cast; ring
  · have : (p.length : ℤ) = 2 * k * n := by_contra fun h => h2 ⟨hs, h⟩
    rw [this, hs]; push_cast; ring

theorem basic_raises (n : ℤ) (p : List ℝ) (s : String) :
    basic_entangle_layer circuitClass n p s = .error (if s ∈ ["YZY", "XZX", "XYZ", "XZ"] ∧ 1 ≤ n ∧
      (p.length : ℤ) = 1 * s.length * n then .typeError else .valueError) := by
  unfold basic_entangle_layer
  rcases check_cases 1 n p s with ⟨h, h'⟩ | ⟨h, h'⟩
  · rw [h, if_neg fun h => h' ⟨h.1, h.2.2⟩]; rfl
  · rw [h, Py.ok_bind, select_raises n p s le_rfl h']
    by_cases hs : s ∈ ["YZY", "XZX", "XYZ", "XZ"] ∧ 1 ≤ n
    · rw [if_pos hs, if_pos ⟨hs.1, hs.2, h' hs.1⟩]; rfl
    · rw [if_neg hs, if_neg fun h => hs ⟨h.1, h.2.1⟩]; rfl

theorem pair_raises {r : ℝ → Py (Tensor ℂ)} (hr : ∀ θ, r θ = .error .typeError) (n : ℤ) (p : List ℝ) :
    pairLayer circuitClass r n p =
      .error (if 2 ≤ n ∧ n - 1 = p.length then .typeError else .valueError) := by
  unfold pairLayer
  by_cases h1 : n - 1 ≠ p.length
  · rw [raiseIf_true h1, if_neg (c := 2 ≤ n ∧ n - 1 = p.length) (by omega)]; rfl
  by_cases h2 : n < 2
  · rw [raiseIf_false h1, raiseIf_true h2, if_neg (c := 2 ≤ n ∧ n - 1 = p.length) (by omega)]; rfl
  rw [raiseIf_false h1, raiseIf_false h2, if_pos (c := 2 ≤ n ∧ n - 1 = p.length) (by omega)]
  simp only [Py.ok_bind]
  have hm : ∀ k : ℤ, 1 ≤ k → (slice p 0 k).mapM r = .error .typeError := fun k hk => by
    refine mapM_first ?_ fun θ _ => hr θ
    intro e
    have := congrArg List.length e
    simp only [slice, List.length_drop, List.length_take, List.length_nil] at this
    omega
  by_cases h3 : n = 2
  · rw [if_pos h3]
    obtain ⟨x, hx⟩ := get_ok (p := p) (i := 0) (by omega) (by omega)
    rw [hx, Py.ok_bind, hr]
  rw [if_neg h3]
  split
  · rw [hm _ (by omega)]; rfl
  · rw [hm _ (by omega)]; rfl

/-- C57 is false for the class that qlayer.py imports: the combined layers and the layers of two-qubit rotations
raise on every input, TypeError for valid arguments and ValueError for others. -/
theorem C57_combined_raises (n : ℤ) (p : List ℝ) (s : String) :
    let e (k : ℤ) : Py (Tensor ℂ) := .error (if s ∈ ["YZY", "XZX", "XYZ", "XZ"] ∧ 1 ≤ n ∧
      (p.length : ℤ) = k * s.length * n then .typeError else .valueError)
    let f : Py (Tensor ℂ) := .error (if 2 ≤ n ∧ n - 1 = p.length then .typeError else .valueError)
    basic_entangle_layer circuitClass n p s = e 1 ∧ basic_entangle_layer2 circuitClass n p s = e 2 ∧
    strong_entangle_layer circuitClass n p s = e 2 ∧ RxxLayer circuitClass n p = f ∧
    RyyLayer circuitClass n p = f ∧ RzzLayer circuitClass n p = f := by
  refine ⟨basic_raises n p s, ?_, ?_, pair_raises (fun _ => rfl) n p, pair_raises (fun _ => rfl) n p,
    pair_raises (fun _ => rfl) n p⟩
  · unfold basic_entangle_layer2
    beta_reduce
    dsimp only
    rcases check_cases 2 n p s with ⟨h, h'⟩ | ⟨h, h'⟩
    · rw [h, if_neg fun h => h' ⟨h.1, h.2.2⟩]; rfl
    · rw [h, Py.ok_bind, basic_raises]
      by_cases hs : s ∈ ["YZY", "XZX", "XYZ", "XZ"] ∧ 1 ≤ n
      · have h1 := h' hs.1
        have h0 : (0 : ℤ) ≤ s.length * n := mul_nonneg (by omega) (by omega)
        have h2 : ((p.take (s.length * n).toNat).length : ℤ) = 1 * s.length * n := by
          rw [mul_assoc] at h1
          rw [List.length_take, one_mul]
          omega
        rw [if_pos ⟨hs.1, hs.2, h2⟩, if_pos ⟨hs.1, hs.2, h1⟩]
        rfl
      · rw [if_neg fun h => hs ⟨h.1, h.2.1⟩, if_neg fun h => hs ⟨h.1, h.2.1⟩]; rfl
  · unfold strong_entangle_layer
    beta_reduce
    rcases check_cases 2 n p s with ⟨h, h'⟩ | ⟨h, h'⟩
    · rw [h, if_neg fun h => h' ⟨h.1, h.2.2⟩]; rfl
    · rw [h, Py.ok_bind, select_raises n p s one_le_two h']
      by_cases hs : s ∈ ["YZY", "XZX", "XYZ", "XZ"] ∧ 1 ≤ n
      · rw [if_pos hs, if_pos ⟨hs.1, hs.2, h' hs.1⟩]; rfl
      · rw [if_neg hs, if_neg fun h => hs ⟨h.1, h.2.1⟩]; rfl

/-! ## With gate functions that return the matrices they are named after -/

/-- C57 (partial: `cir` has to provide gate functions instead of the class that is imported): the rotation layers
rotate qubit `i` about the named axes with the angles `p[3i], p[3i+1], p[3i+2]`.
Missing for the full statement: with the imported class they raise (`C57_rotation_raises`). -/
theorem C57_rotation_partial (cir : Cir) (h : GateFunctions cir) (hN : 0 < N) (p : List ℝ) :
    (p.length = 3 * N → Computes (XYZLayer cir N p) (layerOp [X, Y, Z] (List.finRange N) p) ∧
      Computes (YZYLayer cir N p) (layerOp [Y, Z, Y] (List.finRange N) p) ∧
      Computes (XZXLayer cir N p) (layerOp [X, Z, X] (List.finRange N) p)) ∧
    (p.length = 2 * N → Computes (XZLayer cir N p) (layerOp [X, Z] (List.finRange N) p)) ∧
    Computes (HLayer cir N) (hOp (List.finRange N)) :=
  ⟨fun hp => ⟨rot3Layer_rep h h.rx h.ry h.rz hN p hp, rot3Layer_rep h h.ry h.rz h.ry hN p hp,
    rot3Layer_rep h h.rx h.rz h.rx hN p hp⟩, fun hp => xzLayer_rep h hN p hp, hLayer_rep h hN⟩

/-- C57 (partial: as above): the entangling layers apply a controlled gate to the pairs of their pattern, in the
order of the pattern, with the wires numbered from the top or from the bottom. -/
theorem C57_entangle_partial (cir : Cir) (h : GateFunctions cir) (hN : 2 ≤ N) (up : Bool) :
    Computes (ring_of_cnot cir N up) (entangleOp X up (cyclic N 1)) ∧
    Computes (ring_of_cnot2 cir N up) (entangleOp X up (cyclic N 2)) ∧
    Computes (ring_of_cz cir N up) (entangleOp Z up (cyclic N 1)) ∧
    Computes (nearest_neighbor_cnot cir N up) (entangleOp X up (neighbours N)) ∧
    Computes (nearest_neighbor_cz cir N up) (entangleOp Z up (neighbours N)) ∧
    Computes (all2all_cnot cir N up) (entangleOp X up (allPairs N)) :=
  ⟨cyclic_rep h.cnot hN one_pos (by omega) up, cyclic_rep h.cnot hN two_pos le_rfl up,
    cyclic_rep h.cz hN one_pos (by omega) up, nearest_rep h.cnot hN up, nearest_rep h.cz hN up,
    all2all_rep h.cnot hN up⟩

/-- C57 (partial: as above): the layers of two-qubit rotations. -/
theorem C57_pairs_partial (cir : Cir) (h : GateFunctions cir) (hN : 2 ≤ N) (p : List ℝ) (hp : p.length = N - 1) :
    Computes (RxxLayer cir N p) (pairRotOp N X p) ∧ Computes (RyyLayer cir N p) (pairRotOp N Y p) ∧
    Computes (RzzLayer cir N p) (pairRotOp N Z p) :=
  ⟨pairLayer_rep h h.rxx hN hp, pairLayer_rep h h.ryy hN hp, pairLayer_rep h h.rzz hN hp⟩

theorem select_rep {cir : Cir} (h : GateFunctions cir) (hN : 0 < N) (p : List ℝ) {s : String} {axes : List Mat2}
    (hs : (s, axes) ∈ [("YZY", [Y, Z, Y]), ("XZX", [X, Z, X]), ("XYZ", [X, Y, Z]), ("XZ", [X, Z])]) {lo : ℕ}
    (hp : axes.length * (lo + 1) * N ≤ p.length) :
    Computes (select cir N p s lo (lo + 1)) (layerOp axes (List.finRange N)
      ((p.drop (axes.length * lo * N)).take (axes.length * N))) := by
  have hsl : ∀ k : ℕ, slice p (k * lo * N) (k * (lo + 1) * N) = (p.drop (k * lo * N)).take (k * N) := fun k => by
    unfold slice
    have e1 : ((k : ℤ) * lo * N).toNat = k * lo * N := by
      rw [show (k : ℤ) * lo * N = ((k * lo * N : ℕ) : ℤ) by push_cast; ring, Int.toNat_natCast]
    have e2 : ((k : ℤ) * (lo + 1) * N).toNat = k * lo * N + k * N := by
      rw [show (k : ℤ) * (lo + 1) * N = ((k * lo * N + k * N : ℕ) : ℤ) by push_cast; ring, Int.toNat_natCast]
    rw [e1, e2, List.drop_take]
    congr 1
    omega
  have hl : ((p.drop (axes.length * lo * N)).take (axes.length * N)).length = axes.length * N := by
    have : axes.length * (lo + 1) * N = axes.length * lo * N + axes.length * N := by ring
    simp only [List.length_take, List.length_drop]
    omega
  have h3 := hsl 3
  have h2 := hsl 2
  simp only [List.mem_cons, Prod.mk.injEq, List.not_mem_nil, or_false] at hs
  rcases hs with ⟨rfl, rfl⟩ | ⟨rfl, rfl⟩ | ⟨rfl, rfl⟩ | ⟨rfl, rfl⟩
  · have := ((C57_rotation_partial cir h hN _).1 hl).2.1
    unfold select
    rw [if_pos rfl]
    exact h3.symm ▸ this
  · have := ((C57_rotation_partial cir h hN _).1 hl).2.2
    unfold select
    rw [if_neg (by decide), if_pos rfl]
    exact h3.symm ▸ this
  · have := ((C57_rotation_partial cir h hN _).1 hl).1
    unfold select
    rw [if_neg (by decide), if_neg (by decide), if_pos rfl]
    exact h3.symm ▸ this
  · have := (C57_rotation_partial cir h hN _).2.1 hl
    unfold select
    rw [if_neg (by decide), if_neg (by decide), if_neg (by decide), if_pos rfl]
    exact h2.symm ▸ this

theorem checkParams_ok {s : String} {axes : List Mat2}
    (hs : (s, axes) ∈ [("YZY", [Y, Z, Y]), ("XZX", [X, Z, X]), ("XYZ", [X, Y, Z]), ("XZ", [X, Z])]) {k : ℕ}
    {p : List ℝ} (hp : p.length = axes.length * k * N) :
    checkParams k N p s = .ok () ∧ s.length = axes.length := by
  have e : (p.length : ℤ) = axes.length * k * N := by rw [hp]; push_cast; ring
  simp only [List.mem_cons, Prod.mk.injEq, List.not_mem_nil, or_false] at hs
  unfold checkParams
  rcases hs with ⟨rfl, rfl⟩ | ⟨rfl, rfl⟩ | ⟨rfl, rfl⟩ | ⟨rfl, rfl⟩
  all_goals
    refine ⟨?_, rfl⟩
    rw [raiseIf_false, Py.ok_bind, raiseIf_false]
  all_goals
    first
    | exact fun h => h.2 e
    | exact fun h => absurd h.1 (by decide)

/-- C57 (partial: as above): the combined layers are a rotation layer followed by a ring of CNOTs, once or twice;
the strongly entangling layer uses the ring of second neighbours the second time. -/
theorem C57_combined_partial (cir : Cir) (h : GateFunctions cir) (hN : 2 ≤ N) (s : String) (axes : List Mat2)
    (hs : (s, axes) ∈ [("YZY", [Y, Z, Y]), ("XZX", [X, Z, X]), ("XYZ", [X, Y, Z]), ("XZ", [X, Z])]) (p q : List ℝ)
    (hp : p.length = axes.length * N) (hq : q.length = axes.length * N) :
    let L := layerOp axes (List.finRange N)
    let R := fun d => (entangleOp X true (cyclic N d) : QOp N)
    Computes (basic_entangle_layer cir N p s) (R 1 * L p) ∧
    Computes (basic_entangle_layer2 cir N (p ++ q) s) (R 1 * L q * (R 1 * L p)) ∧
    Computes (strong_entangle_layer cir N (p ++ q) s) (R 2 * L q * R 1 * L p) := by
  have hb : ∀ r : List ℝ, r.length = axes.length * N → Computes (basic_entangle_layer cir N r s)
      (entangleOp X true (cyclic N 1) * layerOp axes (List.finRange N) r) := by
    intro r hr
    obtain ⟨S, eS, rS⟩ := select_rep h (show 0 < N by omega) r hs (lo := 0) (by rw [hr]; simp)
    obtain ⟨C, eC, rC⟩ := (C57_entangle_partial cir h hN true).1
    obtain ⟨U, eU, rU⟩ := rC.matmul rS
    refine ⟨U, ?_, rU.congr ?_⟩
    · unfold basic_entangle_layer
      have hc := (checkParams_ok hs (k := 1) (N := N) (p := r) (by rw [hr]; ring)).1
      rw [show ((1 : ℕ) : ℤ) = 1 from rfl] at hc
      rw [hc, Py.ok_bind, show select cir N r s 0 1 = .ok S from eS, Py.ok_bind, eC, Py.ok_bind, eU]
    · rw [mul_zero, zero_mul, List.drop_zero, List.take_of_length_le hr.le]
  have hlen : (p ++ q).length = axes.length * 2 * N := by rw [List.length_append, hp, hq]; ring
  obtain ⟨hc, hsl⟩ := checkParams_ok hs (k := 2) (N := N) (p := p ++ q) hlen
  rw [show ((2 : ℕ) : ℤ) = 2 from rfl] at hc
  refine ⟨hb p hp, ?_, ?_⟩
  · obtain ⟨L1, e1, r1⟩ := hb p hp
    obtain ⟨L2, e2, r2⟩ := hb q hq
    obtain ⟨U, eU, rU⟩ := r2.matmul r1
    refine ⟨U, ?_, rU⟩
    unfold basic_entangle_layer2
    have hn : (((s.length : ℕ) : ℤ) * (N : ℤ)).toNat = p.length := by rw [hsl, hp]; exact_mod_cast rfl
    rw [hc, Py.ok_bind]
    simp only [hn, List.take_left, List.drop_left, e1, e2, Py.ok_bind, eU]
  · obtain ⟨S1, e1, r1⟩ := select_rep h (show 0 < N by omega) (p ++ q) hs (lo := 0) (by rw [hlen]; nlinarith)
    obtain ⟨S2, e2, r2⟩ := select_rep h (show 0 < N by omega) (p ++ q) hs (lo := 1) (by rw [hlen])
    obtain ⟨C1, e3, r3⟩ := (C57_entangle_partial cir h hN true).1
    obtain ⟨C2, e4, r4⟩ := (C57_entangle_partial cir h hN true).2.1
    obtain ⟨A, eA, rA⟩ := r4.matmul r2
    obtain ⟨B, eB, rB⟩ := rA.matmul r3
    obtain ⟨U, eU, rU⟩ := rB.matmul r1
    refine ⟨U, ?_, rU.congr ?_⟩
    · unfold strong_entangle_layer
      rw [hc, Py.ok_bind, show select cir N (p ++ q) s 0 1 = .ok S1 from e1, Py.ok_bind,
        show select cir N (p ++ q) s 1 2 = .ok S2 from e2, Py.ok_bind, e3, Py.ok_bind, e4, Py.ok_bind, eA,
        Py.ok_bind, eB, Py.ok_bind, eU]
    · rw [mul_zero, zero_mul, List.drop_zero, ← hp, List.take_left, mul_one, ← hp, List.drop_left,
        List.take_of_length_le (by rw [hq, hp])]

/-- C57: with such gate functions the rings from the top are those of the newer layer classes. -/
theorem C57_same_ring (hN : 2 ≤ N) (d : ℕ) : (entangleOp X true (cyclic N d) : QOp N) = ringOp d (List.finRange N) := by
  unfold entangleOp
  by_cases h2 : N = 2
  · subst h2
    rw [dif_pos rfl]
    rfl
  · rw [dif_neg h2, ringOp_of_ne (by simpa using h2)]
    unfold pairGates ringGates cyclic
    congr 1
    apply List.ext_getElem
    · simp
    · intro i h1 h2
      simp [order]

/-- Gate functions as the file expects them: the matrices of qgate.py as plain functions. -/
noncomputable def plainFns : Cir where
  rx θ := .ok (Legacy.rxMat θ)
  ry θ := .ok (Legacy.ryMat θ)
  rz θ := .ok (Legacy.rzMat θ)
  hadamard := .ok Legacy.hMat
  multi_kron := QTN.multi_kron
  cnot n c t := Legacy.two_qubit_control_gate Legacy.xMat n c t
  cz n c t := Legacy.two_qubit_control_gate Legacy.zMat n c t
  rxx θ := Legacy.two_qubit_rotation_gate θ 2 0 1 Legacy.xMat
  ryy θ := Legacy.two_qubit_rotation_gate θ 2 0 1 Legacy.yMat
  rzz θ := Legacy.two_qubit_rotation_gate θ 2 0 1 Legacy.zMat

/-- The gate functions of the hypotheses exist. -/
example : GateFunctions plainFns where
  rx θ := ⟨_, rfl, Legacy.rxMat_rep θ⟩
  ry θ := ⟨_, rfl, Legacy.ryMat_rep θ⟩
  rz θ := ⟨_, rfl, Legacy.rzMat_rep θ⟩
  hadamard := ⟨_, rfl, Legacy.hMat_rep⟩
  multi_kron x l := rfl
  cnot N c t hct := Legacy.two_control_rep (Legacy.qubitAt_wire c) hct Legacy.xMat_rep
  cz N c t hct := Legacy.two_control_rep (Legacy.qubitAt_wire c) hct Legacy.zMat_rep
  rxx θ := Legacy.rotation_rep (p := (0 : Fin 2)) (q := 1) (by decide) Legacy.xMat_rep θ
  ryy θ := Legacy.rotation_rep (p := (0 : Fin 2)) (q := 1) (by decide) Legacy.yMat_rep θ
  rzz θ := Legacy.rotation_rep (p := (0 : Fin 2)) (q := 1) (by decide) Legacy.zMat_rep θ

/-- Three qubits, nine different angles. -/
example : ([1, 2, 3, 4, 5, 6, 7, 8, 9] : List ℝ).length = ([Y, Z, Y] : List Mat2).length * 3 ∧
    ([0.5, 1.5] : List ℝ).length = 3 - 1 := ⟨rfl, rfl⟩

/-- C57: valid arguments of the combined layers raise TypeError, a name of an unknown layer ValueError. -/
example (p : List ℝ) (hp : p.length = 18) : strong_entangle_layer circuitClass 3 p "YZY" = .error .typeError ∧
    strong_entangle_layer circuitClass 3 p "ZZZ" = .error .valueError := by
  constructor
  · rw [(C57_combined_raises 3 p "YZY").2.2.1]
    beta_reduce
    rw [if_pos ⟨by simp, by norm_num, by rw [hp]; rfl⟩]
  · rw [(C57_combined_raises 3 p "ZZZ").2.2.1]
    beta_reduce
    rw [if_neg]
    rintro ⟨h, -⟩
    simp at h

end QTN.Props
