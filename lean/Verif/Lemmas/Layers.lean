import Verif.BuildLayer
import Verif.Lemmas.Reject

/-! # Single-qubit layers -/

namespace QTN

open Finset Spec Complex

variable {N : ℕ}

/-! ## Time-ordered products -/

theorem foldlM_left {ι : Type} (l : List ι) (f : ι → Py (Tensor ℂ)) (g : ι → QOp N)
    (h : ∀ i ∈ l, Computes (f i) (g i)) (acc : Tensor ℂ) (A : QOp N) (hA : Represents acc A) :
    ∃ r, l.foldlM (fun acc i => do let u ← f i; u.matmul acc) acc = .ok r ∧
      Represents r (l.foldl (fun A i => g i * A) A) := by
  induction l generalizing acc A with
  | nil => exact ⟨acc, rfl, hA⟩
  | cons i l ih =>
    obtain ⟨u, hu, ru⟩ := h i (by simp)
    obtain ⟨v, hv, rv⟩ := ru.matmul hA
    obtain ⟨r, hr, rr⟩ := ih (fun j hj => h j (by simp [hj])) v _ rv
    refine ⟨r, ?_, rr⟩
    rw [List.foldlM_cons, hu, Py.ok_bind, hv, Py.ok_bind, hr]

theorem foldlM_right {ι : Type} (l : List ι) (f : ι → Py (Tensor ℂ)) (g : ι → QOp N)
    (h : ∀ i ∈ l, Computes (f i) (g i)) (acc : Tensor ℂ) (A : QOp N) (hA : Represents acc A) :
    ∃ r, l.foldlM (fun acc i => do let u ← f i; acc.matmul u) acc = .ok r ∧
      Represents r (l.foldl (fun A i => A * g i) A) := by
  induction l generalizing acc A with
  | nil => exact ⟨acc, rfl, hA⟩
  | cons i l ih =>
    obtain ⟨u, hu, ru⟩ := h i (by simp)
    obtain ⟨v, hv, rv⟩ := hA.matmul ru
    obtain ⟨r, hr, rr⟩ := ih (fun j hj => h j (by simp [hj])) v _ rv
    refine ⟨r, ?_, rr⟩
    rw [List.foldlM_cons, hu, Py.ok_bind, hv, Py.ok_bind, hr]

theorem foldl_mul_left {R ι : Type} [Monoid R] (l : List ι) (g : ι → R) (A : R) :
    l.foldl (fun A i => g i * A) A = (l.map g).foldl (fun acc u => u * acc) 1 * A := by
  induction l generalizing A with
  | nil => simp
  | cons i l ih =>
    have h2 : ∀ (m : List R) (B : R), m.foldl (fun acc u => u * acc) B =
        m.foldl (fun acc u => u * acc) 1 * B := by
      intro m
      induction m with
      | nil => simp
      | cons u m ihm =>
        intro B
        rw [List.foldl_cons, List.foldl_cons, ihm, ihm (u * 1)]
        simp [mul_assoc]
    rw [List.foldl_cons, List.map_cons, List.foldl_cons, ih, h2 _ (g i * 1)]
    simp [mul_assoc]

@[simp] theorem timeOrdered_nil : timeOrdered ([] : List (QOp N)) = 1 := rfl

theorem timeOrdered_cons (u : QOp N) (l : List (QOp N)) :
    timeOrdered (u :: l) = timeOrdered l * u := by
  unfold timeOrdered
  have := foldl_mul_left l id (u * 1)
  simp only [List.foldl_cons, id, List.map_id] at *
  rw [this, mul_one]

theorem timeOrdered_append (l l' : List (QOp N)) :
    timeOrdered (l ++ l') = timeOrdered l' * timeOrdered l := by
  induction l with
  | nil => simp
  | cons u l ih => rw [List.cons_append, timeOrdered_cons, timeOrdered_cons, ih, mul_assoc]

theorem timeOrdered_singleton (u : QOp N) : timeOrdered [u] = u := by
  simp [timeOrdered]

theorem foldl_left_timeOrdered {ι : Type} (l : List ι) (g : ι → QOp N) :
    l.foldl (fun A i => g i * A) 1 = timeOrdered (l.map g) := by
  rw [foldl_mul_left, mul_one]; rfl

theorem foldl_right_timeOrdered {ι : Type} (l : List ι) (g : ι → QOp N) :
    l.foldl (fun A i => A * g i) 1 = timeOrdered (l.map g).reverse := by
  have : ∀ A : QOp N, l.foldl (fun A i => A * g i) A = A * timeOrdered (l.map g).reverse := by
    induction l with
    | nil => simp
    | cons i l ih =>
      intro A
      rw [List.foldl_cons, ih, List.map_cons, List.reverse_cons, timeOrdered_append,
        timeOrdered_singleton, mul_assoc]
  rw [this, one_mul]

theorem timeOrdered_unitary {l : List (QOp N)} (h : ∀ u ∈ l, IsUnitaryOp u) :
    IsUnitaryOp (timeOrdered l) := by
  induction l with
  | nil => exact isUnitaryOp_one
  | cons u l ih =>
    rw [timeOrdered_cons]
    exact (ih (fun v hv => h v (by simp [hv]))).mul (h u (by simp))

open Matrix in
theorem timeOrdered_conjTranspose (l : List (QOp N)) :
    (timeOrdered l)ᴴ = timeOrdered (l.map (fun u => uᴴ)).reverse := by
  induction l with
  | nil => simp
  | cons u l ih =>
    rw [timeOrdered_cons, conjTranspose_mul, ih, List.map_cons, List.reverse_cons,
      timeOrdered_append, timeOrdered_singleton]

/-! ## Wire lists -/

theorem wires_eq (ws : List (Fin N)) : wires ws = wireList ws := rfl

theorem pyGet_wires (ws : List (Fin N)) (i : ℕ) (h : i < ws.length) :
    pyGet (wires ws) (i : ℤ) = .ok (wire (ws.get ⟨i, h⟩)) := by
  rw [pyGet_nat (by simpa using h)]
  simp

theorem nodup_length_le {ws : List (Fin N)} (h : ws.Nodup) : ws.length ≤ N := by
  have := h.length_le_card
  simpa using this

/-- assignment of a matrix to every listed wire -/
theorem foldlM_pySet_idx (ws : List (Fin N)) (hw : ws.Nodup) (f : ℕ → Py (Tensor ℂ)) (k : ℕ)
    (m : ℕ → Tensor ℂ) (hm : ∀ i < ws.length, f (k + i) = .ok (m i)) (g : Fin N → Tensor ℂ) :
    ((wires ws).zipIdx k).foldlM (fun lst (wi : ℤ × ℕ) => do
      pySet lst wi.1 (← f wi.2)) (List.ofFn g) =
      (Except.ok (List.ofFn (fun j => if j ∈ ws then m (ws.idxOf j) else g j)) : Py _) := by
  induction ws generalizing k m g with
  | nil => simp
  | cons w ws ih =>
    obtain ⟨hw1, hw2⟩ := List.nodup_cons.1 hw
    rw [wires, List.map_cons, List.zipIdx_cons, List.foldlM_cons]
    have h0 : f k = .ok (m 0) := by simpa using hm 0 (by simp)
    simp only [h0, Py.ok_bind]
    rw [pySet_ofFn, Py.ok_bind]
    have := ih hw2 (k + 1) (fun i => m (i + 1))
      (fun i hi => by
        have := hm (i + 1) (by simpa using hi)
        rwa [Nat.add_assoc, Nat.add_comm 1 i]) (Function.update g w (m 0))
    rw [wires] at this
    rw [this]
    congr 2
    funext j
    by_cases hj : j = w
    · subst hj; simp [hw1]
    · have hj' : w ≠ j := fun e => hj e.symm
      simp [hj, List.idxOf_cons_ne _ hj']

/-! ## The matrices of a layer -/

theorem layerRot_rep {P : Tensor ℂ} {m : Mat2} (h : Represents2 P m) (θ : ℝ) :
    Represents2 (layerRot P θ) (Spec.rot m θ) := by
  have hh : (0.5 : ℝ) * θ = θ / 2 := by norm_num; ring
  unfold layerRot
  rw [hh]
  exact (represents2_eye.smul _).subT (h.smul _)

theorem seqRot3 {p : List ℝ} {k : ℕ} (h : k + 2 < p.length) (a b c : Mat2) :
    seqRot [a, b, c] (p.drop k) =
      Spec.rot c (p[k + 2]) * Spec.rot b (p[k + 1]) * Spec.rot a (p[k]) := by
  rw [List.drop_eq_getElem_cons (by omega), List.drop_eq_getElem_cons (by omega),
    List.drop_eq_getElem_cons (by omega)]
  simp [seqRot]

theorem seqRot2 {p : List ℝ} {k : ℕ} (h : k + 1 < p.length) (a b : Mat2) :
    seqRot [a, b] (p.drop k) = Spec.rot b (p[k + 1]) * Spec.rot a (p[k]) := by
  rw [List.drop_eq_getElem_cons (by omega), List.drop_eq_getElem_cons (by omega)]
  simp [seqRot]

theorem prod3_rep {p : List ℝ} {i : ℕ} (h : 3 * i + 2 < p.length) {A B C : Tensor ℂ} {a b c : Mat2}
    (hA : Represents2 A a) (hB : Represents2 B b) (hC : Represents2 C c) :
    ∃ t, SLayer.prod3 p i A B C = .ok t ∧ Represents2 t (seqRot [a, b, c] (p.drop (3 * i))) := by
  obtain ⟨x, hx, rx⟩ := (layerRot_rep hC (p[3 * i + 2])).matmul (layerRot_rep hB (p[3 * i + 1]))
  obtain ⟨y, hy, ry⟩ := rx.matmul (layerRot_rep hA (p[3 * i]))
  refine ⟨y, ?_, represents2_cast ry (seqRot3 h a b c).symm⟩
  unfold SLayer.prod3
  rw [pyGet_nat (by omega), Py.ok_bind, pyGet_nat (by omega), Py.ok_bind, pyGet_nat (by omega),
    Py.ok_bind]
  dsimp only
  rw [hx, Py.ok_bind]
  exact hy

theorem prod2_rep {p : List ℝ} {i : ℕ} (h : 2 * i + 1 < p.length) {A B : Tensor ℂ} {a b : Mat2}
    (hA : Represents2 A a) (hB : Represents2 B b) :
    ∃ t, SLayer.prod2 p i A B = .ok t ∧ Represents2 t (seqRot [a, b] (p.drop (2 * i))) := by
  obtain ⟨x, hx, rx⟩ := (layerRot_rep hB (p[2 * i + 1])).matmul (layerRot_rep hA (p[2 * i]))
  refine ⟨x, ?_, represents2_cast rx (seqRot2 h a b).symm⟩
  unfold SLayer.prod2
  rw [pyGet_nat (by omega), Py.ok_bind, pyGet_nat (by omega), Py.ok_bind]
  exact hx

theorem layerCls_arity (k : LayerKind) : (layerCls k).arity = k.axes.length := by
  cases k <;> rfl

theorem wireMat_rep (k : LayerKind) {n : ℤ} {w : List ℤ} {p : List ℝ} {L i : ℕ} (hi : i < L)
    (hp : p.length = k.axes.length * L) :
    ∃ t, (⟨layerCls k, n, w, p⟩ : SLayer).wireMat i = .ok t ∧
      Represents2 t (seqRot k.axes (p.drop (k.axes.length * i))) := by
  have h3 : ∀ q : List ℝ, q.length = 3 * L → 3 * i + 2 < q.length := fun q h => by omega
  have h2 : ∀ q : List ℝ, q.length = 2 * L → 2 * i + 1 < q.length := fun q h => by omega
  cases k <;> simp only [LayerKind.axes, List.length_cons, List.length_nil] at hp
  · exact prod3_rep (h3 _ hp) pauliXMat_rep pauliYMat_rep pauliZMat_rep
  · exact prod3_rep (h3 _ hp) pauliZMat_rep pauliYMat_rep pauliXMat_rep
  · exact prod3_rep (h3 _ hp) pauliYMat_rep pauliZMat_rep pauliYMat_rep
  · exact prod3_rep (h3 _ hp) pauliXMat_rep pauliZMat_rep pauliXMat_rep
  · exact prod2_rep (h2 _ hp) pauliXMat_rep pauliZMat_rep
  · exact prod2_rep (h2 _ hp) pauliZMat_rep pauliXMat_rep

/-- The list of matrices of a layer: `m i` on the `i`-th wire, given a representation of each. -/
theorem calGates_rep {wm : ℕ → Py (Tensor ℂ)} (ws : List (Fin N)) (hw : ws.Nodup) (m : ℕ → Mat2)
    (h : ∀ i < ws.length, ∃ t, wm i = .ok t ∧ Represents2 t (m i)) :
    ∃ f : Fin N → Tensor ℂ, SingleLayer.calGates N (wires ws) wm = .ok (List.ofFn f) ∧
      ∀ j, Represents2 (f j) (if j ∈ ws then m (ws.idxOf j) else 1) := by
  have h' : ∀ i, ∃ t, i < ws.length → wm i = .ok t ∧ Represents2 t (m i) := by
    intro i
    by_cases hi : i < ws.length
    · obtain ⟨t, ht⟩ := h i hi; exact ⟨t, fun _ => ht⟩
    · exact ⟨noMat, fun h => absurd h hi⟩
  choose t ht using h'
  refine ⟨fun j => if j ∈ ws then t (ws.idxOf j) else Tensor.eye 2, ?_, ?_⟩
  · unfold SingleLayer.calGates
    rw [pyRep_nat]
    exact foldlM_pySet_idx ws hw wm 0 t (fun i hi => by rw [Nat.zero_add]; exact (ht i hi).1) _
  · intro j
    by_cases hj : j ∈ ws
    · simp only [hj, if_true]
      exact (ht _ (List.idxOf_lt_length_of_mem hj)).2
    · simp only [hj, if_false]
      exact represents2_eye

theorem calGates_kron {wm : ℕ → Py (Tensor ℂ)} (hN : 0 < N) (ws : List (Fin N)) (hw : ws.Nodup)
    (m : ℕ → Mat2) (h : ∀ i < ws.length, ∃ t, wm i = .ok t ∧ Represents2 t (m i)) :
    Computes (do multi_kron (← SingleLayer.calGates N (wires ws) wm))
      (onEach (fun j => if j ∈ ws then m (ws.idxOf j) else 1)) := by
  obtain ⟨f, hf, hr⟩ := calGates_rep ws hw m h
  obtain ⟨U, hU, rU⟩ := multi_kron_rep' hN f _ hr
  refine ⟨U, ?_, rU⟩
  rw [hf, Py.ok_bind, hU]

theorem sLayer_rep (l : SLayer) (hN : 0 < N) (hn : l.nqubits = N) (ws : List (Fin N)) (hw : ws.Nodup)
    (hl : l.wires = wires ws) (m : ℕ → Mat2)
    (h : ∀ i < ws.length, ∃ t, l.wireMat i = .ok t ∧ Represents2 t (m i)) :
    Computes l.U_expand (onEach (fun j => if j ∈ ws then m (ws.idxOf j) else 1)) := by
  have := calGates_kron hN ws hw m h
  unfold SLayer.U_expand SLayer.calSingleGates
  rwa [hn, hl]

theorem mkSLayer_ok {c : LayerCls} {ws : List (Fin N)} {p : List ℝ} (hw : ws.Nodup)
    (hp : c.arity * ws.length = p.length) :
    mkSLayer c N (wires ws) p = .ok ⟨c, N, wires ws, p⟩ := by
  have := nodup_length_le hw
  unfold mkSLayer
  rw [raiseIf_false (by simpa using hp), Py.ok_bind, raiseIf_false (by simp; omega), Py.ok_bind]

theorem layer_rep (k : LayerKind) (ws : List (Fin N)) (p : List ℝ) (hN : 0 < N) (hw : ws.Nodup)
    (hp : p.length = k.axes.length * ws.length) :
    Computes (⟨layerCls k, N, wires ws, p⟩ : SLayer).U_expand (layerOp k.axes ws p) :=
  sLayer_rep _ hN rfl ws hw rfl (fun i => seqRot k.axes (p.drop (k.axes.length * i)))
    (fun _ hi => wireMat_rep k hi hp)

theorem hlayer_rep (ws : List (Fin N)) (hN : 0 < N) (hw : ws.Nodup) :
    Computes (⟨.h, N, wires ws, []⟩ : SLayer).U_expand (hOp ws) :=
  sLayer_rep _ hN rfl ws hw rfl (fun _ => H) (fun _ _ => ⟨_, rfl, hadamardMat_rep⟩)

/-! ## Unitarity -/

/-- Pauli axes -/
def IsAxis (P : Mat2) : Prop := P = Spec.X ∨ P = Spec.Y ∨ P = Spec.Z

theorem IsAxis.u2 {P : Mat2} (h : IsAxis P) (θ : ℝ) : IsU2 (Spec.rot P θ) := by
  rcases h with rfl | rfl | rfl
  · exact rot_u2 X_conj X_sq θ
  · exact rot_u2 Y_conj Y_sq θ
  · exact rot_u2 Z_conj Z_sq θ

theorem isU2_one : IsU2 1 := IsU2.of_left (by simp)

theorem seqRot_u2 (axes : List Mat2) (h : ∀ P ∈ axes, IsAxis P) (p : List ℝ) :
    IsU2 (seqRot axes p) := by
  induction axes generalizing p with
  | nil => unfold seqRot; exact isU2_one
  | cons P axes ih =>
    cases p with
    | nil => unfold seqRot; exact isU2_one
    | cons θ p =>
      unfold seqRot
      exact (ih (fun Q hQ => h Q (by simp [hQ])) p).mul ((h P (by simp)).u2 θ)

theorem axes_axis (k : LayerKind) : ∀ P ∈ k.axes, IsAxis P := by
  cases k <;> simp [LayerKind.axes, IsAxis]

theorem layerOp_unitary (axes : List Mat2) (h : ∀ P ∈ axes, IsAxis P) (ws : List (Fin N))
    (p : List ℝ) : IsUnitaryOp (layerOp axes ws p) :=
  onEach_unitary (fun j => by split_ifs; exacts [seqRot_u2 axes h _, isU2_one])

theorem hOp_unitary (ws : List (Fin N)) : IsUnitaryOp (hOp ws) :=
  onEach_unitary (fun j => by split_ifs; exacts [H_u2, isU2_one])

end QTN
