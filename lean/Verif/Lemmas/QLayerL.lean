import Verif.Lemmas.Rings
import Verif.Model.QLayer
import Verif.SpecQLayer

/-! # The older layer functions, for gate functions that return the right matrices -/

namespace QTN

open Spec QLayer

variable {N : ℕ}

/-- The gate functions of `cir` return the matrices they are named after. -/
structure Spec.GateFunctions (cir : Cir) : Prop where
  rx : ∀ θ, ∃ t, cir.rx θ = .ok t ∧ Represents2 t (rot X θ)
  ry : ∀ θ, ∃ t, cir.ry θ = .ok t ∧ Represents2 t (rot Y θ)
  rz : ∀ θ, ∃ t, cir.rz θ = .ok t ∧ Represents2 t (rot Z θ)
  hadamard : ∃ t, cir.hadamard = .ok t ∧ Represents2 t H
  multi_kron : ∀ x l, cir.multi_kron (x :: l) = .ok (l.foldl Tensor.kron x)
  cnot : ∀ (N : ℕ) (c t : Fin N), c ≠ t → Computes (cir.cnot N (c : ℕ) (t : ℕ)) (controlled [c] t X)
  cz : ∀ (N : ℕ) (c t : Fin N), c ≠ t → Computes (cir.cz N (c : ℕ) (t : ℕ)) (controlled [c] t Z)
  rxx : ∀ θ, Computes (cir.rxx θ) (rot2 X θ (0 : Fin 2) 1)
  ryy : ∀ θ, Computes (cir.ryy θ) (rot2 Y θ (0 : Fin 2) 1)
  rzz : ∀ θ, Computes (cir.rzz θ) (rot2 Z θ (0 : Fin 2) 1)

/-- A function of an angle returns the rotations about an axis. -/
def RotFn (f : ℝ → Py (Tensor ℂ)) (P : Mat2) : Prop := ∀ θ, ∃ t, f θ = .ok t ∧ Represents2 t (rot P θ)

theorem good_kron {cir : Cir} (h : GateFunctions cir) (hN : 0 < N) (f : Fin N → Tensor ℂ) (g : Fin N → Mat2)
    (hf : ∀ i, Represents2 (f i) (g i)) : Computes (cir.multi_kron (List.ofFn f)) (onEach g) := by
  obtain ⟨t, ht, hr⟩ := QTN.multi_kron_rep' hN f g hf
  refine ⟨t, ?_, hr⟩
  obtain ⟨m, rfl⟩ : ∃ m, N = m + 1 := ⟨N - 1, by omega⟩
  rw [List.ofFn_succ] at ht ⊢
  rw [h.multi_kron]
  simpa [QTN.multi_kron] using ht

theorem mapM_pyRange {f : ℤ → Py (Tensor ℂ)} {g : Fin N → Mat2}
    (h : ∀ i : Fin N, ∃ t, f ((i : ℕ) : ℤ) = .ok t ∧ Represents2 t (g i)) :
    ∃ F : Fin N → Tensor ℂ, (pyRange N).mapM f = .ok (List.ofFn F) ∧ ∀ i, Represents2 (F i) (g i) := by
  choose F hF rF using h
  refine ⟨F, ?_, rF⟩
  have : pyRange N = (List.finRange N).map (fun i : Fin N => ((i : ℕ) : ℤ)) := by
    rw [pyRange, Int.toNat_natCast, ← List.map_coe_finRange_eq_range, List.map_map]; rfl
  rw [this, List.ofFn_eq_map]
  generalize List.finRange N = l
  induction l with
  | nil => rfl
  | cons a l ih => rw [List.map_cons, List.mapM_cons, hF, Py.ok_bind, ih]; rfl

theorem layerOp_finRange (axes : List Mat2) (p : List ℝ) :
    layerOp axes (List.finRange N) p = onEach (fun j => seqRot axes (p.drop (axes.length * j))) := by
  unfold layerOp
  congr 1
  funext j
  simp

theorem getI {p : List ℝ} {k : ℕ} (h : k < p.length) {i : ℤ} (hi : i = k) : pyGet p i = .ok p[k] := by
  subst hi
  exact pyGet_nat h

theorem rot3Layer_rep {cir : Cir} (h : GateFunctions cir) {a b c : ℝ → Py (Tensor ℂ)} {A B C : Mat2}
    (ha : RotFn a A) (hb : RotFn b B) (hc : RotFn c C) (hN : 0 < N) (p : List ℝ) (hp : p.length = 3 * N) :
    Computes (rot3Layer cir a b c N p) (layerOp [A, B, C] (List.finRange N) p) := by
  rw [layerOp_finRange]
  unfold rot3Layer
  rw [raiseIf_false (by omega), raiseIf_false (by omega)]
  simp only [Py.ok_bind]
  obtain ⟨F, hF, rF⟩ := mapM_pyRange (N := N) (f := fun i => do
    let θ1 ← pyGet p (3 * i + 0)
    let θ2 ← pyGet p (3 * i + 1)
    let θ3 ← pyGet p (3 * i + 2)
    mm (c θ3) (mm (b θ2) (a θ1))) (g := fun j => seqRot [A, B, C] (p.drop (3 * j))) (fun i => by
      have hi := i.2
      have h0 : 3 * (i : ℕ) < p.length := by omega
      have h1 : 3 * (i : ℕ) + 1 < p.length := by omega
      have h2 : 3 * (i : ℕ) + 2 < p.length := by omega
      obtain ⟨ta, ea, ra⟩ := ha p[3 * (i : ℕ)]
      obtain ⟨tb, eb, rb⟩ := hb p[3 * (i : ℕ) + 1]
      obtain ⟨tc, ec, rc⟩ := hc p[3 * (i : ℕ) + 2]
      obtain ⟨u, eu, ru⟩ := rb.matmul ra
      obtain ⟨v, ev, rv⟩ := rc.matmul ru
      refine ⟨v, ?_, ?_⟩
      · rw [getI h0 (by omega), Py.ok_bind, getI h1 (by omega), Py.ok_bind, getI h2 (by omega), Py.ok_bind]
        simp only [mm, ea, eb, ec, Py.ok_bind, eu, ev]
      · rw [List.drop_eq_getElem_cons h0, List.drop_eq_getElem_cons h1, List.drop_eq_getElem_cons h2]
        simpa [seqRot, mul_assoc] using rv)
  rw [hF, Py.ok_bind]
  exact good_kron h hN F _ rF

theorem xzLayer_rep {cir : Cir} (h : GateFunctions cir) (hN : 0 < N) (p : List ℝ) (hp : p.length = 2 * N) :
    Computes (XZLayer cir N p) (layerOp [X, Z] (List.finRange N) p) := by
  rw [layerOp_finRange]
  unfold XZLayer
  rw [raiseIf_false (by omega), raiseIf_false (by omega)]
  simp only [Py.ok_bind]
  obtain ⟨F, hF, rF⟩ := mapM_pyRange (N := N) (f := fun i => do
    let θ1 ← pyGet p (2 * i + 0)
    let θ2 ← pyGet p (2 * i + 1)
    mm (cir.rz θ2) (cir.rx θ1)) (g := fun j => seqRot [X, Z] (p.drop (2 * j))) (fun i => by
      have hi := i.2
      have h0 : 2 * (i : ℕ) < p.length := by omega
      have h1 : 2 * (i : ℕ) + 1 < p.length := by omega
      obtain ⟨ta, ea, ra⟩ := h.rx p[2 * (i : ℕ)]
      obtain ⟨tb, eb, rb⟩ := h.rz p[2 * (i : ℕ) + 1]
      obtain ⟨u, eu, ru⟩ := rb.matmul ra
      refine ⟨u, ?_, ?_⟩
      · rw [getI h0 (by omega), Py.ok_bind, getI h1 (by omega), Py.ok_bind]
        simp only [mm, ea, eb, Py.ok_bind, eu]
      · rw [List.drop_eq_getElem_cons h0, List.drop_eq_getElem_cons h1]
        simpa [seqRot] using ru)
  rw [hF, Py.ok_bind]
  exact good_kron h hN F _ rF

theorem hLayer_rep {cir : Cir} (h : GateFunctions cir) (hN : 0 < N) :
    Computes (HLayer cir N) (hOp (List.finRange N)) := by
  unfold HLayer
  rw [raiseIf_false (by omega)]
  obtain ⟨t, e, r⟩ := h.hadamard
  obtain ⟨F, hF, rF⟩ := mapM_pyRange (N := N) (f := fun _ => cir.hadamard) (g := fun _ => H) (fun _ => ⟨t, e, r⟩)
  rw [Py.ok_bind, hF, Py.ok_bind]
  obtain ⟨U, hU, rU⟩ := good_kron h hN F _ rF
  exact ⟨U, hU, rU.congr (by unfold hOp; simp)⟩

/-! ## Controlled gates -/

/-- A function returns the matrices of a controlled gate. -/
def CtrlFn (f : ℤ → ℤ → ℤ → Py (Tensor ℂ)) (g : Mat2) : Prop :=
  ∀ (N : ℕ) (c t : Fin N), c ≠ t → Computes (f N (c : ℕ) (t : ℕ)) (controlled [c] t g)

/-- The pairs of wire numbers a loop runs through. -/
def intPairs (up : Bool) (l : List (Fin N × Fin N)) : List (ℤ × ℤ) :=
  l.map (fun ij => (((order up ij.1 : ℕ) : ℤ), ((order up ij.2 : ℕ) : ℤ)))

theorem order_ne {up : Bool} {i j : Fin N} (h : i ≠ j) : order up i ≠ order up j := by
  unfold order
  split
  · exact h
  · exact fun e => h (Fin.rev_injective e)

theorem loop_rep {f : ℤ → ℤ → ℤ → Py (Tensor ℂ)} {g : Mat2} (h : CtrlFn f g) (up : Bool)
    (l : List (Fin N × Fin N)) (hl : ∀ ij ∈ l, ij.1 ≠ ij.2) :
    Computes (loop f N (intPairs up l) (Tensor.eye (2 ^ N))) (pairGates g up l) := by
  obtain ⟨r, hr, rr⟩ := foldlM_left l (fun ij => f N ((order up ij.1 : ℕ) : ℤ) ((order up ij.2 : ℕ) : ℤ))
    (fun ij => controlled [order up ij.1] (order up ij.2) g)
    (fun ij hij => h N _ _ (order_ne (hl ij hij))) (Tensor.eye (2 ^ N)) 1 represents_eye
  refine ⟨r, ?_, ?_⟩
  · unfold loop intPairs
    rw [List.foldlM_map]
    exact hr
  · rw [foldl_left_timeOrdered] at rr
    exact rr

theorem entangle_rep {f : ℤ → ℤ → ℤ → Py (Tensor ℂ)} {g : Mat2} (h : CtrlFn f g) (hN : 2 ≤ N) (up : Bool)
    (l : List (Fin N × Fin N)) (hl : 3 ≤ N → ∀ ij ∈ l, ij.1 ≠ ij.2) (rest : Tensor ℂ → Py (Tensor ℂ))
    (hr : ∀ rst, 3 ≤ N → rest rst = loop f N (intPairs up l) rst) :
    Computes (entangle f N up rest) (entangleOp g up l) := by
  unfold entangle entangleOp
  rw [raiseIf_false (by omega)]
  simp only [Py.ok_bind]
  by_cases h2 : N = 2
  · subst h2
    rw [if_pos (by norm_num), dif_pos rfl]
    cases up
    · exact h 2 1 0 (by decide)
    · exact h 2 0 1 (by decide)
  · rw [if_neg (by omega), dif_neg h2, Int.toNat_natCast, hr _ (by omega)]
    exact loop_rep h up l (hl (by omega))

theorem cyclic_ne {d : ℕ} (hd : 0 < d) (hdN : d < N) : ∀ ij ∈ cyclic N d, ij.1 ≠ ij.2 := by
  intro ij hij
  simp only [cyclic, List.mem_map] at hij
  obtain ⟨i, -, rfl⟩ := hij
  intro e
  exact add_mod_ne i.2 hd hdN (congrArg Fin.val e)

theorem pyRange_fin : pyRange N = (List.finRange N).map (fun i => ((order true i : ℕ) : ℤ)) := by
  rw [pyRange, Int.toNat_natCast, ← List.map_coe_finRange_eq_range, List.map_map]; rfl

theorem pyRangeDown_fin : pyRangeDown ((N : ℤ) - 1) (-1) =
    (List.finRange N).map (fun i => ((order false i : ℕ) : ℤ)) := by
  rw [pyRangeDown, show ((N : ℤ) - 1 - -1).toNat = N by omega, ← List.map_coe_finRange_eq_range, List.map_map]
  refine List.map_congr_left fun i _ => ?_
  have := i.2
  simp only [Function.comp, order, Bool.false_eq_true, if_false, Fin.val_rev]
  omega

theorem cyclic_rep {f : ℤ → ℤ → ℤ → Py (Tensor ℂ)} {g : Mat2} (h : CtrlFn f g) (hN : 2 ≤ N) {d : ℕ}
    (hd : 0 < d) (hd2 : d ≤ 2) (up : Bool) : Computes (ring f d N up) (entangleOp g up (cyclic N d)) := by
  refine entangle_rep h hN up _ (fun h3 => cyclic_ne hd (by omega)) _ fun rst h3 => ?_
  have hm : ∀ i : Fin N, (((i : ℕ) : ℤ) + d) % N = (((i + d) % N : ℕ) : ℤ) := fun i => by push_cast; rfl
  cases up
  · simp only [Bool.false_eq_true, if_false]
    congr 1
    rw [pyRangeDown_fin, intPairs, cyclic, List.map_map, List.map_map]
    refine List.map_congr_left fun i _ => Prod.ext rfl ?_
    have hi := i.2
    have hr := Nat.mod_lt (i + d) i.pos
    have hq := Nat.mod_add_div (i + d) N
    simp only [Function.comp, order, Bool.false_eq_true, if_false, Fin.val_rev]
    have e : ((N - (i + 1) : ℕ) : ℤ) - d = ((N - ((i + d) % N + 1) : ℕ) : ℤ) + N * (-(((i + d) / N : ℕ) : ℤ)) := by
      have : (((i : ℕ) + d : ℕ) : ℤ) = (((i + d) % N : ℕ) : ℤ) + N * (((i + d) / N : ℕ) : ℤ) := by
        rw [← Nat.cast_mul, ← Nat.cast_add, hq]
      rw [Nat.cast_sub (by omega), Nat.cast_sub (by omega)]
      push_cast at this ⊢
      linarith
    rw [e, Int.add_mul_emod_self_left, Int.emod_eq_of_lt (by omega) (by omega)]
  · simp only [if_true]
    congr 1
    rw [pyRange_fin, intPairs, cyclic, List.map_map, List.map_map]
    exact List.map_congr_left fun i _ => Prod.ext rfl (hm i)

theorem loop_append (f : ℤ → ℤ → ℤ → Py (Tensor ℂ)) (n : ℤ) (l l' : List (ℤ × ℤ)) (rst : Tensor ℂ) :
    (do let r ← loop f n l rst; loop f n l' r) = loop f n (l ++ l') rst := by
  unfold loop
  rw [List.foldlM_append]

theorem neighbours_ne : ∀ ij ∈ neighbours N, ij.1 ≠ ij.2 := by
  intro ij hij
  simp only [neighbours, List.mem_append, List.mem_ofFn] at hij
  rcases hij with ⟨k, rfl⟩ | ⟨k, rfl⟩ <;> simp

theorem nearest_rep {f : ℤ → ℤ → ℤ → Py (Tensor ℂ)} {g : Mat2} (h : CtrlFn f g) (hN : 2 ≤ N) (up : Bool) :
    Computes (nearest f N up) (entangleOp g up (neighbours N)) := by
  refine entangle_rep h hN up _ (fun _ => neighbours_ne) _ fun rst h3 => ?_
  have hof : ∀ (n : ℕ) (F : ℕ → ℤ × ℤ), (List.range n).map F = List.ofFn (fun k : Fin n => F k) := fun n F => by
    rw [List.ofFn_eq_map, ← List.map_coe_finRange_eq_range, List.map_map]; rfl
  cases up
  · simp only [Bool.false_eq_true, if_false]
    rw [loop_append, rangeDown2, rangeDown2, List.map_map, List.map_map, hof, hof, intPairs, neighbours,
      List.map_append, List.map_ofFn, List.map_ofFn]
    have e1 : (((N : ℤ) - 1 - 0 + 1) / 2).toNat = N / 2 := by omega
    have e2 : (((N : ℤ) - 2 - 0 + 1) / 2).toNat = (N - 1) / 2 := by omega
    rw [e1, e2]
    congr 2
    · congr 1
      funext k
      have := k.2
      simp only [Function.comp, order, Bool.false_eq_true, if_false, Fin.val_rev]
      refine Prod.ext ?_ ?_ <;> dsimp only <;> omega
    · congr 1
      funext k
      have := k.2
      simp only [Function.comp, order, Bool.false_eq_true, if_false, Fin.val_rev]
      refine Prod.ext ?_ ?_ <;> dsimp only <;> omega
  · simp only [if_true]
    rw [loop_append, rangeUp2, rangeUp2, List.map_map, List.map_map, hof, hof, intPairs, neighbours,
      List.map_append, List.map_ofFn, List.map_ofFn]
    have e1 : (((N : ℤ) - 1 - 0 + 1) / 2).toNat = N / 2 := by omega
    have e2 : (((N : ℤ) - 1 - 1 + 1) / 2).toNat = (N - 1) / 2 := by omega
    rw [e1, e2]
    congr 2
    · congr 1
      funext k
      simp only [Function.comp, order, if_true]
      refine Prod.ext ?_ ?_ <;> dsimp only <;> omega
    · congr 1
      funext k
      simp only [Function.comp, order, if_true]
      refine Prod.ext ?_ ?_ <;> dsimp only <;> omega

theorem allPairs_ne : ∀ ij ∈ allPairs N, ij.1 ≠ ij.2 := by
  intro ij hij
  simp only [allPairs, List.mem_flatMap, List.mem_map, List.mem_filter] at hij
  obtain ⟨i, -, j, ⟨-, hj⟩, rfl⟩ := hij
  exact fun e => (by simpa using hj : ¬ j = i) e.symm

theorem all2all_rep {cir : Cir} (h : CtrlFn cir.cnot X) (hN : 2 ≤ N) (up : Bool) :
    Computes (all2all_cnot cir N up) (entangleOp X up (allPairs N)) := by
  refine entangle_rep h hN up _ (fun _ => allPairs_ne) _ fun rst h3 => ?_
  have hr : (if up = true then pyRange N else pyRangeDown ((N : ℤ) - 1) (-1)) =
      (List.finRange N).map (fun i => ((order up i : ℕ) : ℤ)) := by
    cases up
    · exact pyRangeDown_fin
    · exact pyRange_fin
  simp only [hr]
  congr 1
  rw [intPairs, allPairs, List.map_flatMap, List.flatMap_map]
  refine List.flatMap_congr fun i _ => ?_
  rw [List.filter_map, List.map_map, List.map_map]
  congr 1
  refine List.filter_congr fun j _ => ?_
  simp only [Function.comp, decide_eq_decide]
  constructor
  · intro hj e; subst e; exact hj rfl
  · intro hj e
    exact order_ne hj (Fin.ext (by exact_mod_cast e))

end QTN
