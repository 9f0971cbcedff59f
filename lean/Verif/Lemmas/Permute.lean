import Verif.Lemmas.View

/-! # permute, unsqueeze, squeeze and matrix products on tensors of any rank

Index tuples of a rank-`n` tensor are handled as functions `Fin n → ℕ`. -/

namespace QTN

open Finset Spec

theorem inB_ofFn {n : ℕ} {d x : Fin n → ℕ} :
    inB (List.ofFn d) (List.ofFn x) = true ↔ ∀ k, x k < d k := by
  rw [inB_iff]
  simp only [List.length_ofFn, true_and]
  constructor
  · intro h k
    have := h k k.2
    simpa [List.getD_eq_getElem?_getD] using this
  · intro h k hk
    simpa [List.getD_eq_getElem?_getD, hk] using h ⟨k, hk⟩

theorem exists_ofFn {n : ℕ} {l : List ℕ} (h : l.length = n) :
    ∃ x : Fin n → ℕ, l = List.ofFn x := by
  subst h
  exact ⟨fun i => l[i], by simp⟩

theorem bl_eq_ofFn {N : ℕ} (a : Bits N) : bl a = List.ofFn (fun i => (a i : ℕ)) := rfl

theorem pyRange_ofFn (n : ℕ) : pyRange (n : ℤ) = List.ofFn (fun k : Fin n => ((k : ℕ) : ℤ)) := by
  apply List.ext_getElem <;> simp [pyRange]

namespace Tensor

variable {α : Type} [Zero α]

theorem permute_fn {n : ℕ} (σ : Equiv.Perm (Fin n)) {t : Tensor α} {d : Fin n → ℕ}
    (hs : t.shape = List.ofFn d) {p : List ℤ}
    (hp : p = List.ofFn (fun k => ((σ k : ℕ) : ℤ))) :
    ∃ t', t.permute p = .ok t' ∧ t'.shape = List.ofFn (d ∘ σ) ∧
      ∀ x : Fin n → ℕ, (∀ k, x k < d (σ k)) →
        t'.get (List.ofFn x) = t.get (List.ofFn (x ∘ σ.symm)) := by
  have hr : t.rank = n := by simp [rank, hs]
  have hm : p.mapM (wrapIdx t.rank) = .ok (List.ofFn (fun k => (σ k : ℕ))) := by
    have key : ∀ l : List (Fin n), (l.map (fun k => ((σ k : ℕ) : ℤ))).mapM (wrapIdx n) =
        (.ok (l.map (fun k => (σ k : ℕ))) : Py _) := by
      intro l
      induction l with
      | nil => rfl
      | cons a l ih =>
        simp only [List.map_cons, List.mapM_cons, ih, wrapIdx_nat (σ a).2, Py.ok_bind, Py.pure_eq]
    rw [hp, hr, List.ofFn_eq_map, key, ← List.ofFn_eq_map]
  have hnd : (List.ofFn (fun k => (σ k : ℕ))).Nodup := by
    rw [List.nodup_ofFn]
    intro a b h
    exact σ.injective (Fin.ext h)
  have hshape : (List.ofFn (fun k => (σ k : ℕ))).map (fun k => t.shape.getD k 0) =
      List.ofFn (d ∘ σ) := by
    rw [hs, List.map_ofFn]
    congr 1
    funext k
    simp [List.getD_eq_getElem?_getD]
  refine ⟨ofFn ((List.ofFn (fun k => (σ k : ℕ))).map (fun k => t.shape.getD k 0))
      (fun idx => t.get ((List.range t.rank).map (fun j => idx.getD
        ((List.ofFn (fun k => (σ k : ℕ))).idxOf j) 0))), ?_, ?_, ?_⟩
  · unfold permute
    rw [raiseIf_false (by simp [hp, hr])]
    simp only [Py.ok_bind, hm, raiseIf_false (not_not.2 hnd)]
  · exact hshape
  · intro x hx
    rw [get_ofFn (by rw [hshape, inB_ofFn]; exact hx)]
    congr 1
    rw [hr]
    apply List.ext_getElem
    · simp
    · intro j h1 h2
      simp at h1
      have hi : (List.ofFn (fun k => (σ k : ℕ))).idxOf j = (σ.symm ⟨j, h1⟩ : ℕ) := by
        have h3 : (σ.symm ⟨j, h1⟩ : ℕ) < (List.ofFn (fun k => (σ k : ℕ))).length := by simp
        have := hnd.idxOf_getElem _ h3
        rw [← this]
        congr 1
        simp
      simp [hi, List.getD_eq_getElem?_getD]

theorem unsqueeze_last (t : Tensor α) : ∃ t', t.unsqueeze (-1) = .ok t' ∧
    t'.shape = t.shape ++ [1] ∧
    ∀ idx, inB t.shape idx = true → t'.get (idx ++ [0]) = t.get idx := by
  have hw : wrapIdx (t.rank + 1) (-1) = .ok t.rank := by simp [wrapIdx]
  refine ⟨ofFn (t.shape ++ [1]) (fun idx => t.get (idx.eraseIdx t.rank)), ?_, ?_, ?_⟩
  · unfold unsqueeze
    rw [hw, Py.ok_bind]
    congr 2
    unfold rank
    rw [List.insertIdx_length_self]
  · rfl
  · intro idx h
    have hl := inB_length h
    rw [get_ofFn (by rw [inB_append hl, h]; rfl)]
    congr 1
    rw [rank, ← hl, List.eraseIdx_append_of_length_le (le_refl _)]
    simp

theorem squeezeDim_last {t : Tensor α} {s : List ℕ} (h : t.shape = s ++ [1]) :
    ∃ t', t.squeezeDim (-1) = .ok t' ∧ t'.shape = s ∧
    ∀ idx, inB s idx = true → t'.get idx = t.get (idx ++ [0]) := by
  have hr : t.rank = s.length + 1 := by simp [rank, h]
  have hw : wrapIdx t.rank (-1) = .ok s.length := by simp [wrapIdx, hr]
  refine ⟨ofFn s (fun idx => t.get (idx.insertIdx s.length 0)), ?_, ?_, ?_⟩
  · unfold squeezeDim
    rw [hw, Py.ok_bind, if_pos (by simp [h])]
    congr 2
    rw [h, List.eraseIdx_append_of_length_le (le_refl _)]
    simp
  · rfl
  · intro idx hi
    rw [get_ofFn hi, ← inB_length hi, List.insertIdx_length_self]

end Tensor

theorem bIdx_self {s idx : List ℕ} (h : inB s idx = true) : Tensor.bIdx s idx = idx := by
  unfold Tensor.bIdx
  rw [inB_length h, Nat.sub_self, List.drop_zero]
  induction s generalizing idx with
  | nil => cases idx <;> simp_all
  | cons d ds ih =>
    cases idx with
    | nil => simp at h
    | cons i is =>
      simp at h
      simp only [List.zipWith_cons_cons, ih h.2]
      congr 1
      split <;> omega

theorem bcast_nil (s : List ℕ) : Tensor.bcast [] s = some s := by
  simp [Tensor.bcast, Tensor.bcastRev]

namespace Tensor

/-- A matrix times a tensor of any rank. -/
theorem matmul_left {α : Type} [CommRing α] {m t : Tensor α} {p k q : ℕ} {s : List ℕ}
    (hm : m.shape = [p, k]) (ht : t.shape = s ++ [k, q]) :
    ∃ t', m.matmul t = .ok t' ∧ t'.shape = s ++ [p, q] ∧
      ∀ idx i j, inB s idx = true → i < p → j < q →
        t'.get (idx ++ [i, j]) = ∑ x ∈ range k, m.get [i, x] * t.get (idx ++ [x, j]) := by
  have hrm : m.rank = 2 := by simp [rank, hm]
  have hrt : t.rank = s.length + 2 := by simp [rank, ht]
  have e1 : m.shape.take (m.rank - 2) = [] := by simp [hrm]
  have e2 : t.shape.take (t.rank - 2) = s := by simp [hrt, ht]
  have e3 : m.shape.getD (m.rank - 2) 0 = p := by simp [hrm, hm]
  have e4 : m.shape.getD (m.rank - 1) 0 = k := by simp [hrm, hm]
  have e5 : t.shape.getD (t.rank - 2) 0 = k := by
    simp [hrt, ht, List.getD_eq_getElem?_getD]
  have e6 : t.shape.getD (t.rank - 1) 0 = q := by
    simp [hrt, ht, List.getD_eq_getElem?_getD]
  refine ⟨ofFn (s ++ [p, q]) (fun idx =>
      let pre := idx.take s.length
      let i := idx.getD s.length 0
      let j := idx.getD (s.length + 1) 0
      ∑ x ∈ range k, m.get (bIdx [] pre ++ [i, x]) * t.get (bIdx s pre ++ [x, j])), ?_, ?_, ?_⟩
  · unfold matmul
    rw [if_neg (by omega), if_neg (by omega), if_neg (by omega), if_neg (by omega)]
    unfold matmulND
    simp only [e1, e2, e3, e4, e5, e6, bcast_nil]
    simp
  · rfl
  · intro idx i j hi hip hjq
    have hl := inB_length hi
    rw [get_ofFn (by rw [inB_append hl, hi]; simp [hip, hjq])]
    have t1 : (idx ++ [i, j]).take s.length = idx := by simp [← hl]
    have t2 : (idx ++ [i, j]).getD s.length 0 = i := by simp [← hl, List.getD_eq_getElem?_getD]
    have t3 : (idx ++ [i, j]).getD (s.length + 1) 0 = j := by
      simp [← hl, List.getD_eq_getElem?_getD]
    simp only [t1, t2, t3, bIdx_self hi]
    apply Finset.sum_congr rfl
    intro x _
    congr 1

end Tensor

end QTN
