import Verif.Lemmas.Permute
import Mathlib.Tactic.FinCases
import Mathlib.Tactic.SplitIfs

/-! # Contraction of a matrix with one, two or three dimensions of a tensor -/

namespace QTN

open Finset Spec

theorem singlePerm_eq {n : ℕ} (w : Fin (n + 1)) :
    Gate.singlePerm ((n + 1 : ℕ) : ℤ) (w : ℕ) (((n + 1 : ℕ) : ℤ) - 1) =
      .ok (List.ofFn (fun k => ((Equiv.swap w (Fin.last n) k : ℕ) : ℤ))) := by
  have h : (((n + 1 : ℕ) : ℤ) - 1) = (((Fin.last n : Fin (n + 1)) : ℕ) : ℤ) := by simp
  unfold Gate.singlePerm
  simp only [h]
  rw [pyRange_ofFn, pySet_ofFn, Py.ok_bind, pySet_ofFn]
  congr 2
  funext k
  by_cases h1 : k = Fin.last n
  · subst h1; simp
  · by_cases h2 : k = w
    · subst h2; simp [Function.update_of_ne h1]
    · simp [Function.update_of_ne h1, Function.update_of_ne h2,
        Equiv.swap_apply_of_ne_of_ne h2 h1]

/-- Entries of `contract1`. -/
theorem contract1_get {n : ℕ} {m T : Tensor ℂ} {d : Fin n → ℕ} (w : Fin n)
    (hm : m.shape = [2, 2]) (hT : T.shape = List.ofFn d) (hd : d w = 2) :
    ∃ T', Gate.contract1 m T (n : ℤ) (w : ℕ) = .ok T' ∧ T'.shape = List.ofFn d ∧
      ∀ y : Fin n → ℕ, (∀ k, y k < d k) →
        T'.get (List.ofFn y) = ∑ u ∈ range 2, m.get [y w, u] *
          T.get (List.ofFn (Function.update y w u)) := by
  cases n with
  | zero => exact w.elim0
  | succ n =>
    set σ := Equiv.swap w (Fin.last n) with hσ
    obtain ⟨T1, h1, s1, g1⟩ := Tensor.permute_fn σ hT (p := _) rfl
    obtain ⟨T2, h2, s2, g2⟩ := T1.unsqueeze_last
    have hlast : (d ∘ σ) (Fin.last n) = 2 := by simp [hσ, hd]
    have s2' : T2.shape = List.ofFn (fun i : Fin n => d (σ i.castSucc)) ++ [2, 1] := by
      rw [s2, s1, List.ofFn_succ', List.concat_eq_append, hlast]
      simp
    obtain ⟨T3, h3, s3, g3⟩ := Tensor.matmul_left hm s2'
    have s3' : T3.shape = (List.ofFn (d ∘ σ)) ++ [1] := by
      rw [s3, List.ofFn_succ' (d ∘ σ), List.concat_eq_append, hlast]
      simp
    obtain ⟨T4, h4, s4, g4⟩ := Tensor.squeezeDim_last s3'
    obtain ⟨T5, h5, s5, g5⟩ := Tensor.permute_fn σ s4 (p := _) rfl
    have hσσ : (d ∘ σ) ∘ σ = d := by
      funext k
      simp [hσ]
    refine ⟨T5, ?_, by rw [s5, hσσ], ?_⟩
    · unfold Gate.contract1
      rw [singlePerm_eq, Py.ok_bind]
      simp only [h1, h2, h3, h4, h5, Py.ok_bind, ← hσ]
    · intro y hy
      have hy' : ∀ k, y k < (d ∘ σ) (σ k) := by
        intro k
        have : (d ∘ σ) (σ k) = d k := congrFun hσσ k
        rw [this]; exact hy k
      have hx : ∀ k, (y ∘ σ) k < (d ∘ σ) k := fun k => hy (σ k)
      have hsym : σ.symm = σ := by rw [hσ]; exact Equiv.symm_swap _ _
      rw [g5 y hy', hsym, g4 _ (inB_ofFn.2 hx)]
      have hsplit : List.ofFn (y ∘ σ) ++ [0] =
          List.ofFn (fun i : Fin n => y (σ i.castSucc)) ++ [y w, 0] := by
        rw [List.ofFn_succ', List.concat_eq_append]
        simp [hσ]
      rw [hsplit, g3 _ _ _ (inB_ofFn.2 (fun i => hy _)) (by rw [← hd]; exact hy w) (by omega)]
      apply Finset.sum_congr rfl
      intro u hu
      congr 1
      have hsplit2 : List.ofFn (fun i : Fin n => y (σ i.castSucc)) ++ [u, 0] =
          List.ofFn (Function.update (y ∘ σ) (Fin.last n) u) ++ [0] := by
        rw [List.ofFn_succ', List.concat_eq_append]
        have : ∀ i : Fin n, Function.update (y ∘ σ) (Fin.last n) u i.castSucc =
            y (σ i.castSucc) := fun i =>
          Function.update_of_ne (Fin.castSucc_lt_last i).ne _ _
        simp
      have hb : ∀ k, Function.update (y ∘ σ) (Fin.last n) u k < d (σ k) := by
        intro k
        by_cases hk : k = Fin.last n
        · subst hk
          have : d (σ (Fin.last n)) = 2 := hlast
          simp [this]; simpa using hu
        · rw [Function.update_of_ne hk]; exact hx k
      rw [hsplit2, g2 _ (by rw [s1]; exact inB_ofFn.2 hb), g1 _ hb, hsym]
      congr 2
      funext k
      simp only [Function.comp]
      by_cases hk : k = w
      · subst hk; simp [hσ]
      · have : σ k ≠ Fin.last n := by
          intro h
          apply hk
          have h' : σ (σ k) = σ (Fin.last n) := by rw [h]
          simpa [hσ] using h'
        rw [Function.update_of_ne this, Function.update_of_ne hk]
        simp [hσ]

/-! ## Lists around removal and insertion -/

theorem ofFn_snoc2 {β : Type} {n : ℕ} (x : Fin (n + 2) → β) :
    List.ofFn x = List.ofFn (fun i : Fin n => x i.castSucc.castSucc) ++
      [x (Fin.last n).castSucc, x (Fin.last (n + 1))] := by
  rw [List.ofFn_succ', List.ofFn_succ']
  simp [List.concat_eq_append]

theorem pyGet_app {β : Type} (l r : List β) (k : ℕ) (hk : 0 < k) (h : k ≤ r.length) :
    pyGet (l ++ r) (-(k : ℤ)) = .ok (r[r.length - k]'(by omega)) := by
  have : wrapIdx (l ++ r).length (-(k : ℤ)) = .ok (l.length + (r.length - k)) := by
    unfold wrapIdx
    rw [if_neg (by omega), if_pos (by simp; omega)]
    congr 1
    simp
    omega
  unfold pyGet
  rw [this, Py.ok_bind, List.getElem?_append_right (by omega)]
  rw [List.getElem?_eq_getElem (by omega)]
  simp

theorem pySet_app {β : Type} (l r : List β) (k : ℕ) (v : β) (hk : 0 < k) (h : k ≤ r.length) :
    pySet (l ++ r) (-(k : ℤ)) v = .ok (l ++ r.set (r.length - k) v) := by
  have : wrapIdx (l ++ r).length (-(k : ℤ)) = .ok (l.length + (r.length - k)) := by
    unfold wrapIdx
    rw [if_neg (by omega), if_pos (by simp; omega)]
    congr 1
    simp
    omega
  unfold pySet
  rw [this, Py.ok_bind, List.set_append_right _ _ (by omega)]
  simp

theorem pyGet_app_m2 {β : Type} (l : List β) (x y : β) : pyGet (l ++ [x, y]) (-2) = .ok x :=
  pyGet_app l [x, y] 2 (by omega) (by simp)

theorem pyGet_app_m1 {β : Type} (l : List β) (x y : β) : pyGet (l ++ [x, y]) (-1) = .ok y :=
  pyGet_app l [x, y] 1 (by omega) (by simp)

theorem pySet_app_m2 {β : Type} (l : List β) (x y v : β) :
    pySet (l ++ [x, y]) (-2) v = .ok (l ++ [v, y]) :=
  pySet_app l [x, y] 2 v (by omega) (by simp)

theorem pySet_app_m1 {β : Type} (l : List β) (x y v : β) :
    pySet (l ++ [x, y]) (-1) v = .ok (l ++ [x, v]) :=
  pySet_app l [x, y] 1 v (by omega) (by simp)

theorem pyRange_nodup (n : ℤ) : (pyRange n).Nodup :=
  List.Nodup.map (fun a b h => by simpa using h) List.nodup_range

theorem pyRange_length (n : ℕ) : (pyRange (n : ℤ)).length = n := by simp [pyRange]

theorem pyRange_getElem (n k : ℕ) (h : k < (pyRange (n : ℤ)).length) :
    (pyRange (n : ℤ))[k] = (k : ℤ) := by simp [pyRange]

theorem mem_pyRange (n k : ℕ) (h : k < n) : (k : ℤ) ∈ pyRange (n : ℤ) := by
  simp [pyRange]; exact h

theorem erase1_range {n a : ℕ} (h : a < n) :
    (pyRange (n : ℤ)).erase (a : ℤ) = (pyRange (n : ℤ)).eraseIdx a := by
  have hl : a < (pyRange (n : ℤ)).length := by rw [pyRange_length]; exact h
  rw [← (pyRange_nodup n).erase_getElem a hl, pyRange_getElem]

theorem erase2_range {n a b : ℕ} (hab : a < b) (h : b < n) :
    ((pyRange (n : ℤ)).erase (b : ℤ)).erase (a : ℤ) =
      ((pyRange (n : ℤ)).eraseIdx b).eraseIdx a := by
  rw [erase1_range h]
  have hl : a < ((pyRange (n : ℤ)).eraseIdx b).length := by
    rw [List.length_eraseIdx_of_lt (by rw [pyRange_length]; exact h), pyRange_length]; omega
  have hnd : ((pyRange (n : ℤ)).eraseIdx b).Nodup := (pyRange_nodup n).eraseIdx b
  rw [← hnd.erase_getElem a hl]
  congr 1
  rw [List.getElem_eraseIdx_of_lt _ hab, pyRange_getElem]

theorem erase3_range {n a b c : ℕ} (hab : a < b) (hbc : b < c) (h : c < n) :
    (((pyRange (n : ℤ)).erase (c : ℤ)).erase (b : ℤ)).erase (a : ℤ) =
      (((pyRange (n : ℤ)).eraseIdx c).eraseIdx b).eraseIdx a := by
  rw [erase2_range hbc h]
  have hl1 : b < ((pyRange (n : ℤ)).eraseIdx c).length := by
    rw [List.length_eraseIdx_of_lt (by rw [pyRange_length]; exact h), pyRange_length]; omega
  have hl : a < (((pyRange (n : ℤ)).eraseIdx c).eraseIdx b).length := by
    rw [List.length_eraseIdx_of_lt hl1,
      List.length_eraseIdx_of_lt (by rw [pyRange_length]; exact h), pyRange_length]; omega
  have hnd : (((pyRange (n : ℤ)).eraseIdx c).eraseIdx b).Nodup :=
    ((pyRange_nodup n).eraseIdx c).eraseIdx b
  rw [← hnd.erase_getElem a hl]
  congr 1
  rw [List.getElem_eraseIdx_of_lt _ hab, List.getElem_eraseIdx_of_lt _ (by omega),
    pyRange_getElem]

theorem pyPop_range (n : ℕ) : pyPop (pyRange ((n + 1 : ℕ) : ℤ)) = .ok (pyRange (n : ℤ)) := by
  unfold pyPop
  rw [if_neg (by simp [pyRange, List.range_succ])]
  congr 1
  simp [pyRange, List.range_succ]

theorem pyInsert_nat {β : Type} (l : List β) (i : ℕ) (x : β) (h : i ≤ l.length) :
    pyInsert l (i : ℤ) x = l.insertIdx i x := by
  simp [pyInsert, h]

theorem pyRemove_mem {l : List ℤ} {x : ℤ} (h : x ∈ l) : pyRemove l x = .ok (l.erase x) := by
  simp [pyRemove, h]

/-! ## The permutation of `contract2` -/

/-- position `k` of `others ++ [c, t]` -/
def pairF (n c t k : ℕ) : ℕ :=
  if k = n - 2 then c else if k = n - 1 then t
  else if k < min c t then k else if k + 1 < max c t then k + 1 else k + 2

/-- where dimension `j` goes -/
def pairG (n c t j : ℕ) : ℕ :=
  if j = c then n - 2 else if j = t then n - 1
  else if j < min c t then j else if j < max c t then j - 1 else j - 2

/-- the permutation with the wires `c`, `t` moved to the end -/
def pairPerm {n : ℕ} (c t : Fin n) (h : c ≠ t) : Equiv.Perm (Fin n) where
  toFun k := ⟨pairF n c t k, by
    have := c.2; have := t.2; have := k.2
    have : (c : ℕ) ≠ t := fun e => h (Fin.ext e)
    unfold pairF; split_ifs <;> omega⟩
  invFun k := ⟨pairG n c t k, by
    have := c.2; have := t.2; have := k.2
    have : (c : ℕ) ≠ t := fun e => h (Fin.ext e)
    unfold pairG; split_ifs <;> omega⟩
  left_inv k := by
    have := c.2; have := t.2; have := k.2
    have : (c : ℕ) ≠ t := fun e => h (Fin.ext e)
    apply Fin.ext
    simp only [pairF, pairG]
    split_ifs <;> omega
  right_inv k := by
    have := c.2; have := t.2; have := k.2
    have : (c : ℕ) ≠ t := fun e => h (Fin.ext e)
    apply Fin.ext
    simp only [pairF, pairG]
    split_ifs <;> omega

theorem pairPerm_list {n : ℕ} (c t : Fin n) (h : c ≠ t) :
    ((pyRange (n : ℤ)).erase ((c : ℕ) : ℤ)).erase ((t : ℕ) : ℤ) ++ [((c : ℕ) : ℤ), ((t : ℕ) : ℤ)] =
      List.ofFn (fun k => ((pairPerm c t h k : ℕ) : ℤ)) := by
  have hc := c.2; have ht := t.2
  have hne : (c : ℕ) ≠ t := fun e => h (Fin.ext e)
  have key : ((pyRange (n : ℤ)).erase ((c : ℕ) : ℤ)).erase ((t : ℕ) : ℤ) =
      ((pyRange (n : ℤ)).eraseIdx (max (c : ℕ) t)).eraseIdx (min (c : ℕ) t) := by
    rcases Nat.lt_or_gt_of_ne hne with hlt | hlt
    · rw [List.erase_comm, erase2_range hlt ht, max_eq_right hlt.le, min_eq_left hlt.le]
    · rw [erase2_range hlt hc, max_eq_left hlt.le, min_eq_right hlt.le]
  rw [key]
  have hl1 : ((pyRange (n : ℤ)).eraseIdx (max (c : ℕ) t)).length = n - 1 := by
    rw [List.length_eraseIdx_of_lt (by rw [pyRange_length]; omega), pyRange_length]
  have hl2 : (((pyRange (n : ℤ)).eraseIdx (max (c : ℕ) t)).eraseIdx (min (c : ℕ) t)).length =
      n - 2 := by
    rw [List.length_eraseIdx_of_lt (by omega), hl1]; omega
  apply List.ext_getElem
  · simp only [List.length_append, hl2, List.length_cons, List.length_nil, List.length_ofFn]; omega
  · intro k h1 h2
    simp at h2
    rw [List.getElem_ofFn]
    simp only [pairPerm, Equiv.coe_fn_mk]
    rcases (by omega : k < n - 2 ∨ k = n - 2 ∨ k = n - 1) with hk | hk | hk
    · rw [List.getElem_append_left (by rw [hl2]; exact hk)]
      simp only [List.getElem_eraseIdx, pyRange_getElem, pairF]
      split_ifs <;> omega
    · subst hk
      rw [List.getElem_append_right (by rw [hl2])]
      simp [hl2, pairF]
    · rw [List.getElem_append_right (by rw [hl2]; omega)]
      have e : k - (n - 2) = 1 := by omega
      simp only [hl2, e, pairF]
      rw [if_neg (by omega), if_pos hk]
      rfl

theorem pairPerm_list_inv {n : ℕ} (c t : Fin (n + 2)) (h : c ≠ t) :
    (if ((c : ℕ) : ℤ) < ((t : ℕ) : ℤ)
      then pyInsert (pyInsert (pyRange (n : ℤ)) ((c : ℕ) : ℤ) (((n + 2 : ℕ) : ℤ) - 2))
        ((t : ℕ) : ℤ) (((n + 2 : ℕ) : ℤ) - 1)
      else pyInsert (pyInsert (pyRange (n : ℤ)) ((t : ℕ) : ℤ) (((n + 2 : ℕ) : ℤ) - 1))
        ((c : ℕ) : ℤ) (((n + 2 : ℕ) : ℤ) - 2)) =
      List.ofFn (fun k => (((pairPerm c t h).symm k : ℕ) : ℤ)) := by
  have hc := c.2; have ht := t.2
  have hne : (c : ℕ) ≠ t := fun e => h (Fin.ext e)
  have hlen : ∀ a (x : ℤ), a ≤ n → ((pyRange (n : ℤ)).insertIdx a x).length = n + 1 := by
    intro a x ha
    rw [List.length_insertIdx_of_le_length (by rw [pyRange_length]; exact ha), pyRange_length]
  split_ifs with hlt
  all_goals
    rw [pyInsert_nat (pyRange (n : ℤ)) _ _ (by rw [pyRange_length]; omega),
      pyInsert_nat _ _ _ (by rw [hlen _ _ (by omega)]; omega)]
    apply List.ext_getElem
    · rw [List.length_insertIdx_of_le_length (by rw [hlen _ _ (by omega)]; omega),
        hlen _ _ (by omega)]
      simp
    · intro k h1 h2
      simp at h2
      rw [List.getElem_ofFn]
      simp only [pairPerm, Equiv.coe_fn_symm_mk, List.getElem_insertIdx, pyRange_getElem, pairG]
      split_ifs <;> omega

theorem pairPerm_last {n : ℕ} (c t : Fin (n + 2)) (h : c ≠ t) :
    pairPerm c t h (Fin.last n).castSucc = c ∧ pairPerm c t h (Fin.last (n + 1)) = t := by
  constructor
  · apply Fin.ext
    simp [pairPerm, pairF]
  · apply Fin.ext
    simp [pairPerm, pairF]

theorem pairPerm_symm {n : ℕ} (c t : Fin (n + 2)) (h : c ≠ t) :
    (pairPerm c t h).symm c = (Fin.last n).castSucc ∧
    (pairPerm c t h).symm t = Fin.last (n + 1) := by
  obtain ⟨h1, h2⟩ := pairPerm_last c t h
  exact ⟨by rw [Equiv.symm_apply_eq, h1], by rw [Equiv.symm_apply_eq, h2]⟩

/-- Entries of `contract2`. -/
theorem contract2_get {n : ℕ} {m T : Tensor ℂ} {d : Fin (n + 2) → ℕ} (c t : Fin (n + 2))
    (h : c ≠ t) (hm : m.shape = [4, 4]) (hT : T.shape = List.ofFn d) (hc : d c = 2) (ht : d t = 2)
    {out : List ℕ → List ℤ}
    (hout : out (List.ofFn (fun i : Fin n => d (pairPerm c t h i.castSucc.castSucc)) ++ [4, 1]) =
      (List.ofFn (fun i : Fin n => d (pairPerm c t h i.castSucc.castSucc)) ++ [2, 2]).map
        (fun k : ℕ => (k : ℤ))) :
    ∃ T', Gate.contract2 m T ((n + 2 : ℕ) : ℤ) (c : ℕ) (t : ℕ) out = .ok T' ∧
      T'.shape = List.ofFn d ∧
      ∀ y : Fin (n + 2) → ℕ, (∀ k, y k < d k) →
        T'.get (List.ofFn y) = ∑ u ∈ range 4, m.get [y c * 2 + y t, u] *
          T.get (List.ofFn (Function.update (Function.update y c (u / 2)) t (u % 2))) := by
  set σ := pairPerm c t h with hσ
  set pre := List.ofFn (fun i : Fin n => d (σ i.castSucc.castSucc)) with hpre
  obtain ⟨e1, e2⟩ := pairPerm_last c t h
  obtain ⟨f1, f2⟩ := pairPerm_symm c t h
  rw [← hσ] at e1 e2 f1 f2
  obtain ⟨T1, h1, s1, g1⟩ := Tensor.permute_fn σ hT (p := _) rfl
  have s1' : T1.shape = pre ++ [2, 2] := by
    rw [s1, ofFn_snoc2]
    simp [e1, e2, hc, ht, hpre]
  obtain ⟨T2, hT2⟩ : ∃ T2, T2 = T1.reshapeN (pre ++ [4, 1]) := ⟨_, rfl⟩
  have h2 : T1.view ((pre ++ [4, 1]).map (fun d : ℕ => (d : ℤ))) = .ok T2 := by
    rw [Tensor.view_nat _ _ (by simp [Tensor.numel, s1']), hT2]
  obtain ⟨T3, h3, s3, g3⟩ := Tensor.matmul_left hm (t := T2) (s := pre) (q := 1)
    (by rw [hT2]; rfl)
  obtain ⟨T4, hT4⟩ : ∃ T4, T4 = T3.reshapeN (pre ++ [2, 2]) := ⟨_, rfl⟩
  have h4 : T3.view (out (pre ++ [4, 1])) = .ok T4 := by
    rw [hout, Tensor.view_nat _ _ (by simp [Tensor.numel, s3]), hT4]
  have s4 : T4.shape = List.ofFn (d ∘ σ) := by
    rw [hT4, Tensor.reshapeN_shape, ← s1', s1]
  obtain ⟨T5, h5, s5, g5⟩ := Tensor.permute_fn σ.symm s4 (p := _) rfl
  have hσσ : (d ∘ σ) ∘ σ.symm = d := by
    funext k
    simp
  refine ⟨T5, ?_, by rw [s5, hσσ], ?_⟩
  · unfold Gate.contract2
    dsimp only
    have hne : ((t : ℕ) : ℤ) ≠ ((c : ℕ) : ℤ) := by
      intro e; exact h (Fin.ext (by omega))
    rw [pyRemove_mem (mem_pyRange _ _ c.2), Py.ok_bind,
      pyRemove_mem ((List.mem_erase_of_ne hne).2 (mem_pyRange _ _ t.2)), Py.ok_bind,
      pairPerm_list c t h, ← hσ, h1, Py.ok_bind]
    simp only [s1', pyGet_app_m2, pyGet_app_m1, pySet_app_m2, pySet_app_m1, Py.ok_bind]
    rw [show (2 * 2 : ℕ) = 4 from rfl, h2, Py.ok_bind, h3, Py.ok_bind, h4, Py.ok_bind,
      pyPop_range (n + 1), Py.ok_bind, pyPop_range n, Py.ok_bind, pairPerm_list_inv c t h, ← hσ, h5]
  · intro y hy
    have hx : ∀ k, (y ∘ σ) k < (d ∘ σ) k := fun k => hy (σ k)
    rw [g5 y (by intro k; have := congrFun hσσ k; simp only [Function.comp] at this ⊢
                 rw [this]; exact hy k), Equiv.symm_symm, hT4]
    have hyc : y c < 2 := by rw [← hc]; exact hy c
    have hyt : y t < 2 := by rw [← ht]; exact hy t
    set ypre := List.ofFn (fun i : Fin n => y (σ i.castSucc.castSucc)) with hypre
    have hsplit : List.ofFn (y ∘ σ) = ypre ++ [y c, y t] := by
      rw [ofFn_snoc2]; simp [e1, e2, hypre]
    have hin : inB pre ypre = true := inB_ofFn.2 (fun i => hy _)
    have hl := inB_length hin
    rw [hsplit, Tensor.reshapeN_get_eq (idx' := ypre ++ [y c * 2 + y t, 0])
      (by rw [inB_append hl, hin]; simp [hyc, hyt])
      (by rw [s3, inB_append hl, hin]; simp; omega)
      (by rw [s3, ravel_append hl, ravel_append hl]; simp [ravel])]
    rw [g3 _ _ _ hin (by omega) (by omega)]
    apply Finset.sum_congr rfl
    intro u hu
    have hu4 : u < 4 := by simpa using hu
    congr 1
    rw [hT2, Tensor.reshapeN_get_eq (idx' := ypre ++ [u / 2, u % 2])
      (by rw [inB_append hl, hin]; simp [hu4])
      (by rw [s1', inB_append hl, hin]; simp; omega)
      (by rw [s1', ravel_append hl, ravel_append hl]; simp [ravel]; omega)]
    have hsplit2 : ypre ++ [u / 2, u % 2] = List.ofFn
        ((Function.update (Function.update y c (u / 2)) t (u % 2)) ∘ σ) := by
      rw [ofFn_snoc2]
      have hk : ∀ i : Fin n, σ i.castSucc.castSucc ≠ c ∧ σ i.castSucc.castSucc ≠ t := by
        intro i
        constructor
        · intro he
          rw [← e1] at he
          have := congrArg Fin.val (σ.injective he)
          simp at this; omega
        · intro he
          rw [← e2] at he
          have := congrArg Fin.val (σ.injective he)
          simp at this; omega
      simp [e1, e2, hypre, h, Function.update_of_ne, hk]
    have hb : ∀ k, ((Function.update (Function.update y c (u / 2)) t (u % 2)) ∘ σ) k < d (σ k) := by
      intro k
      simp only [Function.comp]
      by_cases h1 : σ k = t
      · rw [h1, Function.update_self, ht]; omega
      · rw [Function.update_of_ne h1]
        by_cases h2 : σ k = c
        · rw [h2, Function.update_self, hc]; omega
        · rw [Function.update_of_ne h2]; exact hy _
    rw [hsplit2, g1 _ hb]
    congr 2
    funext k
    simp

/-! ## The permutation of `contract3` -/

theorem ofFn_snoc3 {β : Type} {n : ℕ} (x : Fin (n + 3) → β) :
    List.ofFn x = List.ofFn (fun i : Fin n => x i.castSucc.castSucc.castSucc) ++
      [x (Fin.last n).castSucc.castSucc, x (Fin.last (n + 1)).castSucc, x (Fin.last (n + 2))] := by
  rw [List.ofFn_succ', ofFn_snoc2]
  simp [List.concat_eq_append]

/-- position `k` of `others ++ [p, q, r]`, where `a < b < c` are the three wires in order -/
def tripF (n p q r a b c k : ℕ) : ℕ :=
  if k = n - 3 then p else if k = n - 2 then q else if k = n - 1 then r
  else if k < a then k else if k + 1 < b then k + 1 else if k + 2 < c then k + 2 else k + 3

/-- where dimension `j` goes -/
def tripG (n p q r a b c j : ℕ) : ℕ :=
  if j = p then n - 3 else if j = q then n - 2 else if j = r then n - 1
  else if j < a then j else if j < b then j - 1 else if j < c then j - 2 else j - 3

/-- `a < b < c` are the numbers `p`, `q`, `r` in order -/
structure Sorted3 (p q r a b c : ℕ) : Prop where
  ab : a < b
  bc : b < c
  perm : (p = a ∧ q = b ∧ r = c) ∨ (p = a ∧ q = c ∧ r = b) ∨ (p = b ∧ q = a ∧ r = c) ∨
    (p = b ∧ q = c ∧ r = a) ∨ (p = c ∧ q = a ∧ r = b) ∨ (p = c ∧ q = b ∧ r = a)

theorem exists_sorted3 {p q r : ℕ} (h1 : p ≠ q) (h2 : p ≠ r) (h3 : q ≠ r) :
    ∃ a b c, Sorted3 p q r a b c := by
  rcases Nat.lt_or_gt_of_ne h1 with x | x <;> rcases Nat.lt_or_gt_of_ne h2 with y | y <;>
    rcases Nat.lt_or_gt_of_ne h3 with z | z
  · exact ⟨p, q, r, x, z, by simp⟩
  · exact ⟨p, r, q, y, z, by simp⟩
  · omega
  · exact ⟨r, p, q, y, x, by simp⟩
  · exact ⟨q, p, r, x, y, by simp⟩
  · omega
  · exact ⟨q, r, p, z, y, by simp⟩
  · exact ⟨r, q, p, z, x, by simp⟩

theorem tripF_lt {n p q r a b c k : ℕ} (h : Sorted3 p q r a b c) (hc : c < n) (hk : k < n) :
    tripF n p q r a b c k < n := by
  obtain ⟨h1, h2, h3⟩ := h
  unfold tripF
  rcases h3 with ⟨rfl, rfl, rfl⟩ | ⟨rfl, rfl, rfl⟩ | ⟨rfl, rfl, rfl⟩ | ⟨rfl, rfl, rfl⟩ |
    ⟨rfl, rfl, rfl⟩ | ⟨rfl, rfl, rfl⟩ <;> split_ifs <;> omega

theorem tripG_lt {n p q r a b c k : ℕ} (h : Sorted3 p q r a b c) (hc : c < n) (hk : k < n) :
    tripG n p q r a b c k < n := by
  obtain ⟨h1, h2, h3⟩ := h
  unfold tripG
  rcases h3 with ⟨rfl, rfl, rfl⟩ | ⟨rfl, rfl, rfl⟩ | ⟨rfl, rfl, rfl⟩ | ⟨rfl, rfl, rfl⟩ |
    ⟨rfl, rfl, rfl⟩ | ⟨rfl, rfl, rfl⟩ <;> split_ifs <;> omega

theorem Sorted3.facts {p q r a b c : ℕ} (h : Sorted3 p q r a b c) :
    (p = a ∨ p = b ∨ p = c) ∧ (q = a ∨ q = b ∨ q = c) ∧ (r = a ∨ r = b ∨ r = c) ∧
    q ≠ p ∧ r ≠ p ∧ r ≠ q ∧ (∀ j, j ≠ p → j ≠ q → j ≠ r → j ≠ a ∧ j ≠ b ∧ j ≠ c) := by
  obtain ⟨h1, h2, h3⟩ := h
  rcases h3 with ⟨rfl, rfl, rfl⟩ | ⟨rfl, rfl, rfl⟩ | ⟨rfl, rfl, rfl⟩ | ⟨rfl, rfl, rfl⟩ |
    ⟨rfl, rfl, rfl⟩ | ⟨rfl, rfl, rfl⟩ <;>
  refine ⟨by omega, by omega, by omega, by omega, by omega, by omega, ?_⟩ <;>
  intro j h1 h2 h3 <;> exact ⟨by assumption, by assumption, by assumption⟩

theorem tripG_tripF {n p q r a b c k : ℕ} (h : Sorted3 p q r a b c) (_hc : c < n) (hk : k < n) :
    tripG n p q r a b c (tripF n p q r a b c k) = k := by
  have h1 := h.ab
  have h2 := h.bc
  obtain ⟨fp, fq, fr, n1, n2, n3, -⟩ := h.facts
  clear h
  unfold tripF
  by_cases k1 : k = n - 3
  · rw [if_pos k1]; unfold tripG; rw [if_pos rfl, k1]
  rw [if_neg k1]
  by_cases k2 : k = n - 2
  · rw [if_pos k2]; unfold tripG; rw [if_neg n1, if_pos rfl, k2]
  rw [if_neg k2]
  by_cases k3 : k = n - 1
  · rw [if_pos k3]; unfold tripG; rw [if_neg n2, if_neg n3, if_pos rfl, k3]
  rw [if_neg k3]
  generalize hx : (if k < a then k else if k + 1 < b then k + 1 else
    if k + 2 < c then k + 2 else k + 3) = x
  have hne : x ≠ a ∧ x ≠ b ∧ x ≠ c := by split_ifs at hx <;> omega
  unfold tripG
  rw [if_neg (by omega), if_neg (by omega), if_neg (by omega)]
  clear fp fq fr
  split_ifs at hx <;> subst hx <;> split_ifs <;> omega

theorem tripF_tripG {n p q r a b c k : ℕ} (h : Sorted3 p q r a b c) (_hc : c < n) (hk : k < n) :
    tripF n p q r a b c (tripG n p q r a b c k) = k := by
  have h1 := h.ab
  have h2 := h.bc
  obtain ⟨-, -, -, n1, n2, n3, hj⟩ := h.facts
  clear h
  unfold tripG
  by_cases k1 : k = p
  · rw [if_pos k1]; unfold tripF; rw [if_pos rfl, k1]
  rw [if_neg k1]
  by_cases k2 : k = q
  · rw [if_pos k2]; unfold tripF; rw [if_neg (by omega), if_pos rfl, k2]
  rw [if_neg k2]
  by_cases k3 : k = r
  · rw [if_pos k3]; unfold tripF; rw [if_neg (by omega), if_neg (by omega), if_pos rfl, k3]
  rw [if_neg k3]
  obtain ⟨j1, j2, j3⟩ := hj k k1 k2 k3
  clear hj n1 n2 n3
  generalize hx : (if k < a then k else if k < b then k - 1 else
    if k < c then k - 2 else k - 3) = x
  have hne : x < n - 3 := by split_ifs at hx <;> omega
  unfold tripF
  rw [if_neg (by omega), if_neg (by omega), if_neg (by omega)]
  split_ifs at hx <;> subst hx <;> split_ifs <;> omega

theorem Sorted3.lt {n : ℕ} {p q r : Fin n} {a b c : ℕ} (h : Sorted3 p q r a b c) : c < n := by
  have := p.2; have := q.2; have := r.2
  have := h.perm
  omega

/-- the permutation with the wires `p`, `q`, `r` moved to the end -/
def tripPerm {n : ℕ} (p q r : Fin n) {a b c : ℕ} (h : Sorted3 p q r a b c) :
    Equiv.Perm (Fin n) where
  toFun k := ⟨tripF n p q r a b c k, tripF_lt h h.lt k.2⟩
  invFun k := ⟨tripG n p q r a b c k, tripG_lt h h.lt k.2⟩
  left_inv k := Fin.ext (tripG_tripF h h.lt k.2)
  right_inv k := Fin.ext (tripF_tripG h h.lt k.2)

theorem tripPerm_list {n : ℕ} (p q r : Fin n) {a b c : ℕ} (h : Sorted3 p q r a b c) :
    (((pyRange (n : ℤ)).erase ((p : ℕ) : ℤ)).erase ((q : ℕ) : ℤ)).erase ((r : ℕ) : ℤ) ++
      [((p : ℕ) : ℤ), ((q : ℕ) : ℤ), ((r : ℕ) : ℤ)] =
      List.ofFn (fun k => ((tripPerm p q r h k : ℕ) : ℤ)) := by
  have hp := p.2; have hq := q.2; have hr := r.2
  have hab := h.ab
  have hbc := h.bc
  have hc : c < n := by have := h.perm; omega
  have key : (((pyRange (n : ℤ)).erase ((p : ℕ) : ℤ)).erase ((q : ℕ) : ℤ)).erase ((r : ℕ) : ℤ) =
      (((pyRange (n : ℤ)).eraseIdx c).eraseIdx b).eraseIdx a := by
    rw [← erase3_range hab hbc hc]
    generalize pyRange (n : ℤ) = l
    have ec : ∀ (l : List ℤ) (x y : ℤ), (l.erase x).erase y = (l.erase y).erase x :=
      fun l x y => List.erase_comm x y
    rcases h.perm with ⟨e1, e2, e3⟩ | ⟨e1, e2, e3⟩ | ⟨e1, e2, e3⟩ | ⟨e1, e2, e3⟩ | ⟨e1, e2, e3⟩ |
      ⟨e1, e2, e3⟩ <;> rw [e1, e2, e3]
    · rw [ec _ (a : ℤ) b, ec (l.erase (b : ℤ)) a c, ec l b c]
    · rw [ec l (a : ℤ) c, ec _ (a : ℤ) b]
    · rw [ec _ (a : ℤ) c, ec l (b : ℤ) c]
    · rw [ec l (b : ℤ) c]
    · rw [ec _ (a : ℤ) b]
  rw [key]
  have hl1 : ((pyRange (n : ℤ)).eraseIdx c).length = n - 1 := by
    rw [List.length_eraseIdx_of_lt (by rw [pyRange_length]; omega), pyRange_length]
  have hl2 : (((pyRange (n : ℤ)).eraseIdx c).eraseIdx b).length = n - 2 := by
    rw [List.length_eraseIdx_of_lt (by omega), hl1]; omega
  have hl3 : ((((pyRange (n : ℤ)).eraseIdx c).eraseIdx b).eraseIdx a).length = n - 3 := by
    rw [List.length_eraseIdx_of_lt (by omega), hl2]; omega
  apply List.ext_getElem
  · simp only [List.length_append, hl3, List.length_cons, List.length_nil, List.length_ofFn]; omega
  · intro k h1 h2
    simp at h2
    rw [List.getElem_ofFn]
    simp only [tripPerm, Equiv.coe_fn_mk]
    rcases (by omega : k < n - 3 ∨ k = n - 3 ∨ k = n - 2 ∨ k = n - 1) with hk | hk | hk | hk
    · rw [List.getElem_append_left (by rw [hl3]; exact hk)]
      simp only [List.getElem_eraseIdx, pyRange_getElem, tripF]
      split_ifs <;> omega
    · subst hk
      rw [List.getElem_append_right (by rw [hl3])]
      simp [hl3, tripF]
    · rw [List.getElem_append_right (by rw [hl3]; omega)]
      have e : k - (n - 3) = 1 := by omega
      simp only [hl3, e, tripF]
      rw [if_neg (by omega), if_pos hk]
      rfl
    · rw [List.getElem_append_right (by rw [hl3]; omega)]
      have e : k - (n - 3) = 2 := by omega
      simp only [hl3, e, tripF]
      rw [if_neg (by omega), if_neg (by omega), if_pos hk]
      rfl

/-- three insertions at increasing positions -/
theorem insert3_getElem {n a b c : ℕ} (hab : a < b) (hbc : b < c) (hc : c < n + 3) (x y z : ℤ) :
    pyInsert (pyInsert (pyInsert (pyRange (n : ℤ)) (a : ℤ) x) (b : ℤ) y) (c : ℤ) z =
      List.ofFn (fun k : Fin (n + 3) => if (k : ℕ) = a then x else if (k : ℕ) = b then y
        else if (k : ℕ) = c then z else if (k : ℕ) < a then ((k : ℕ) : ℤ)
        else if (k : ℕ) < b then ((k : ℕ) : ℤ) - 1 else if (k : ℕ) < c then ((k : ℕ) : ℤ) - 2
        else ((k : ℕ) : ℤ) - 3) := by
  have hl0 := pyRange_length n
  have hl1 : ((pyRange (n : ℤ)).insertIdx a x).length = n + 1 := by
    rw [List.length_insertIdx_of_le_length (by omega), hl0]
  have hl2 : (((pyRange (n : ℤ)).insertIdx a x).insertIdx b y).length = n + 2 := by
    rw [List.length_insertIdx_of_le_length (by omega), hl1]
  rw [pyInsert_nat (pyRange (n : ℤ)) _ _ (by omega), pyInsert_nat _ b _ (by omega),
    pyInsert_nat _ c _ (by omega)]
  apply List.ext_getElem
  · rw [List.length_insertIdx_of_le_length (by omega), hl2]; simp
  · intro k h1 h2
    simp at h2
    rw [List.getElem_ofFn]
    simp only [List.getElem_insertIdx, pyRange_getElem]
    split_ifs <;> omega

/-- the if-chain of `contract3` -/
def tripInv (n : ℤ) (p0 : List ℤ) (c1 c2 t : ℤ) : List ℤ :=
  let ins (p : List ℤ) (a x b y d z : ℤ) : List ℤ := pyInsert (pyInsert (pyInsert p a x) b y) d z
  if c1 < c2 ∧ c2 < t then ins p0 c1 (n - 3) c2 (n - 2) t (n - 1)
  else if c1 < t ∧ t < c2 then ins p0 c1 (n - 3) t (n - 1) c2 (n - 2)
  else if c2 < t ∧ t < c1 then ins p0 c2 (n - 2) t (n - 1) c1 (n - 3)
  else if c2 < c1 ∧ c1 < t then ins p0 c2 (n - 2) c1 (n - 3) t (n - 1)
  else if t < c1 ∧ c1 < c2 then ins p0 t (n - 1) c1 (n - 3) c2 (n - 2)
  else if t < c2 ∧ c2 < c1 then ins p0 t (n - 1) c2 (n - 2) c1 (n - 3)
  else p0

theorem tripPerm_list_inv {n : ℕ} (p q r : Fin (n + 3)) {a b c : ℕ} (h : Sorted3 p q r a b c) :
    tripInv ((n + 3 : ℕ) : ℤ) (pyRange (n : ℤ)) ((p : ℕ) : ℤ) ((q : ℕ) : ℤ) ((r : ℕ) : ℤ) =
      List.ofFn (fun k => (((tripPerm p q r h).symm k : ℕ) : ℤ)) := by
  have hab := h.ab
  have hbc := h.bc
  have hc := h.lt
  have hh : ∀ k : Fin (n + 3), ((tripPerm p q r h).symm k : ℕ) = tripG (n + 3) p q r a b c k :=
    fun k => rfl
  simp only [hh, tripInv]
  have hp := h.perm
  clear hh h
  generalize (p : ℕ) = p at *
  generalize (q : ℕ) = q at *
  generalize (r : ℕ) = r at *
  rcases hp with ⟨rfl, rfl, rfl⟩ | ⟨rfl, rfl, rfl⟩ | ⟨rfl, rfl, rfl⟩ | ⟨rfl, rfl, rfl⟩ |
    ⟨rfl, rfl, rfl⟩ | ⟨rfl, rfl, rfl⟩
  · rw [if_pos (by omega), insert3_getElem hab hbc hc]
    congr 1; funext k; unfold tripG; split_ifs <;> omega
  · rw [if_neg (by omega), if_pos (by omega), insert3_getElem hab hbc hc]
    congr 1; funext k; unfold tripG; split_ifs <;> omega
  · rw [if_neg (by omega), if_neg (by omega), if_neg (by omega), if_pos (by omega),
      insert3_getElem hab hbc hc]
    congr 1; funext k; unfold tripG; split_ifs <;> omega
  · rw [if_neg (by omega), if_neg (by omega), if_neg (by omega), if_neg (by omega),
      if_pos (by omega), insert3_getElem hab hbc hc]
    congr 1; funext k; unfold tripG; split_ifs <;> omega
  · rw [if_neg (by omega), if_neg (by omega), if_pos (by omega), insert3_getElem hab hbc hc]
    congr 1; funext k; unfold tripG; split_ifs <;> omega
  · rw [if_neg (by omega), if_neg (by omega), if_neg (by omega), if_neg (by omega),
      if_neg (by omega), if_pos (by omega), insert3_getElem hab hbc hc]
    congr 1; funext k; unfold tripG; split_ifs <;> omega

theorem tripPerm_last {n : ℕ} (p q r : Fin (n + 3)) {a b c : ℕ} (h : Sorted3 p q r a b c) :
    tripPerm p q r h (Fin.last n).castSucc.castSucc = p ∧
    tripPerm p q r h (Fin.last (n + 1)).castSucc = q ∧
    tripPerm p q r h (Fin.last (n + 2)) = r := by
  refine ⟨?_, ?_, ?_⟩ <;> apply Fin.ext <;> simp [tripPerm, tripF]

/-- Entries of `contract3`. -/
theorem contract3_get {n : ℕ} {m T : Tensor ℂ} {d : Fin (n + 3) → ℕ} (p q r : Fin (n + 3))
    {a b c : ℕ} (h : Sorted3 p q r a b c) (hm : m.shape = [8, 8]) (hT : T.shape = List.ofFn d)
    (hp : d p = 2) (hq : d q = 2) (hr : d r = 2) {out : List ℕ → List ℤ}
    (hout : out (List.ofFn (fun i : Fin n => d (tripPerm p q r h i.castSucc.castSucc.castSucc)) ++
        [8, 1, 1]) =
      (List.ofFn (fun i : Fin n => d (tripPerm p q r h i.castSucc.castSucc.castSucc)) ++
        [2, 2, 2]).map (fun k : ℕ => (k : ℤ))) :
    ∃ T', Gate.contract3 m T ((n + 3 : ℕ) : ℤ) (p : ℕ) (q : ℕ) (r : ℕ) out = .ok T' ∧
      T'.shape = List.ofFn d ∧
      ∀ y : Fin (n + 3) → ℕ, (∀ k, y k < d k) →
        T'.get (List.ofFn y) = ∑ u ∈ range 8, m.get [y p * 4 + y q * 2 + y r, u] *
          T.get (List.ofFn (Function.update (Function.update (Function.update y p (u / 4))
            q (u / 2 % 2)) r (u % 2))) := by
  obtain ⟨-, -, -, n1, n2, n3, -⟩ := h.facts
  have hqp : q ≠ p := fun e => n1 (congrArg Fin.val e)
  have hrp : r ≠ p := fun e => n2 (congrArg Fin.val e)
  have hrq : r ≠ q := fun e => n3 (congrArg Fin.val e)
  set σ := tripPerm p q r h with hσ
  set pre := List.ofFn (fun i : Fin n => d (σ i.castSucc.castSucc.castSucc)) with hpre
  obtain ⟨e1, e2, e3⟩ := tripPerm_last p q r h
  rw [← hσ] at e1 e2 e3
  obtain ⟨T1, h1, s1, g1⟩ := Tensor.permute_fn σ hT (p := _) rfl
  have s1' : T1.shape = pre ++ [2, 2, 2] := by
    rw [s1, ofFn_snoc3]
    simp [e1, e2, e3, hp, hq, hr, hpre]
  obtain ⟨T2, hT2⟩ : ∃ T2, T2 = T1.reshapeN (pre ++ [8, 1, 1]) := ⟨_, rfl⟩
  have h2 : T1.view ((pre ++ [8, 1, 1]).map (fun d : ℕ => (d : ℤ))) = .ok T2 := by
    rw [Tensor.view_nat _ _ (by simp [Tensor.numel, s1']), hT2]
  obtain ⟨T2', h2', s2', g2'⟩ := Tensor.squeezeDim_last (t := T2) (s := pre ++ [8, 1])
    (by rw [hT2]; simp)
  obtain ⟨T3, h3, s3, g3⟩ := Tensor.matmul_left hm (t := T2') (s := pre) (q := 1) s2'
  obtain ⟨T4, hT4⟩ : ∃ T4, T4 = T3.reshapeN (pre ++ [2, 2, 2]) := ⟨_, rfl⟩
  have h4 : T3.view (out (pre ++ [8, 1, 1])) = .ok T4 := by
    rw [hout, Tensor.view_nat _ _ (by simp [Tensor.numel, s3]), hT4]
  have s4 : T4.shape = List.ofFn (d ∘ σ) := by
    rw [hT4, Tensor.reshapeN_shape, ← s1', s1]
  obtain ⟨T5, h5, s5, g5⟩ := Tensor.permute_fn σ.symm s4 (p := _) rfl
  have hσσ : (d ∘ σ) ∘ σ.symm = d := by
    funext k
    simp
  refine ⟨T5, ?_, by rw [s5, hσσ], ?_⟩
  · unfold Gate.contract3
    dsimp only
    have hne1 : ((q : ℕ) : ℤ) ≠ ((p : ℕ) : ℤ) := by omega
    have hne2 : ((r : ℕ) : ℤ) ≠ ((p : ℕ) : ℤ) := by omega
    have hne3 : ((r : ℕ) : ℤ) ≠ ((q : ℕ) : ℤ) := by omega
    rw [pyRemove_mem (mem_pyRange _ _ p.2), Py.ok_bind,
      pyRemove_mem ((List.mem_erase_of_ne hne1).2 (mem_pyRange _ _ q.2)), Py.ok_bind,
      pyRemove_mem ((List.mem_erase_of_ne hne3).2 ((List.mem_erase_of_ne hne2).2
        (mem_pyRange _ _ r.2))), Py.ok_bind,
      tripPerm_list p q r h, ← hσ, h1, Py.ok_bind]
    have q3 : pyGet (pre ++ [2, 2, 2]) (-3) = .ok 2 :=
      pyGet_app pre [2, 2, 2] 3 (by omega) (by simp)
    have q2 : pyGet (pre ++ [2, 2, 2]) (-2) = .ok 2 :=
      pyGet_app pre [2, 2, 2] 2 (by omega) (by simp)
    have q1 : pyGet (pre ++ [2, 2, 2]) (-1) = .ok 2 :=
      pyGet_app pre [2, 2, 2] 1 (by omega) (by simp)
    have q4 : pySet (pre ++ [2, 2, 2]) (-3) (2 * 2 * 2) = .ok (pre ++ [8, 2, 2]) :=
      pySet_app pre [2, 2, 2] 3 _ (by omega) (by simp)
    have q5 : pySet (pre ++ [8, 2, 2]) (-2) 1 = .ok (pre ++ [8, 1, 2]) :=
      pySet_app pre [8, 2, 2] 2 _ (by omega) (by simp)
    have q6 : pySet (pre ++ [8, 1, 2]) (-1) 1 = .ok (pre ++ [8, 1, 1]) :=
      pySet_app pre [8, 1, 2] 1 _ (by omega) (by simp)
    rw [s1', q3, Py.ok_bind, q2, Py.ok_bind, q1, Py.ok_bind, q4, Py.ok_bind, q5, Py.ok_bind, q6,
      Py.ok_bind]
    rw [h2, Py.ok_bind, h2', Py.ok_bind, h3, Py.ok_bind, h4, Py.ok_bind,
      pyPop_range (n + 2), Py.ok_bind, pyPop_range (n + 1), Py.ok_bind, pyPop_range n, Py.ok_bind]
    have := tripPerm_list_inv p q r h
    simp only [tripInv] at this
    rw [this, ← hσ, h5]
  · intro y hy
    have hx : ∀ k, (y ∘ σ) k < (d ∘ σ) k := fun k => hy (σ k)
    rw [g5 y (by intro k; have := congrFun hσσ k; simp only [Function.comp] at this ⊢
                 rw [this]; exact hy k), Equiv.symm_symm, hT4]
    have hyp : y p < 2 := by rw [← hp]; exact hy p
    have hyq : y q < 2 := by rw [← hq]; exact hy q
    have hyr : y r < 2 := by rw [← hr]; exact hy r
    set ypre := List.ofFn (fun i : Fin n => y (σ i.castSucc.castSucc.castSucc)) with hypre
    have hsplit : List.ofFn (y ∘ σ) = ypre ++ [y p, y q, y r] := by
      rw [ofFn_snoc3]; simp [e1, e2, e3, hypre]
    have hin : inB pre ypre = true := inB_ofFn.2 (fun i => hy _)
    have hl := inB_length hin
    rw [hsplit, Tensor.reshapeN_get_eq (idx' := ypre ++ [y p * 4 + y q * 2 + y r, 0])
      (by rw [inB_append hl, hin]; simp [hyp, hyq, hyr])
      (by rw [s3, inB_append hl, hin]; simp; omega)
      (by rw [s3, ravel_append hl, ravel_append hl]; simp [ravel]; omega)]
    rw [g3 _ _ _ hin (by omega) (by omega)]
    apply Finset.sum_congr rfl
    intro u hu
    have hu8 : u < 8 := by simpa using hu
    congr 1
    have happ : ypre ++ [u, 0] ++ [0] = ypre ++ [u, 0, 0] := by simp
    rw [g2' _ (by rw [inB_append hl, hin]; simp [hu8]), happ]
    rw [hT2, Tensor.reshapeN_get_eq (idx' := ypre ++ [u / 4, u / 2 % 2, u % 2])
      (by rw [inB_append hl, hin]; simp [hu8])
      (by rw [s1', inB_append hl, hin]; simp; omega)
      (by rw [s1', ravel_append hl, ravel_append hl]; simp [ravel]; omega)]
    have hsplit2 : ypre ++ [u / 4, u / 2 % 2, u % 2] = List.ofFn
        ((Function.update (Function.update (Function.update y p (u / 4))
            q (u / 2 % 2)) r (u % 2)) ∘ σ) := by
      rw [ofFn_snoc3]
      have hk : ∀ i : Fin n, σ i.castSucc.castSucc.castSucc ≠ p ∧
          σ i.castSucc.castSucc.castSucc ≠ q ∧ σ i.castSucc.castSucc.castSucc ≠ r := by
        intro i
        refine ⟨?_, ?_, ?_⟩
        · intro he
          rw [← e1] at he
          have := congrArg Fin.val (σ.injective he)
          simp at this; omega
        · intro he
          rw [← e2] at he
          have := congrArg Fin.val (σ.injective he)
          simp at this; omega
        · intro he
          rw [← e3] at he
          have := congrArg Fin.val (σ.injective he)
          simp at this; omega
      simp [e1, e2, e3, hypre, Function.update_of_ne, hk, hqp.symm, hrp.symm, hrq.symm]
    have hb : ∀ k, ((Function.update (Function.update (Function.update y p (u / 4))
            q (u / 2 % 2)) r (u % 2)) ∘ σ) k < d (σ k) := by
      intro k
      simp only [Function.comp]
      by_cases h1 : σ k = r
      · rw [h1, Function.update_self, hr]; omega
      · rw [Function.update_of_ne h1]
        by_cases h2 : σ k = q
        · rw [h2, Function.update_self, hq]; omega
        · rw [Function.update_of_ne h2]
          by_cases h3 : σ k = p
          · rw [h3, Function.update_self, hp]; omega
          · rw [Function.update_of_ne h3]; exact hy _
    rw [hsplit2, g1 _ hb]
    congr 2
    funext k
    simp

end QTN
