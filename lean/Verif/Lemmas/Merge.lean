import Verif.Lemmas.Decomp
import Verif.Lemmas.MpsVec
import Verif.Lemmas.ContractOps

/-! # Merging neighbouring sites, applying a matrix, decomposing again -/

namespace QTN

open Finset Spec Matrix

/-- Decides that an index lies within a concrete shape. -/
macro "inb" : tactic => `(tactic|
  (simp only [inB_cons, inB_nil, Bool.and_true, Bool.and_eq_true, decide_eq_true_eq]; omega))

theorem permute_merge4 {t : Tensor ℂ} {a b c d : ℕ} (h : t.shape = [a, b, c, d]) :
    ∃ t', t.permute [2, 3, 0, 1] = .ok t' ∧ t'.shape = [c, d, a, b] ∧
      ∀ x y z w, x < a → y < b → z < c → w < d → t'.get [z, w, x, y] = t.get [x, y, z, w] := by
  obtain ⟨t', e, s, g⟩ := Tensor.permute_fn (t := t) (Equiv.addRight (2 : Fin 4)) (d := ![a, b, c, d])
    (by rw [h]; rfl) (p := [2, 3, 0, 1]) rfl
  refine ⟨t', e, s, fun x y z w hx hy hz hw => ?_⟩
  exact g ![z, w, x, y] (by intro k; fin_cases k; exacts [hz, hw, hx, hy])

theorem permute_merge5 {t : Tensor ℂ} {a b c d e : ℕ} (h : t.shape = [a, b, c, d, e]) :
    ∃ t', t.permute [3, 4, 0, 1, 2] = .ok t' ∧ t'.shape = [d, e, a, b, c] ∧
      ∀ x y z i j, x < a → y < b → z < c → i < d → j < e →
        t'.get [i, j, x, y, z] = t.get [x, y, z, i, j] := by
  obtain ⟨t', q, s, g⟩ := Tensor.permute_fn (t := t) (Equiv.addRight (3 : Fin 5)) (d := ![a, b, c, d, e])
    (by rw [h]; rfl) (p := [3, 4, 0, 1, 2]) rfl
  refine ⟨t', q, s, fun x y z i j hx hy hz hi hj => ?_⟩
  exact g ![i, j, x, y, z] (by intro k; fin_cases k; exacts [hi, hj, hx, hy, hz])

theorem permute_back5 {t : Tensor ℂ} {a b c d e : ℕ} (h : t.shape = [d, e, a, b, c]) :
    ∃ t', t.permute [2, 3, 4, 0, 1] = .ok t' ∧ t'.shape = [a, b, c, d, e] ∧
      ∀ x y z i j, x < a → y < b → z < c → i < d → j < e →
        t'.get [x, y, z, i, j] = t.get [i, j, x, y, z] := by
  obtain ⟨t', q, s, g⟩ := Tensor.permute_fn (t := t) (Equiv.addRight (2 : Fin 5)) (d := ![d, e, a, b, c])
    (by rw [h]; rfl) (p := [2, 3, 4, 0, 1]) rfl
  refine ⟨t', q, s, fun x y z i j hx hy hz hi hj => ?_⟩
  exact g ![x, y, z, i, j] (by intro k; fin_cases k; exacts [hx, hy, hz, hi, hj])

/-- Applying a matrix to the last dimension of a tensor `[l, r, n, 1]`. -/
theorem matmul_last {G t : Tensor ℂ} {l r n : ℕ} (hG : G.shape = [n, n]) (ht : t.shape = [l, r, n, 1]) :
    ∃ t', G.matmul t = .ok t' ∧ t'.shape = [l, r, n, 1] ∧
      ∀ i j p, i < l → j < r → p < n →
        t'.get [i, j, p, 0] = ∑ q ∈ range n, G.get [p, q] * t.get [i, j, q, 0] := by
  obtain ⟨t', e, s, g⟩ := Tensor.matmul_nd (a := G) (b := t) (sa := []) (sb := [l, r]) hG ht
    (bcast_nil _)
  refine ⟨t', e, s, fun i j p hi hj hp => ?_⟩
  have := g [i, j] p 0 (by simp [hi, hj]) hp (by omega)
  rw [show ([i, j, p, 0] : List ℕ) = [i, j] ++ [p, 0] from rfl, this]
  apply Finset.sum_congr rfl
  intro q hq
  have e1 : Tensor.bIdx [] [i, j] = [] := by simp [Tensor.bIdx]
  have e2 : Tensor.bIdx [l, r] [i, j] = [i, j] := by simp [Tensor.bIdx, one_idx hi, one_idx hj]
  rw [e1, e2]
  rfl

theorem mergeTwo_ok {A B G : Tensor ℂ} {l m r : ℕ} (hA : A.shape = [2, l, m]) (hB : B.shape = [2, m, r])
    {M : QOp 2} (hG : Represents G M) :
    ∃ t, Gate.mergeTwo A B G = .ok t ∧ t.shape = [2, 2, l, r] ∧
      ∀ (x : Bits 2) i j, i < l → j < r →
        t.get [(x 0 : ℕ), (x 1 : ℕ), i, j] =
          ∑ y : Bits 2, M x y * ∑ k ∈ range m, A.get [(y 0 : ℕ), i, k] * B.get [(y 1 : ℕ), k, j] := by
  obtain ⟨a1, e1, s1, g1⟩ := Tensor.unsqueeze_at (t := A) [2] [l, m] hA
  obtain ⟨b1, e2, s2, g2⟩ := Tensor.unsqueeze_at (t := B) [] [2, m, r] hB
  obtain ⟨c, e3, s3, g3⟩ := Tensor.matmul_nd (a := a1) (b := b1) (sa := [2, 1]) (sb := [1, 2]) s1 s2
    (bcast_two 2 2)
  have s3' : c.shape = [2, 2, l, r] := s3
  obtain ⟨d, e4, s4, g4⟩ := permute_merge4 s3'
  have v5 : d.view [(l : ℤ), (r : ℤ), ((2 * 2 : ℕ) : ℤ), 1] = .ok (d.reshapeN [l, r, 2 * 2, 1]) :=
    d.view4 l r (2 * 2) 1 (by simp [Tensor.numel, s4]; ring)
  have hG4 : G.shape = [2 * 2, 2 * 2] := hG.1
  obtain ⟨f, e6, s6, g6⟩ := matmul_last (l := l) (r := r) hG4 (t := d.reshapeN [l, r, 2 * 2, 1]) rfl
  have v7 : f.view [(l : ℤ), (r : ℤ), ((2 : ℕ) : ℤ), ((2 : ℕ) : ℤ)] = .ok (f.reshapeN [l, r, 2, 2]) :=
    f.view4 l r 2 2 (by simp [Tensor.numel, s6]; ring)
  obtain ⟨t, e8, s8, g8⟩ := permute_merge4 (t := f.reshapeN [l, r, 2, 2]) rfl
  refine ⟨t, ?_, s8, ?_⟩
  · unfold Gate.mergeTwo
    rw [show (1 : ℤ) = (([2] : List ℕ).length : ℤ) from rfl, e1, Py.ok_bind,
      show (0 : ℤ) = (([] : List ℕ).length : ℤ) from rfl, e2, Py.ok_bind, e3, Py.ok_bind]
    rw [show ([2, 3, ((([] : List ℕ).length : ℕ) : ℤ), (([2] : List ℕ).length : ℤ)] : List ℤ) =
      [2, 3, 0, 1] from rfl, e4, Py.ok_bind]
    dsimp only
    rw [s4]
    simp only [List.getD_cons_zero, List.getD_cons_succ]
    erw [v5, Py.ok_bind, e6, Py.ok_bind, v7, Py.ok_bind]
    exact e8
  · intro x i j hi hj
    have hx0 := (x 0).isLt
    have hx1 := (x 1).isLt
    rw [g8 i j _ _ hi hj hx0 hx1]
    have ex : (x 0 : ℕ) * 2 + (x 1 : ℕ) = enc x := (enc_two x).symm
    rw [Tensor.reshapeN_get_eq (idx' := [i, j, enc x, 0]) (by inb)
      (by rw [s6]; have := enc_lt x; inb)
      (by rw [s6, ← ex]; simp [ravel])]
    rw [g6 i j _ hi hj (enc_lt x), show (2 * 2) = 2 ^ 2 from rfl, sum_enc]
    apply Finset.sum_congr rfl
    intro y _
    have hy0 := (y 0).isLt
    have hy1 := (y 1).isLt
    rw [hG.2 x y]
    congr 1
    have ey : (y 0 : ℕ) * 2 + (y 1 : ℕ) = enc y := (enc_two y).symm
    rw [Tensor.reshapeN_get_eq (idx' := [i, j, (y 0 : ℕ), (y 1 : ℕ)])
      (by have := enc_lt y; inb)
      (by rw [s4]; inb)
      (by rw [s4, ← ey]; simp [ravel])]
    rw [g4 _ _ i j hy0 hy1 hi hj]
    have := g3 [(y 0 : ℕ), (y 1 : ℕ)] i j (by first | rfl | inb) hi hj
    rw [show ([(y 0 : ℕ), (y 1 : ℕ), i, j] : List ℕ) = [(y 0 : ℕ), (y 1 : ℕ)] ++ [i, j] from rfl, this]
    apply Finset.sum_congr rfl
    intro k hk
    have hk := Finset.mem_range.1 hk
    have b1' : Tensor.bIdx [2, 1] [(y 0 : ℕ), (y 1 : ℕ)] = [(y 0 : ℕ), 0] := by simp [Tensor.bIdx]
    have b2' : Tensor.bIdx [1, 2] [(y 0 : ℕ), (y 1 : ℕ)] = [0, (y 1 : ℕ)] := by simp [Tensor.bIdx]
    rw [b1', b2']
    have h1 := g1 [(y 0 : ℕ)] [i, k] (by first | rfl | inb) (by inb)
    have h2 := g2 [] [(y 1 : ℕ), k, j] (by rfl) (by inb)
    simp only [List.cons_append, List.nil_append] at h1 h2 ⊢
    rw [h1, h2]

theorem mergeThree_ok {A B C G : Tensor ℂ} {l m n r : ℕ} (hA : A.shape = [2, l, m])
    (hB : B.shape = [2, m, n]) (hC : C.shape = [2, n, r]) {M : QOp 3} (hG : Represents G M) :
    ∃ t, Gate.mergeThree A B C G = .ok t ∧ t.shape = [2, 2, 2, l, r] ∧
      ∀ (x : Bits 3) i j, i < l → j < r →
        t.get [(x 0 : ℕ), (x 1 : ℕ), (x 2 : ℕ), i, j] =
          ∑ y : Bits 3, M x y * ∑ q ∈ range n, (∑ k ∈ range m,
            A.get [(y 0 : ℕ), i, k] * B.get [(y 1 : ℕ), k, q]) * C.get [(y 2 : ℕ), q, j] := by
  obtain ⟨a1, ea1, sa1, ga1⟩ := Tensor.unsqueeze_at (t := A) [2] [l, m] hA
  obtain ⟨a2, ea2, sa2, ga2⟩ := Tensor.unsqueeze_at (t := a1) [2] [1, l, m] sa1
  obtain ⟨b1, eb1, sb1, gb1⟩ := Tensor.unsqueeze_at (t := B) [2] [m, n] hB
  obtain ⟨b2, eb2, sb2, gb2⟩ := Tensor.unsqueeze_at (t := b1) [] [2, 1, m, n] sb1
  obtain ⟨c1, ec1, sc1, gc1⟩ := Tensor.unsqueeze_at (t := C) [] [2, n, r] hC
  obtain ⟨c2, ec2, sc2, gc2⟩ := Tensor.unsqueeze_at (t := c1) [] [1, 2, n, r] sc1
  obtain ⟨u, eu, su, gu⟩ := Tensor.matmul_nd (a := a2) (b := b2) (sa := [2, 1, 1]) (sb := [1, 2, 1])
    sa2 sb2 (s := [2, 2, 1]) rfl
  obtain ⟨w, ew, sw, gw⟩ := Tensor.matmul_nd (a := u) (b := c2) (sa := [2, 2, 1]) (sb := [1, 1, 2])
    su sc2 (s := [2, 2, 2]) rfl
  have sw' : w.shape = [2, 2, 2, l, r] := sw
  obtain ⟨d, e4, s4, g4⟩ := permute_merge5 sw'
  have v5 : d.view [(l : ℤ), (r : ℤ), ((2 * 2 * 2 : ℕ) : ℤ), 1] =
      .ok (d.reshapeN [l, r, 2 * 2 * 2, 1]) :=
    d.view4 l r (2 * 2 * 2) 1 (by simp [Tensor.numel, s4]; ring)
  have hG4 : G.shape = [2 * 2 * 2, 2 * 2 * 2] := hG.1
  obtain ⟨f, e6, s6, g6⟩ := matmul_last (l := l) (r := r) hG4 (t := d.reshapeN [l, r, 2 * 2 * 2, 1]) rfl
  have v7 : f.view [(l : ℤ), (r : ℤ), ((2 : ℕ) : ℤ), ((2 : ℕ) : ℤ), ((2 : ℕ) : ℤ)] =
      .ok (f.reshapeN [l, r, 2, 2, 2]) :=
    f.view_nat [l, r, 2, 2, 2] (by simp [Tensor.numel, s6])
  obtain ⟨t, e8, s8, g8⟩ := permute_back5 (t := f.reshapeN [l, r, 2, 2, 2]) rfl
  refine ⟨t, ?_, s8, ?_⟩
  · have l1 : (([2] : List ℕ).length : ℤ) = 1 := rfl
    have l0 : (([] : List ℕ).length : ℤ) = 0 := rfl
    rw [l1] at ea1 ea2 eb1
    rw [l0] at eb2 ec1 ec2
    unfold Gate.mergeThree
    rw [ea1, Py.ok_bind, ea2, Py.ok_bind, eb1, Py.ok_bind, eb2, Py.ok_bind, ec1, Py.ok_bind, ec2,
      Py.ok_bind, eu, Py.ok_bind, ew, Py.ok_bind, e4, Py.ok_bind]
    dsimp only
    rw [s4]
    simp only [List.getD_cons_zero, List.getD_cons_succ]
    erw [v5, Py.ok_bind, e6, Py.ok_bind, v7, Py.ok_bind]
    exact e8
  · intro x i j hi hj
    have hx0 := (x 0).isLt
    have hx1 := (x 1).isLt
    have hx2 := (x 2).isLt
    rw [g8 _ _ _ i j hx0 hx1 hx2 hi hj]
    have ex : ((x 0 : ℕ) * 2 + (x 1 : ℕ)) * 2 + (x 2 : ℕ) = enc x := by rw [enc_three]; ring
    rw [Tensor.reshapeN_get_eq (idx' := [i, j, enc x, 0]) (by inb)
      (by rw [s6]; have := enc_lt x; inb)
      (by rw [s6, ← ex]; simp [ravel]; ring)]
    rw [g6 i j _ hi hj (enc_lt x), show (2 * 2 * 2) = 2 ^ 3 from rfl, sum_enc]
    apply Finset.sum_congr rfl
    intro y _
    have hy0 := (y 0).isLt
    have hy1 := (y 1).isLt
    have hy2 := (y 2).isLt
    rw [hG.2 x y]
    congr 1
    have ey : ((y 0 : ℕ) * 2 + (y 1 : ℕ)) * 2 + (y 2 : ℕ) = enc y := by rw [enc_three]; ring
    rw [Tensor.reshapeN_get_eq (idx' := [i, j, (y 0 : ℕ), (y 1 : ℕ), (y 2 : ℕ)])
      (by have := enc_lt y; inb)
      (by rw [s4]; inb)
      (by rw [s4, ← ey]; simp [ravel]; ring)]
    rw [g4 _ _ _ i j hy0 hy1 hy2 hi hj]
    have := gw [(y 0 : ℕ), (y 1 : ℕ), (y 2 : ℕ)] i j (by first | rfl | inb) hi hj
    rw [show ([(y 0 : ℕ), (y 1 : ℕ), (y 2 : ℕ), i, j] : List ℕ) =
      [(y 0 : ℕ), (y 1 : ℕ), (y 2 : ℕ)] ++ [i, j] from rfl, this]
    apply Finset.sum_congr rfl
    intro q hq
    have hq := Finset.mem_range.1 hq
    have b1' : Tensor.bIdx [2, 2, 1] [(y 0 : ℕ), (y 1 : ℕ), (y 2 : ℕ)] = [(y 0 : ℕ), (y 1 : ℕ), 0] := by
      simp [Tensor.bIdx]
    have b2' : Tensor.bIdx [1, 1, 2] [(y 0 : ℕ), (y 1 : ℕ), (y 2 : ℕ)] = [0, 0, (y 2 : ℕ)] := by
      simp [Tensor.bIdx]
    rw [b1', b2', gu [(y 0 : ℕ), (y 1 : ℕ), 0] i q (by first | rfl | inb) hi hq]
    have h1 := gc2 [] [0, (y 2 : ℕ), q, j] (by rfl) (by inb)
    have h2 := gc1 [] [(y 2 : ℕ), q, j] (by rfl) (by inb)
    simp only [List.cons_append, List.nil_append] at h1 h2 ⊢
    rw [h1, h2]
    congr 1
    apply Finset.sum_congr rfl
    intro k hk
    have hk := Finset.mem_range.1 hk
    have b3 : Tensor.bIdx [2, 1, 1] [(y 0 : ℕ), (y 1 : ℕ), 0] = [(y 0 : ℕ), 0, 0] := by
      simp [Tensor.bIdx]
    have b4 : Tensor.bIdx [1, 2, 1] [(y 0 : ℕ), (y 1 : ℕ), 0] = [0, (y 1 : ℕ), 0] := by
      simp [Tensor.bIdx]
    rw [b3, b4]
    have h3 := ga2 [(y 0 : ℕ)] [0, i, k] (by first | rfl | inb) (by inb)
    have h4 := ga1 [(y 0 : ℕ)] [i, k] (by first | rfl | inb) (by inb)
    have h5 := gb2 [] [(y 1 : ℕ), 0, k, q] (by rfl) (by inb)
    have h6 := gb1 [(y 1 : ℕ)] [k, q] (by first | rfl | inb) (by inb)
    simp only [List.cons_append, List.nil_append] at h3 h4 h5 h6 ⊢
    rw [h3, h4, h5, h6]

end QTN
