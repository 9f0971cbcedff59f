import Verif.Model.Qnn
import Verif.Lemmas.Train
import Verif.Lemmas.Embedding
import Verif.Lemmas.Nd

/-! # Matrices whose rows are states: evolution and expectation values -/

namespace QTN

open QTN.Spec Matrix

variable {N : ℕ}

/-- The rows of the matrix `t` are the states `v`. -/
def Spec.IsRows {N : ℕ} (t : Tensor ℂ) (n : ℕ) (v : Fin n → QState N) : Prop :=
  t.shape = [n, 2 ^ N] ∧ ∀ (k : Fin n) (a : Bits N), t.get [(k : ℕ), enc a] = v k a

/-- The columns of the matrix `t` are the states `v`. -/
def Spec.IsCols {N : ℕ} (t : Tensor ℂ) (n : ℕ) (v : Fin n → QState N) : Prop :=
  t.shape = [2 ^ N, n] ∧ ∀ (k : Fin n) (a : Bits N), t.get [enc a, (k : ℕ)] = v k a

theorem permute_swap {α : Type} [Zero α] {t : Tensor α} {a b : ℕ} (h : t.shape = [a, b]) :
    ∃ t', t.permute [1, 0] = .ok t' ∧ t'.shape = [b, a] ∧
      ∀ x y, x < a → y < b → t'.get [y, x] = t.get [x, y] := by
  obtain ⟨t', e, s, g⟩ := Tensor.permute_fn (t := t) (Equiv.swap (0 : Fin 2) 1) (d := ![a, b])
    (by rw [h]; rfl) (p := [1, 0]) rfl
  refine ⟨t', e, s, fun x y hx hy => ?_⟩
  exact g ![y, x] (by intro k; fin_cases k; exacts [hy, hx])

theorem rows_permute {t : Tensor ℂ} {n : ℕ} {v : Fin n → QState N} (h : IsRows t n v) :
    ∃ t', t.permute [1, 0] = .ok t' ∧ IsCols t' n v := by
  obtain ⟨t', e, s, g⟩ := permute_swap h.1
  exact ⟨t', e, s, fun k a => by rw [g _ _ k.2 (enc_lt a), h.2]⟩

theorem cols_permute {t : Tensor ℂ} {n : ℕ} {v : Fin n → QState N} (h : IsCols t n v) :
    ∃ t', t.permute [1, 0] = .ok t' ∧ IsRows t' n v := by
  obtain ⟨t', e, s, g⟩ := permute_swap h.1
  exact ⟨t', e, s, fun k a => by rw [g _ _ (enc_lt a) k.2, h.2]⟩

theorem cols_matmul {U t : Tensor ℂ} {M : QOp N} {n : ℕ} {v : Fin n → QState N} (hU : Represents U M)
    (h : IsCols t n v) : ∃ t', U.matmul t = .ok t' ∧ IsCols t' n (fun k => M *ᵥ v k) := by
  refine ⟨_, Tensor.matmul2 hU.1 h.1, rfl, fun k a => ?_⟩
  rw [Tensor.matmul2_get hU.1 h.1 (Tensor.matmul2 hU.1 h.1) (enc_lt a) k.2, sum_enc]
  simp only [hU.2, h.2]
  rfl

theorem matmul_vec {U t : Tensor ℂ} {M : QOp N} {v : QState N} (hU : Represents U M)
    (hs : t.shape = [2 ^ N]) (ht : ∀ a : Bits N, t.get [enc a] = v a) :
    ∃ t', U.matmul t = .ok t' ∧ t'.shape = [2 ^ N] ∧ ∀ a : Bits N, t'.get [enc a] = (M *ᵥ v) a := by
  obtain ⟨c, ec, sc, gc⟩ := Tensor.unsqueeze_at (t := t) [2 ^ N] [] hs
  have ec' : t.unsqueeze (-1) = .ok c := by
    rw [← ec]
    unfold Tensor.unsqueeze
    simp [Tensor.rank, hs, wrapIdx]
  have hc : IsCol c v := ⟨sc, fun a => by
    have := gc [enc a] [] (by simp [enc_lt]) rfl
    simpa [ht] using this⟩
  obtain ⟨w, ew, hw⟩ := hU.mulCol hc
  have ew' : Tensor.matmulND U c = .ok w := by
    rw [← ew]
    unfold Tensor.matmul
    simp [Tensor.rank, hU.1, hc.1]
  obtain ⟨r, er, sr, gr⟩ := Tensor.squeezeDim_last (t := w) (s := [2 ^ N]) hw.1
  refine ⟨r, ?_, sr, fun a => ?_⟩
  · unfold Tensor.matmul
    rw [if_neg (by simp [Tensor.rank, hU.1, hs]), if_neg (by simp [Tensor.rank, hU.1]),
      if_neg (by simp [Tensor.rank, hU.1]), if_pos (by simp [Tensor.rank, hs]), ec', Py.ok_bind, ew',
      Py.ok_bind, er]
  · rw [gr [enc a] (by simp [enc_lt])]
    exact hw.2 a

theorem setFirst_row {t r : Tensor ℂ} {m d : ℕ} (ht : t.shape = [m, d]) (hr : r.shape = [d]) {i : ℕ}
    (hi : i < m) : ∃ t', t.setFirst i r = .ok t' ∧ t'.shape = [m, d] ∧
      ∀ k j, k < m → j < d → t'.get [k, j] = if k = i then r.get [j] else t.get [k, j] := by
  refine ⟨Tensor.ofFn t.shape (fun idx => if idx.getD 0 0 = i then r.get idx.tail else t.get idx), ?_,
    ht, fun k j hk hj => ?_⟩
  · unfold Tensor.setFirst
    rw [ht]
    simp [hi, hr]
  · rw [Tensor.get_ofFn (by rw [ht]; simp [hk, hj])]
    rfl

/-- Filling a matrix of zeros row by row. -/
theorem fill_rows {m d : ℕ} {step : Tensor ℂ → ℕ → Py (Tensor ℂ)} (row : ℕ → Tensor ℂ)
    (hrow : ∀ i, i < m → (row i).shape = [d])
    (hstep : ∀ i, i < m → ∀ t, step t i = t.setFirst i (row i)) :
    ∃ t, (List.range m).foldlM step (Tensor.zeros [m, d]) = .ok t ∧ t.shape = [m, d] ∧
      ∀ k j, k < m → j < d → t.get [k, j] = (row k).get [j] := by
  have key : ∀ n, n ≤ m → ∃ t, (List.range n).foldlM step (Tensor.zeros [m, d]) = .ok t ∧
      t.shape = [m, d] ∧ ∀ k j, k < n → j < d → t.get [k, j] = (row k).get [j] := by
    intro n
    induction n with
    | zero => exact fun _ => ⟨_, rfl, rfl, fun k j hk => by omega⟩
    | succ n ih =>
      intro hn
      obtain ⟨t, e, s, g⟩ := ih (by omega)
      obtain ⟨t', e', s', g'⟩ := setFirst_row s (hrow n (by omega)) (i := n) (by omega)
      refine ⟨t', ?_, s', fun k j hk hj => ?_⟩
      · rw [List.range_succ, List.foldlM_append, e, Py.ok_bind, List.foldlM_cons, hstep n (by omega), e']
        rfl
      · rw [g' k j (by omega) hj]
        split_ifs with h
        · rw [h]
        · exact g k j (by omega) hj
  exact key m le_rfl

theorem readOut_ok {phi M : Tensor ℂ} {n : ℕ} {v : Fin n → QState N} {O : QOp N} (h : IsRows phi n v)
    (hM : Represents M O) :
    ∃ t, Qnn.readOut phi M = .ok t ∧ t.shape = [n, 1] ∧ ∀ k : Fin n, t.get [(k : ℕ), 0] = braket O (v k) := by
  obtain ⟨l, el, sl, gl⟩ := Tensor.unsqueeze_at (t := phi.conj) [n] [2 ^ N] h.1
  obtain ⟨r, er, sr, gr⟩ := Tensor.unsqueeze_at (t := phi) [n, 2 ^ N] [] h.1
  have el' : phi.conj.unsqueeze (-2) = .ok l := by
    rw [← el]
    unfold Tensor.unsqueeze
    simp [Tensor.rank, Tensor.conj, h.1, wrapIdx]
  have er' : phi.unsqueeze (-1) = .ok r := by
    rw [← er]
    unfold Tensor.unsqueeze
    simp [Tensor.rank, h.1, wrapIdx]
  have b1 : Tensor.bcast [n] [] = some [n] := by simp [Tensor.bcast, Tensor.bcastRev]
  have b2 : Tensor.bcast [n] [n] = some [n] := by simp [Tensor.bcast, Tensor.bcastRev]
  obtain ⟨p, ep, sp, gp⟩ := Tensor.matmul_nd (a := l) (b := M) (sa := [n]) (sb := []) sl hM.1 b1
  obtain ⟨q, eq, sq, gq⟩ := Tensor.matmul_nd (a := p) (b := r) (sa := [n]) (sb := [n]) sp sr b2
  obtain ⟨t, et, st, gt⟩ := Tensor.squeezeDim_last (t := q) (s := [n, 1]) sq
  have et' : q.squeezeDim 2 = .ok t := by
    rw [← et]
    unfold Tensor.squeezeDim
    simp [Tensor.rank, sq, wrapIdx]
  refine ⟨t, ?_, st, fun k => ?_⟩
  · unfold Qnn.readOut
    rw [el', Py.ok_bind, er', Py.ok_bind, ep, Py.ok_bind, eq, Py.ok_bind, et']
  · have hk : inB [n] [(k : ℕ)] = true := by simp
    have gl' : ∀ a : Bits N, l.get [(k : ℕ), 0, enc a] = star (v k a) := by
      intro a
      have := gl [(k : ℕ)] [enc a] hk (by simp [enc_lt])
      simp only [List.cons_append, List.nil_append] at this
      rw [this]
      unfold Tensor.conj
      rw [Tensor.get_ofFn (by rw [h.1]; simp [enc_lt]), h.2]
    have gr' : ∀ a : Bits N, r.get [(k : ℕ), enc a, 0] = v k a := by
      intro a
      have := gr [(k : ℕ), enc a] [] (by simp [enc_lt]) rfl
      simp only [List.cons_append, List.nil_append] at this
      rw [this, h.2]
    have gp' : ∀ a : Bits N, p.get [(k : ℕ), 0, enc a] = ∑ b : Bits N, star (v k b) * O b a := by
      intro a
      have := gp [(k : ℕ)] 0 (enc a) hk (by omega) (enc_lt a)
      simp only [List.cons_append, List.nil_append, bIdx_self hk] at this
      rw [this, sum_enc]
      exact Finset.sum_congr rfl fun b _ => by rw [gl', ← hM.2]; rfl
    rw [gt [(k : ℕ), 0] (by simp)]
    have := gq [(k : ℕ)] 0 0 hk (by omega) (by omega)
    simp only [List.cons_append, List.nil_append, bIdx_self hk] at this
    rw [show [(k : ℕ), 0] ++ [0] = [(k : ℕ), 0, 0] from rfl, this, sum_enc, braket, Finset.sum_comm]
    refine Finset.sum_congr rfl fun a _ => ?_
    rw [gp', gr', Finset.sum_mul]

/-- `torch.cat` of columns. -/
theorem catList_columns {B : ℕ} (ts : List (Tensor ℂ)) (h0 : ts ≠ []) (hs : ∀ t ∈ ts, t.shape = [B, 1]) :
    ∃ t, Tensor.catList Tensor.cat1 ts = .ok t ∧ t.shape = [B, ts.length] ∧
      ∀ (k j : ℕ) (hj : j < ts.length), k < B → t.get [k, j] = (ts[j]).get [k, 0] := by
  have key : ∀ (ts : List (Tensor ℂ)) (a : Tensor ℂ) (c : ℕ), a.shape = [B, c] →
      (∀ t ∈ ts, t.shape = [B, 1]) → ∃ t, ts.foldlM Tensor.cat1 a = .ok t ∧ t.shape = [B, c + ts.length] ∧
      (∀ k j, k < B → j < c → t.get [k, j] = a.get [k, j]) ∧
      ∀ (k j : ℕ) (hj : j < ts.length), k < B → t.get [k, c + j] = (ts[j]).get [k, 0] := by
    intro ts
    induction ts with
    | nil => exact fun a c ha _ => ⟨a, rfl, ha, fun _ _ _ _ => rfl, fun k j hj => by simp at hj⟩
    | cons b ts ih =>
      intro a c ha hs
      obtain ⟨m, em, sm, p, q⟩ := Tensor.cat1_ok ha (hs b (by simp))
      obtain ⟨t, et, st, p', q'⟩ := ih m (c + 1) sm (fun t ht => hs t (by simp [ht]))
      refine ⟨t, ?_, ?_, fun k j hk hj => ?_, fun k j hj hk => ?_⟩
      · rw [List.foldlM_cons, em, Py.ok_bind, et]
      · rw [st, List.length_cons]
        congr 2
        omega
      · rw [p' k j hk (by omega), p k j hk hj]
      · cases j with
        | zero => rw [p' k _ hk (by omega), q k 0 hk (by omega)]; rfl
        | succ j =>
          rw [show c + (j + 1) = c + 1 + j by omega, q' k j (by simpa using hj) hk]
          rfl
  cases ts with
  | nil => exact absurd rfl h0
  | cons a ts =>
    obtain ⟨t, et, st, p, q⟩ := key ts a 1 (hs a (by simp)) (fun t ht => hs t (by simp [ht]))
    refine ⟨t, et, ?_, fun k j hj hk => ?_⟩
    · rw [st, List.length_cons]
      congr 2
      omega
    · cases j with
      | zero => exact p k 0 hk (by omega)
      | succ j =>
        have := q k j (by simpa using hj) hk
        rw [Nat.add_comm 1 j] at this
        exact this

end QTN
