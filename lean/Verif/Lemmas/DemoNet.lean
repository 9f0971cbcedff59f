import Verif.Model.DemoNet
import Verif.Lemmas.Rows

/-! # Linear layers, the square loss and batches -/

namespace QTN.DemoNet

open Finset QTN

theorem Linear.apply_ok {L : Linear} {x : Tensor ℝ} {m k o : ℕ} (hx : x.shape = [m, k]) (hW : L.W.shape = [o, k]) :
    ∃ t, L.apply x = .ok t ∧ t.shape = [m, o] ∧ ∀ r c, r < m → c < o →
      t.get [r, c] = L.b.get [c] + ∑ j ∈ range k, L.W.get [c, j] * x.get [r, j] := by
  refine ⟨Tensor.ofFn [m, o] (fun idx => (∑ j ∈ range k, x.get [idx.getD 0 0, j] * L.W.get [idx.getD 1 0, j]) +
    L.b.get [idx.getD 1 0]), ?_, rfl, ?_⟩
  · unfold Linear.apply
    simp only
    rw [raiseIf_false (by simp [Tensor.rank, hx, hW]), Py.ok_bind, hx, hW]
    rfl
  · intro r c hr hc
    rw [Tensor.get_ofFn (by simp [hr, hc])]
    simp only [List.getD_cons_zero, List.getD_cons_succ]
    rw [add_comm]
    exact congrArg _ (sum_congr rfl fun j _ => mul_comm _ _)

theorem leaky_ok {x : Tensor ℝ} {m k : ℕ} (hx : x.shape = [m, k]) : (leaky_relu x).shape = [m, k] ∧
    ∀ r c, r < m → c < k → (leaky_relu x).get [r, c] = max (x.get [r, c]) (x.get [r, c] / 100) := by
  refine ⟨hx, fun r c hr hc => ?_⟩
  unfold leaky_relu Tensor.mapT
  rw [Tensor.get_ofFn (by simp [hx, hr, hc])]
  beta_reduce
  split_ifs with h
  · rw [max_eq_left (by linarith)]
  · rw [max_eq_right (by linarith)]
    ring

theorem mse_ok {a b : Tensor ℝ} {B : ℕ} (ha : a.shape = [B, 1]) (hb : b.shape = [B, 1]) :
    MSELoss a.squeeze b.squeeze = .ok ((∑ k ∈ range B, (a.get [k, 0] - b.get [k, 0]) ^ 2) / B) := by
  by_cases h : B = 1
  · subst h
    have sa : a.squeeze.shape = [] := by simp [Tensor.squeeze, Tensor.ofFn, ha]
    have sb : b.squeeze.shape = [] := by simp [Tensor.squeeze, Tensor.ofFn, hb]
    have ga : a.squeeze.get [] = a.get [0, 0] := by
      unfold Tensor.squeeze
      rw [Tensor.get_ofFn (by simp [ha])]
      simp [ha, Tensor.unsqIdx]
    have gb : b.squeeze.get [] = b.get [0, 0] := by
      unfold Tensor.squeeze
      rw [Tensor.get_ofFn (by simp [hb])]
      simp [hb, Tensor.unsqIdx]
    unfold MSELoss
    simp [sa, sb, Tensor.bcast, Tensor.bcastRev, Tensor.bIdx, ga, gb]
  · have sa : a.squeeze.shape = [B] := by simp [Tensor.squeeze, Tensor.ofFn, ha, h]
    have sb : b.squeeze.shape = [B] := by simp [Tensor.squeeze, Tensor.ofFn, hb, h]
    have ga : ∀ k < B, a.squeeze.get [k] = a.get [k, 0] := by
      intro k hk
      unfold Tensor.squeeze
      rw [Tensor.get_ofFn (by simp [ha, h, hk])]
      simp [ha, Tensor.unsqIdx, h]
    have gb : ∀ k < B, b.squeeze.get [k] = b.get [k, 0] := by
      intro k hk
      unfold Tensor.squeeze
      rw [Tensor.get_ofFn (by simp [hb, h, hk])]
      simp [hb, Tensor.unsqIdx, h]
    unfold MSELoss
    rw [sa, sb]
    simp only [Tensor.bcast, Tensor.bcastRev, List.reverse_cons, List.reverse_nil, List.nil_append, if_true,
      Option.map_some, List.prod_cons, List.prod_nil, mul_one]
    congr 2
    refine sum_congr rfl fun k hk => ?_
    have hk' := mem_range.1 hk
    have : Tensor.bIdx [B] (unravel [B] k) = [k] := by
      simp [Tensor.bIdx, unravel, h]
    rw [this, ga k hk', gb k hk']

/-! ## Batches -/

theorem chunks_take {α : Type} (B : ℕ) (l : List α) (m : ℕ) :
    (List.range m).flatMap (fun i => (l.take (min (i * B + B) l.length)).drop (i * B)) = l.take (m * B) := by
  induction m with
  | zero => simp
  | succ m ih =>
    rw [List.range_succ, List.flatMap_append, ih]
    simp only [List.flatMap_cons, List.flatMap_nil, List.append_nil]
    rw [← List.take_take, List.take_length, List.drop_take, Nat.add_sub_cancel_left,
      show (m + 1) * B = m * B + B by ring, List.take_add]

theorem ceil_mul {n B : ℕ} (hB : 0 < B) : n ≤ (n + B - 1) / B * B := by
  have := Nat.lt_div_mul_add hB (a := n + B - 1)
  omega

theorem chunks_flat {α : Type} {B : ℕ} (hB : 0 < B) (l : List α) :
    (List.range ((l.length + B - 1) / B)).flatMap (fun i => (l.take (min (i * B + B) l.length)).drop (i * B)) = l := by
  rw [chunks_take, List.take_of_length_le (ceil_mul hB)]

end QTN.DemoNet
