import Verif.Model.QuanNet
import Verif.Lemmas.DemoNet

/-! # Flattening, stacking, cross entropy and argmax -/

namespace QTN.QuanNet

open Finset QTN

theorem flatten1_ok {x : Tensor ℝ} {s a b c : ℕ} (hx : x.shape = [s, a, b, c]) : (flatten1 x).shape = [s, a * (b * c)] ∧
    ∀ r j, r < s → j < a * (b * c) → (flatten1 x).get [r, j] = x.get [r, j / (b * c), j % (b * c) / c, j % c] := by
  have e : flatten1 x = Tensor.ofFn [s, [a, b, c].prod] (fun idx => x.get (idx.getD 0 0 :: unravel [a, b, c] (idx.getD 1 0))) := by
    unfold flatten1
    rw [hx]
  refine ⟨by rw [e]; simp [Tensor.ofFn], fun r j hr hj => ?_⟩
  rw [e, Tensor.get_ofFn (by simp [hr, hj])]
  simp [unravel, Nat.mod_mod_of_dvd _ (Dvd.intro_left b rfl : c ∣ b * c)]

theorem relu_ok {x : Tensor ℝ} {m k : ℕ} (hx : x.shape = [m, k]) : (relu x).shape = [m, k] ∧
    ∀ r c, r < m → c < k → (relu x).get [r, c] = max (x.get [r, c]) 0 := by
  refine ⟨hx, fun r c hr hc => ?_⟩
  unfold relu Tensor.mapT
  rw [Tensor.get_ofFn (by simp [hx, hr, hc])]
  beta_reduce
  split_ifs with h
  · rw [max_eq_left (by linarith)]
  · rw [max_eq_right (by linarith)]

theorem stack_ok {l : List (Tensor ℝ)} {s : List ℕ} (h0 : l ≠ []) (hs : ∀ t ∈ l, t.shape = s) :
    ∃ T, stack l = .ok T ∧ T.shape = l.length :: s ∧
      ∀ b (hb : b < l.length) idx, inB s idx = true → T.get (b :: idx) = l[b].get idx := by
  obtain ⟨t, ts, rfl⟩ := List.exists_cons_of_ne_nil h0
  refine ⟨Tensor.ofFn ((t :: ts).length :: s) (fun idx => ((t :: ts).getD (idx.getD 0 0) t).get idx.tail), ?_, rfl, ?_⟩
  · unfold stack
    dsimp only
    rw [raiseIf_false, Py.ok_bind, hs t (by simp)]
    rintro ⟨u, hu, h⟩
    exact h (by rw [hs u (by simp [hu]), hs t (by simp)])
  · intro b hb idx hi
    have : inB ((t :: ts).length :: s) (b :: idx) = true := by
      simp only [inB, hi, Bool.and_true, decide_eq_true_eq]
      exact hb
    rw [Tensor.get_ofFn this]
    simp only [List.getD_cons_zero, List.tail_cons]
    rw [List.getD_eq_getElem _ _ hb]

theorem crossEntropy_ok {t : Tensor ℝ} {n k : ℕ} (hs : t.shape = [n, k]) {y : List ℕ} (hy : y.length = n)
    (hk : ∀ a ∈ y, a < k) :
    CrossEntropyLoss t y = .ok ((∑ b ∈ range n, (Real.log (∑ c ∈ range k, Real.exp (t.get [b, c])) -
      t.get [b, y.getD b 0])) / n) := by
  unfold CrossEntropyLoss
  simp only [hs, List.getD_cons_zero, List.getD_cons_succ]
  rw [raiseIf_false (by simpa using hy), Py.ok_bind, raiseIf_false, Py.ok_bind]
  rintro ⟨a, ha, h⟩
  have := hk a ha
  omega

/-- The fold of `argmax` gives the first of the greatest entries. -/
theorem argmax_fold (z : ℕ → ℝ) (k : ℕ) : let m := (List.range k).foldl (fun m c => if z c > z m then c else m) 0
    (∀ c < k, z c ≤ z m) ∧ (∀ c < m, z c < z m) ∧ (0 < k → m < k) := by
  induction k with
  | zero => simp
  | succ k ih =>
    simp only [List.range_succ, List.foldl_append, List.foldl_cons, List.foldl_nil] at ih ⊢
    set m := (List.range k).foldl (fun m c => if z c > z m then c else m) 0
    obtain ⟨h1, h2, h3⟩ := ih
    by_cases h : z k > z m
    · rw [if_pos h]
      refine ⟨fun c hc => ?_, fun c hc => (h1 c hc).trans_lt h, fun _ => by omega⟩
      rcases Nat.lt_succ_iff_lt_or_eq.1 hc with hc | rfl
      · exact (h1 c hc).trans h.le
      · exact le_rfl
    · rw [if_neg h]
      refine ⟨fun c hc => ?_, h2, fun _ => ?_⟩
      · rcases Nat.lt_succ_iff_lt_or_eq.1 hc with hc | rfl
        · exact h1 c hc
        · exact not_lt.1 h
      · rcases Nat.eq_zero_or_pos k with h0 | h0
        · have : m = 0 := by simp [m, h0]
          omega
        · have := h3 h0
          omega

end QTN.QuanNet
