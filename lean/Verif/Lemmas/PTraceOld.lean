import Verif.Lemmas.PTraceRun

/-! # The other two partial trace functions -/

namespace QTN

open Finset Spec Matrix

variable {N : ℕ}

theorem select0_eye (n k : ℕ) (h : k < n) : ∃ v : Tensor ℂ, (Tensor.eye n : Tensor ℂ).select0 (k : ℤ) = .ok v ∧
    v.shape = [n] ∧ ∀ j, j < n → v.get [j] = if k = j then 1 else 0 := by
  refine ⟨Tensor.ofFn [n] (fun idx => (Tensor.eye n : Tensor ℂ).get (k :: idx)), ?_, rfl, fun j hj => ?_⟩
  · unfold Tensor.select0
    simp only [Tensor.eye, Tensor.ofFn]
    rw [wrapIdx_nat h]
    rfl
  · rw [Tensor.get_ofFn (by simp [hj]), Tensor.eye_get h hj]

theorem padTo_vec {v : Tensor ℂ} {n : ℕ} (h : v.shape = [n]) :
    (v.padTo 2).shape = [1, n] ∧ ∀ j, j < n → (v.padTo 2).get [0, j] = v.get [j] := by
  have hr : v.rank = 1 := by simp [Tensor.rank, h]
  refine ⟨by simp [Tensor.padTo, Tensor.ofFn, hr, h], fun j hj => ?_⟩
  unfold Tensor.padTo
  rw [Tensor.get_ofFn (by rw [hr, h]; simp [hj]), hr]
  rfl

theorem kron_vec {a v : Tensor ℂ} {m n q : ℕ} (ha : a.shape = [m, n]) (hv : v.shape = [q]) :
    (Tensor.kron a v).shape = [m, n * q] ∧ ∀ i j l, i < m → j < n → l < q →
      (Tensor.kron a v).get [i, j * q + l] = a.get [i, j] * v.get [l] := by
  obtain ⟨s, g⟩ := padTo_vec hv
  have hra : a.rank = 2 := by simp [Tensor.rank, ha]
  have hrv : v.rank = 1 := by simp [Tensor.rank, hv]
  have hrp : (v.padTo 2).rank = 2 := by simp [Tensor.rank, s]
  have e : Tensor.kron a v = Tensor.kron a (v.padTo 2) := by
    unfold Tensor.kron
    rw [hra, hrv, hrp]
    have e1 : a.padTo 2 = a := by rw [← hra]; exact Tensor.padTo_self a
    have e2 : (v.padTo 2).padTo 2 = v.padTo 2 := by
      have := Tensor.padTo_self (v.padTo 2)
      rwa [hrp] at this
    show Tensor.kronEq (a.padTo 2) (v.padTo 2) = Tensor.kronEq (a.padTo 2) ((v.padTo 2).padTo 2)
    rw [e1, e2]
  rw [e]
  refine ⟨by rw [Tensor.kron_shape2 ha s, mul_one], fun i j l hi hj hl => ?_⟩
  have := Tensor.kron_get2 ha s hi hj (Nat.one_pos) hl
  rw [mul_one, add_zero, g l hl] at this
  exact this

theorem split_lt {k m n : ℕ} (h : k < m * n) : ∃ a b, a < m ∧ b < n ∧ k = a * n + b := by
  have hn : 0 < n := by
    rcases Nat.eq_zero_or_pos n with rfl | h'
    · simp at h
    · exact h'
  exact ⟨k / n, k % n, (Nat.div_lt_iff_lt_mul hn).2 h, Nat.mod_lt _ hn, (Nat.div_add_mod' k n).symm⟩

theorem split_inj {n a b a' b' : ℕ} (h1 : b < n) (h2 : b' < n) : a * n + b = a' * n + b' ↔ a = a' ∧ b = b' := by
  constructor
  · intro h
    have hn : 0 < n := by omega
    have e1 := congrArg (· / n) h
    have e2 := congrArg (· % n) h
    simp only [Nat.add_comm (a * n), Nat.add_comm (a' * n), Nat.add_mul_div_right _ _ hn,
      Nat.div_eq_of_lt h1, Nat.div_eq_of_lt h2, Nat.add_mul_mod_self_right, Nat.mod_eq_of_lt h1,
      Nat.mod_eq_of_lt h2, zero_add] at e1 e2
    exact ⟨e1, e2⟩
  · rintro ⟨rfl, rfl⟩; rfl

/-- the matrix of `<b|` on qubit `i` -/
theorem bra_rep (i : Fin (N + 1)) (b : Fin 2) {v : Tensor ℂ} (sv : v.shape = [2])
    (gv : ∀ j, j < 2 → v.get [j] = if (b : ℕ) = j then 1 else 0) :
    (Tensor.kron (Tensor.kron (Tensor.eye (2 ^ (i : ℕ))) v) (Tensor.eye (2 ^ (N - (i : ℕ))))).shape =
      [2 ^ N, 2 ^ (N + 1)] ∧ ∀ (x : Bits N) (k : ℕ), k < 2 ^ (N + 1) →
      (Tensor.kron (Tensor.kron (Tensor.eye (2 ^ (i : ℕ))) v) (Tensor.eye (2 ^ (N - (i : ℕ))))).get [enc x, k] =
        if k = enc (i.insertNth b x : Bits (N + 1)) then 1 else 0 := by
  have hi : (i : ℕ) ≤ N := by omega
  obtain ⟨s1, g1⟩ := kron_vec (a := Tensor.eye (2 ^ (i : ℕ))) (m := 2 ^ (i : ℕ)) (n := 2 ^ (i : ℕ)) rfl sv
  have p1 : 2 ^ N = 2 ^ (i : ℕ) * 2 ^ (N - (i : ℕ)) := by rw [← pow_add]; congr 1; omega
  have p2 : 2 ^ (N + 1) = 2 ^ (i : ℕ) * 2 * 2 ^ (N - (i : ℕ)) := by
    rw [← pow_succ, ← pow_add]; congr 1; omega
  have p3 : 2 ^ (N + 1 - (i : ℕ)) = 2 * 2 ^ (N - (i : ℕ)) := by
    rw [← pow_succ']; congr 1; omega
  have se : (Tensor.eye (2 ^ (N - (i : ℕ))) : Tensor ℂ).shape = [2 ^ (N - (i : ℕ)), 2 ^ (N - (i : ℕ))] := rfl
  refine ⟨by rw [Tensor.kron_shape2 s1 se, ← p1, ← p2], fun x k hk => ?_⟩
  have hx := enc_lt x
  rw [p1] at hx
  rw [enc_insertNth]
  obtain ⟨p, q, hp, hq, ex⟩ := split_lt hx
  rw [p2] at hk
  obtain ⟨c, q', hc, hq', rfl⟩ := split_lt hk
  obtain ⟨p', b', hp', hb', rfl⟩ := split_lt hc
  have hpos : 0 < 2 ^ (N - (i : ℕ)) := by positivity
  have d1 : enc x / 2 ^ (N - (i : ℕ)) = p := by
    rw [ex, add_comm, Nat.add_mul_div_right _ _ hpos, Nat.div_eq_of_lt hq, zero_add]
  have d2 : enc x % 2 ^ (N - (i : ℕ)) = q := by
    rw [ex, add_comm, Nat.add_mul_mod_self_right, Nat.mod_eq_of_lt hq]
  rw [d1, d2, ex, Tensor.kron_get2 s1 se hp hc hq hq', g1 p p' b' hp hp' hb', gv b' hb',
    Tensor.eye_get hp hp', Tensor.eye_get hq hq', p3]
  have e : p * (2 * 2 ^ (N - (i : ℕ))) + (b : ℕ) * 2 ^ (N - (i : ℕ)) + q =
      (p * 2 + b) * 2 ^ (N - (i : ℕ)) + q := by ring
  rw [e]
  have hiff : ((p' * 2 + b') * 2 ^ (N - (i : ℕ)) + q' = (p * 2 + ↑b) * 2 ^ (N - (i : ℕ)) + q) ↔
      (p = p' ∧ (b : ℕ) = b') ∧ q = q' := by
    rw [split_inj hq' hq, split_inj hb' b.2]
    constructor
    · rintro ⟨⟨rfl, rfl⟩, rfl⟩; simp
    · rintro ⟨⟨rfl, rfl⟩, rfl⟩; simp
  by_cases h : (p = p' ∧ (b : ℕ) = b') ∧ q = q'
  · rw [if_pos (hiff.2 h), if_pos h.1.1, if_pos h.1.2, if_pos h.2]; simp
  · rw [if_neg (fun g => h (hiff.1 g))]
    by_cases h1 : p = p'
    · by_cases h2 : (b : ℕ) = b'
      · rw [if_neg (fun g => h ⟨⟨h1, h2⟩, g⟩)]; simp
      · rw [if_neg h2]; simp
    · rw [if_neg h1]; simp

/-- `A rho A†` for a matrix `A` that has a single one in each row -/
theorem sandwich_rep {N M : ℕ} {A rho : Tensor ℂ} {r : QOp N} (h : Represents rho r) (f : Bits M → Bits N)
    (sA : A.shape = [2 ^ M, 2 ^ N])
    (gA : ∀ (x : Bits M) (k : ℕ), k < 2 ^ N → A.get [enc x, k] = if k = enc (f x) then 1 else 0) :
    ∃ B C t, dag A = .ok C ∧ A.matmul rho = .ok B ∧ B.matmul C = .ok t ∧
      Represents t (fun x y => r (f x) (f y)) := by
  obtain ⟨C, hC, sC, gC⟩ := dag_ok sA
  refine ⟨_, C, _, hC, Tensor.matmul2 sA h.1, Tensor.matmul2 rfl sC, rfl, fun x y => ?_⟩
  rw [Tensor.get_ofFn (inB_enc2 x y)]
  simp only [List.getD_cons_zero, List.getD_cons_succ]
  rw [sum_eq_single (enc (f y))]
  · rw [gC _ _ (enc_lt _) (enc_lt _), gA _ _ (enc_lt _), if_pos rfl, Tensor.get_ofFn (by simp [enc_lt])]
    simp only [List.getD_cons_zero, List.getD_cons_succ]
    rw [sum_eq_single (enc (f x))]
    · rw [gA _ _ (enc_lt _), if_pos rfl, h.2]; simp
    · intro k hk hne
      rw [gA _ _ (mem_range.1 hk), if_neg hne, zero_mul]
    · intro hn
      exact absurd (mem_range.2 (enc_lt _)) hn
  · intro k hk hne
    rw [gC _ _ (mem_range.1 hk) (enc_lt _), gA _ _ (mem_range.1 hk), if_neg hne]; simp
  · intro hn
    exact absurd (mem_range.2 (enc_lt _)) hn

theorem old_term (i : Fin (N + 1)) (b : Fin 2) {rho : Tensor ℂ} {r : QOp (N + 1)} (h : Represents rho r) :
    ∃ v B C t, (Tensor.eye 2 : Tensor ℂ).select0 (b : ℕ) = .ok v ∧
      dag (Tensor.kron (Tensor.kron (Tensor.eye (2 ^ (i : ℕ))) v) (Tensor.eye (2 ^ (N - (i : ℕ))))) = .ok C ∧
      (Tensor.kron (Tensor.kron (Tensor.eye (2 ^ (i : ℕ))) v) (Tensor.eye (2 ^ (N - (i : ℕ))))).matmul rho = .ok B ∧
      B.matmul C = .ok t ∧ Represents t (fun x y : Bits N => r (i.insertNth b x) (i.insertNth b y)) := by
  obtain ⟨v, hv, sv, gv⟩ := select0_eye 2 b b.2
  obtain ⟨sA, gA⟩ := bra_rep i b sv gv
  obtain ⟨B, C, t, hC, hB, ht, rt⟩ := sandwich_rep h (fun x => i.insertNth b x) sA gA
  exact ⟨v, B, C, t, hv, hC, hB, ht, rt⟩

theorem checks_facts {rho : Tensor ℂ} {d : ℕ} {n i : ℤ} {l : List ℤ} (hs : rho.shape = [d, d])
    (h : traceChecks rho n (i :: l) = .ok ()) : 0 ≤ n ∧ d = 2 ^ n.toNat ∧ i ≤ n - 1 := by
  unfold traceChecks at h
  have ht : ∃ c, rho.trace = .ok c := by unfold Tensor.trace; rw [hs]; exact ⟨_, rfl⟩
  obtain ⟨c, hc⟩ := ht
  rw [hc, Py.ok_bind] at h
  by_cases h1 : ‖c - 1‖ > (1e-4 : ℝ)
  · rw [raiseIf_true h1, Py.error_bind] at h; cases h
  rw [raiseIf_false h1, Py.ok_bind] at h
  by_cases h2 : n < 0 ∨ rho.shape.getD 0 0 ≠ 2 ^ n.toNat
  · rw [raiseIf_true h2, Py.error_bind] at h; cases h
  rw [raiseIf_false h2, Py.ok_bind] at h
  by_cases h3 : (i :: l ≠ [] ∧ ∃ x ∈ i :: l, x > n - 1)
  · rw [raiseIf_true h3] at h; cases h
  push Not at h2 h3
  refine ⟨h2.1, ?_, ?_⟩
  · have := h2.2
    rw [hs] at this
    simpa using this
  · exact h3 (by simp) i (by simp)

theorem represents_self {rho : Tensor ℂ} (hs : rho.shape = [2 ^ N, 2 ^ N]) :
    Represents rho (fun a b : Bits N => rho.get [enc a, enc b]) := ⟨hs, fun _ _ => rfl⟩

theorem old_sorted_eq (l : List ℤ) {rho : Tensor ℂ} {d : ℕ} {n : ℤ} (hs : rho.shape = [d, d]) :
    partial_trace_old_sorted rho n l = partial_trace_sorted rho n l := by
  induction hk : l.length generalizing l rho d n with
  | zero =>
    have : l = [] := List.length_eq_zero_iff.1 hk
    subst this
    rw [partial_trace_old_sorted, partial_trace_sorted]
  | succ k ih =>
    match l, hk with
    | i :: rest, hk =>
      rw [partial_trace_old_sorted, partial_trace_sorted]
      rcases hc : traceChecks rho n (i :: rest) with e | u
      · rfl
      · obtain ⟨hn, hd, hi⟩ := checks_facts hs hc
        rw [Py.ok_bind, Py.ok_bind]
        by_cases h0 : i < 0
        · rw [raiseIf_true h0]; rfl
        rw [raiseIf_false h0, Py.ok_bind, Py.ok_bind]
        obtain ⟨N, rfl⟩ : ∃ N : ℕ, n = ((N + 1 : ℕ) : ℤ) := ⟨n.toNat - 1, by omega⟩
        obtain ⟨j, rfl⟩ : ∃ j : Fin (N + 1), i = ((j : ℕ) : ℤ) := ⟨⟨i.toNat, by omega⟩, by simp; omega⟩
        have e1 : ((N + 1 : ℕ) : ℤ).toNat = N + 1 := rfl
        have e2 : (((j : ℕ) : ℤ)).toNat = (j : ℕ) := rfl
        have e3 : (((N + 1 : ℕ) : ℤ) - 1 - ((j : ℕ) : ℤ)).toNat = N - j := by omega
        have e4 : ((N + 1 : ℕ) : ℤ) - 1 = (N : ℤ) := by push_cast; ring
        rw [e1] at hd
        subst hd
        have h := represents_self hs
        obtain ⟨a0, a00, ha0, ha00, ra⟩ := select_rep h j 0
        obtain ⟨b0, b00, hb0, hb00, rb⟩ := select_rep h j 1
        obtain ⟨v, B, C, t, hv, hC, hB, ht, rt⟩ := old_term j 0 h
        obtain ⟨v', B', C', t', hv', hC', hB', ht', rt'⟩ := old_term j 1 h
        have q1 : t = a00 := rt.ext ra
        have q2 : t' = b00 := rt'.ext rb
        subst q1 q2
        obtain ⟨nxt, hnx, rn⟩ := rt.add rt'
        have ha0' : rho.indexSelect0 (traceIdx (N + 1) j 0) = .ok a0 := ha0
        have hb0' : rho.indexSelect0 (traceIdx (N + 1) j 1) = .ok b0 := hb0
        have ha00' : a0.indexSelect1 (traceIdx (N + 1) j 0) = .ok t := ha00
        have hb00' : b0.indexSelect1 (traceIdx (N + 1) j 1) = .ok t' := hb00
        have hv0 : (Tensor.eye 2 : Tensor ℂ).select0 0 = .ok v := hv
        have hv1 : (Tensor.eye 2 : Tensor ℂ).select0 1 = .ok v' := hv'
        simp only [e1, e2, e3, ha0', hb0', ha00', hb00', hv0, hv1, hB, hC, ht, hB', hC', ht', hnx, Py.ok_bind]
        exact ih (d := 2 ^ N) _ rn.1 (by simpa using hk)

theorem enc_append {A B : ℕ} (x : Bits A) (t : Bits B) :
    enc (Fin.append x t : Bits (A + B)) = enc x * 2 ^ B + enc t := by
  unfold enc
  rw [Fin.sum_univ_add, sum_mul]
  congr 1
  · refine sum_congr rfl fun i _ => ?_
    rw [Fin.append_left, mul_assoc, ← pow_add]
    congr 2
    simp
    omega
  · refine sum_congr rfl fun i _ => ?_
    rw [Fin.append_right]
    congr 2
    simp
    omega

/-- the two matrices of a summand of `ptrace` -/
theorem ptrace_mats (A : ℕ) {B : ℕ} (t : Bits B) :
    ∃ v c, (Tensor.eye (2 ^ B) : Tensor ℂ).select0 (enc t : ℤ) = .ok v ∧ v.view [((2 ^ B : ℕ) : ℤ), 1] = .ok c ∧
      (Tensor.kron (Tensor.eye (2 ^ A)) v).shape = [2 ^ A, 2 ^ (A + B)] ∧
      (Tensor.kron (Tensor.eye (2 ^ A)) c).shape = [2 ^ (A + B), 2 ^ A] ∧
      (∀ (x : Bits A) (k : ℕ), k < 2 ^ (A + B) → (Tensor.kron (Tensor.eye (2 ^ A)) v).get [enc x, k] =
        if k = enc (Fin.append x t : Bits (A + B)) then 1 else 0) ∧
      ∀ (y : Bits A) (k : ℕ), k < 2 ^ (A + B) → (Tensor.kron (Tensor.eye (2 ^ A)) c).get [k, enc y] =
        if k = enc (Fin.append y t : Bits (A + B)) then 1 else 0 := by
  obtain ⟨v, hv, sv, gv⟩ := select0_eye (2 ^ B) (enc t) (enc_lt t)
  obtain ⟨s1, g1⟩ := kron_vec (a := Tensor.eye (2 ^ A)) (m := 2 ^ A) (n := 2 ^ A) rfl sv
  have hview : v.view [((2 ^ B : ℕ) : ℤ), 1] = .ok (v.reshapeN [2 ^ B, 1]) :=
    Tensor.view_nat v [2 ^ B, 1] (by simp [Tensor.numel, sv])
  have gc : ∀ j, j < 2 ^ B → (v.reshapeN [2 ^ B, 1]).get [j, 0] = if enc t = j then 1 else 0 := by
    intro j hj
    rw [Tensor.reshapeN_get_eq (idx' := [j]) (by simp [hj]) (by rw [sv]; simp [hj])
      (by rw [sv]; simp [ravel]), gv j hj]
  have sc : (v.reshapeN [2 ^ B, 1]).shape = [2 ^ B, 1] := rfl
  have se : (Tensor.eye (2 ^ A) : Tensor ℂ).shape = [2 ^ A, 2 ^ A] := rfl
  have s2 := Tensor.kron_shape2 se sc
  rw [mul_one, ← pow_add] at s2
  rw [← pow_add] at s1
  have f1 : ∀ (x : Bits A) (k : ℕ), k < 2 ^ (A + B) → (Tensor.kron (Tensor.eye (2 ^ A)) v).get [enc x, k] =
      if k = enc (Fin.append x t : Bits (A + B)) then 1 else 0 := by
    intro x k hk
    rw [pow_add] at hk
    obtain ⟨p, q, hp, hq, rfl⟩ := split_lt hk
    rw [g1 _ _ _ (enc_lt x) hp hq, gv q hq, Tensor.eye_get (enc_lt x) hp, enc_append]
    simp only [split_inj hq (enc_lt t)]
    simp only [@eq_comm _ (enc x), @eq_comm _ (enc t)]
    by_cases h1 : p = enc x <;> by_cases h2 : q = enc t <;> simp [h1, h2]
  have f2 : ∀ (y : Bits A) (k : ℕ), k < 2 ^ (A + B) →
      (Tensor.kron (Tensor.eye (2 ^ A)) (v.reshapeN [2 ^ B, 1])).get [k, enc y] =
      if k = enc (Fin.append y t : Bits (A + B)) then 1 else 0 := by
    intro x k hk
    rw [pow_add] at hk
    obtain ⟨p, q, hp, hq, rfl⟩ := split_lt hk
    have := Tensor.kron_get2 se sc hp (enc_lt x) hq Nat.one_pos
    rw [mul_one, add_zero] at this
    rw [this, gc q hq, Tensor.eye_get hp (enc_lt x), enc_append]
    simp only [split_inj hq (enc_lt t)]
    simp only [@eq_comm _ (enc t)]
    by_cases h1 : p = enc x <;> by_cases h2 : q = enc t <;> simp [h1, h2]
  exact ⟨v, _, hv, hview, s1, s2, f1, f2⟩

/-- one summand of `ptrace` -/
theorem ptrace_term {A B : ℕ} {rho : Tensor ℂ} {r : QOp (A + B)} (h : Represents rho r) (t : Bits B) :
    ∃ v l c m, (Tensor.eye (2 ^ B) : Tensor ℂ).select0 (enc t : ℤ) = .ok v ∧
      (Tensor.kron (Tensor.eye (2 ^ A)) v).matmul rho = .ok l ∧
      v.view [((2 ^ B : ℕ) : ℤ), 1] = .ok c ∧
      l.matmul (Tensor.kron (Tensor.eye (2 ^ A)) c) = .ok m ∧
      Represents m (fun x y : Bits A => r (Fin.append x t) (Fin.append y t)) := by
  obtain ⟨v, c, hv, hview, s1, s2, f1, f2⟩ := ptrace_mats A t
  refine ⟨v, _, _, _, hv, Tensor.matmul2 s1 h.1, hview, Tensor.matmul2 rfl s2, rfl, fun x y => ?_⟩
  rw [Tensor.get_ofFn (inB_enc2 x y)]
  simp only [List.getD_cons_zero, List.getD_cons_succ]
  rw [sum_eq_single (enc (Fin.append y t : Bits (A + B)))]
  · rw [f2 _ _ (enc_lt _), if_pos rfl, Tensor.get_ofFn (by simp [enc_lt])]
    simp only [List.getD_cons_zero, List.getD_cons_succ]
    rw [sum_eq_single (enc (Fin.append x t : Bits (A + B)))]
    · rw [f1 _ _ (enc_lt _), if_pos rfl, h.2]; simp
    · intro k hk hne
      rw [f1 _ _ (mem_range.1 hk), if_neg hne, zero_mul]
    · intro hn
      exact absurd (mem_range.2 (enc_lt _)) hn
  · intro k hk hne
    rw [f2 _ _ (mem_range.1 hk), if_neg hne, mul_zero]
  · intro hn
    exact absurd (mem_range.2 (enc_lt _)) hn

/-- adding up `term 0, …, term n` -/
theorem foldlM_add {A : ℕ} (term : ℕ → Py (Tensor ℂ)) (G : ℕ → QOp A) (n : ℕ)
    (h : ∀ k, k ≤ n → Computes (term k) (G k)) {first : Tensor ℂ} (hf : term 0 = .ok first) :
    Computes ((List.range' 1 n).foldlM (fun acc i => do acc.add (← term i)) first)
      (∑ k ∈ range (n + 1), G k) := by
  induction n with
  | zero =>
    obtain ⟨U, hU, rU⟩ := h 0 le_rfl
    have : U = first := by
      rw [hU] at hf
      exact Except.ok.inj hf
    subst this
    exact ⟨U, rfl, by simpa using rU⟩
  | succ n ih =>
    obtain ⟨U, hU, rU⟩ := ih (fun k hk => h k (by omega))
    obtain ⟨T, hT, rT⟩ := h (n + 1) le_rfl
    rw [List.range'_1_concat, List.foldlM_append, hU, Py.ok_bind]
    rw [show 1 + n = n + 1 by omega]
    obtain ⟨S, hS, rS⟩ := rU.add rT
    refine ⟨S, ?_, by rw [sum_range_succ]; exact rS⟩
    simp only [List.foldlM_cons, List.foldlM_nil, hT, Py.ok_bind, hS, Py.pure_eq]

theorem ptrace_rep {A B : ℕ} {rho : Tensor ℂ} {r : QOp (A + B)} (h : Represents rho r) :
    Computes (ptrace rho A B) (ptr (Fin.castAdd B) r) := by
  have hterm : ∀ t : Bits B, Computes (do
      let r ← (Tensor.eye (2 ^ B) : Tensor ℂ).select0 (enc t : ℤ)
      let l ← (Tensor.kron (Tensor.eye (2 ^ A)) r).matmul rho
      l.matmul (Tensor.kron (Tensor.eye (2 ^ A)) (← r.view [((2 ^ B : ℕ) : ℤ), 1])))
      (fun x y : Bits A => r (Fin.append x t) (Fin.append y t)) := by
    intro t
    obtain ⟨v, l, c, m, hv, hl, hc, hm, rm⟩ := ptrace_term h t
    exact ⟨m, by simp only [hv, hl, hc, hm, Py.ok_bind], rm⟩
  choose dec hdec using fun (k : ℕ) (hk : k < 2 ^ B) => exists_enc (N := B) hk
  let G : ℕ → QOp A := fun k => if hk : k < 2 ^ B then
    fun x y => r (Fin.append x (dec k hk)) (Fin.append y (dec k hk)) else 0
  have hG : ∀ t : Bits B, G (enc t) = fun x y => r (Fin.append x t) (Fin.append y t) := by
    intro t
    have : dec (enc t) (enc_lt t) = t := enc_injective (hdec (enc t) (enc_lt t)).symm
    simp only [G, this]
    exact dif_pos (enc_lt t)
  have hpos : 0 < 2 ^ B := by positivity
  have hall : ∀ k : ℕ, k ≤ 2 ^ B - 1 → Computes (do
      let r ← (Tensor.eye (2 ^ B) : Tensor ℂ).select0 (k : ℤ)
      let l ← (Tensor.kron (Tensor.eye (2 ^ A)) r).matmul rho
      l.matmul (Tensor.kron (Tensor.eye (2 ^ A)) (← r.view [((2 ^ B : ℕ) : ℤ), 1]))) (G k) := by
    intro k hk
    obtain ⟨t, rfl⟩ := exists_enc (N := B) (k := k) (by omega)
    rw [hG]
    exact hterm t
  obtain ⟨first, hfirst, -⟩ := hall 0 (by omega)
  have := foldlM_add _ G (2 ^ B - 1) hall hfirst
  rw [show 2 ^ B - 1 + 1 = 2 ^ B by omega, sum_enc] at this
  have e : ∑ t : Bits B, G (enc t) = ptr (Fin.castAdd B) r := by
    rw [ptr_castAdd]
    funext x y
    rw [Matrix.sum_apply]
    exact sum_congr rfl fun t _ => by rw [hG]
  rw [e] at this
  obtain ⟨U, hU, rU⟩ := this
  refine ⟨U, ?_, rU⟩
  unfold ptrace
  have hfirst' := hfirst
  simp only [Nat.cast_zero, Nat.cast_pow, Nat.cast_ofNat] at hfirst' hU ⊢
  rw [hfirst', Py.ok_bind]
  exact hU

end QTN
