import Verif.Lemmas.RoundTrace
import Verif.Lemmas.PTraceOld

/-! # The two versions of the partial trace round alike -/

namespace QTN.Arith

open QTN Spec Matrix Finset

variable {N M : ℕ} {A : Arith} (R : TraceRoutines A)

theorem matmul_two {a b : Tensor ℂ} {m n p : ℕ} (ha : a.shape = [m, n]) (hb : b.shape = [n, p]) :
    ∃ t, A.matmul a b = .ok t ∧ t.shape = [m, p] ∧ ∀ i j, i < m → j < p →
      t.get [i, j] = A.dot n (fun k => a.get [i, k]) (fun k => b.get [k, j]) := by
  refine ⟨_, by unfold Arith.matmul; rw [ha, hb]; simp only [if_true]; rfl, rfl, fun i j hi hj => ?_⟩
  rw [Tensor.get_ofFn (by simp [hi, hj])]
  rfl

theorem isSign_one : IsSign 1 := Or.inr (Or.inl rfl)

/-- Selecting rows and columns by products with matrices that have a single one in each row needs no rounding. -/
theorem sandwich_round {K rho : Tensor ℂ} {r : QOp N} (h : Represents rho r) (hr : ∀ a b, RepC A.fl (r a b))
    (f : Bits M → Bits N) (sK : K.shape = [2 ^ M, 2 ^ N])
    (gK : ∀ (x : Bits M) (k : ℕ), k < 2 ^ N → K.get [enc x, k] = if k = enc (f x) then 1 else 0) :
    ∃ B C t, dag K = .ok C ∧ A.matmul K rho = .ok B ∧ A.matmul B C = .ok t ∧
      Represents t (fun x y => r (f x) (f y)) := by
  obtain ⟨C, hC, sC, gC⟩ := dag_ok sK
  obtain ⟨B, hB, sB, gB⟩ := matmul_two (A := A) sK h.1
  obtain ⟨t, ht, st, gt⟩ := matmul_two (A := A) sB sC
  have hB' : ∀ (x : Bits M) (c : Bits N), B.get [enc x, enc c] = r (f x) c := fun x c => by
    rw [gB _ _ (enc_lt x) (enc_lt c), A.dot_exact _ _ _ (enc (f x)) (enc_lt _)
      (fun j hj hne => Or.inl (by rw [gK x j hj, if_neg hne]))
      (Or.inl ⟨by rw [gK x _ (enc_lt _), if_pos rfl]; exact isSign_one, by rw [h.2]; exact hr _ _⟩),
      gK x _ (enc_lt _), if_pos rfl, one_mul, h.2]
  refine ⟨B, C, t, hC, hB, ht, st, fun x y => ?_⟩
  have hC1 : ∀ k, k < 2 ^ N → C.get [k, enc y] = if k = enc (f y) then 1 else 0 := fun k hk => by
    rw [gC _ _ hk (enc_lt y), gK y k hk]
    split <;> simp
  rw [gt _ _ (enc_lt x) (enc_lt y), A.dot_exact _ _ _ (enc (f y)) (enc_lt _)
      (fun j hj hne => Or.inr (by rw [hC1 j hj, if_neg hne]))
      (Or.inr ⟨by rw [hB']; exact hr _ _, by rw [hC1 _ (enc_lt _), if_pos rfl]; exact isSign_one⟩),
      hC1 _ (enc_lt _), if_pos rfl, mul_one, hB']

theorem old_term_round (i : Fin (N + 1)) (b : Fin 2) {rho : Tensor ℂ} {r : QOp (N + 1)} (h : Represents rho r)
    (hr : ∀ a b, RepC A.fl (r a b)) :
    ∃ v B C t, (Tensor.eye 2 : Tensor ℂ).select0 (b : ℕ) = .ok v ∧
      dag (Tensor.kron (Tensor.kron (Tensor.eye (2 ^ (i : ℕ))) v) (Tensor.eye (2 ^ (N - (i : ℕ))))) = .ok C ∧
      A.matmul (Tensor.kron (Tensor.kron (Tensor.eye (2 ^ (i : ℕ))) v) (Tensor.eye (2 ^ (N - (i : ℕ))))) rho = .ok B ∧
      A.matmul B C = .ok t ∧ Represents t (fun x y : Bits N => r (i.insertNth b x) (i.insertNth b y)) := by
  obtain ⟨v, hv, sv, gv⟩ := select0_eye 2 b b.2
  obtain ⟨sA, gA⟩ := bra_rep i b sv gv
  obtain ⟨B, C, t, hC, hB, ht, rt⟩ := sandwich_round h hr (fun x => i.insertNth b x) sA gA
  exact ⟨v, B, C, t, hv, hC, hB, ht, rt⟩

theorem round_checks_facts {rho : Tensor ℂ} {d : ℕ} {n i : ℤ} {l : List ℤ} (hs : rho.shape = [d, d])
    (h : A.traceChecks R rho n (i :: l) = .ok ()) : 0 ≤ n ∧ d = 2 ^ n.toNat ∧ i ≤ n - 1 := by
  unfold Arith.traceChecks at h
  have ht : ∃ c, A.trace R rho = .ok c := by unfold Arith.trace; rw [hs]; exact ⟨_, rfl⟩
  obtain ⟨c, hc⟩ := ht
  rw [hc, Py.ok_bind] at h
  by_cases h1 : R.abs (A.sub c 1) > A.fl 1e-4
  · rw [raiseIf_true h1, Py.error_bind] at h; cases h
  rw [raiseIf_false h1, Py.ok_bind] at h
  by_cases h2 : n < 0 ∨ rho.shape.getD 0 0 ≠ 2 ^ n.toNat
  · rw [raiseIf_true h2, Py.error_bind] at h; cases h
  rw [raiseIf_false h2, Py.ok_bind] at h
  by_cases h3 : (i :: l ≠ [] ∧ ∃ x ∈ i :: l, x > n - 1)
  · rw [raiseIf_true h3] at h; cases h
  push Not at h2 h3
  refine ⟨h2.1, ?_, ?_⟩
  · have := h2.2
    rw [hs] at this
    simpa using this
  · exact h3 (by simp) i (by simp)

theorem old_sorted_round (l : List ℤ) {rho : Tensor ℂ} {d : ℕ} {n : ℤ} (hs : rho.shape = [d, d])
    (hr : ∀ i j, i < d → j < d → RepC A.fl (rho.get [i, j])) :
    A.partial_trace_old_sorted R rho n l = A.partial_trace_sorted R rho n l := by
  induction hk : l.length generalizing l rho d n with
  | zero =>
    have : l = [] := List.length_eq_zero_iff.1 hk
    subst this
    rw [Arith.partial_trace_old_sorted, Arith.partial_trace_sorted]
  | succ k ih =>
    match l, hk with
    | i :: rest, hk =>
      rw [Arith.partial_trace_old_sorted, Arith.partial_trace_sorted]
      rcases hc : A.traceChecks R rho n (i :: rest) with e | u
      · rfl
      · obtain ⟨hn, hd, hi⟩ := round_checks_facts R hs hc
        rw [Py.ok_bind, Py.ok_bind]
        by_cases h0 : i < 0
        · rw [raiseIf_true h0]; rfl
        rw [raiseIf_false h0, Py.ok_bind, Py.ok_bind]
        obtain ⟨N, rfl⟩ : ∃ N : ℕ, n = ((N + 1 : ℕ) : ℤ) := ⟨n.toNat - 1, by omega⟩
        obtain ⟨j, rfl⟩ : ∃ j : Fin (N + 1), i = ((j : ℕ) : ℤ) := ⟨⟨i.toNat, by omega⟩, by simp; omega⟩
        have e1 : ((N + 1 : ℕ) : ℤ).toNat = N + 1 := rfl
        have e2 : (((j : ℕ) : ℤ)).toNat = (j : ℕ) := rfl
        have e3 : (((N + 1 : ℕ) : ℤ) - 1 - ((j : ℕ) : ℤ)).toNat = N - j := by omega
        rw [e1] at hd
        subst hd
        have h := represents_self hs
        have hr' : ∀ a b : Bits (N + 1), RepC A.fl (rho.get [enc a, enc b]) := fun a b => hr _ _ (enc_lt a) (enc_lt b)
        obtain ⟨a0, a00, ha0, ha00, ra⟩ := select_rep h j 0
        obtain ⟨b0, b00, hb0, hb00, rb⟩ := select_rep h j 1
        obtain ⟨v, B, C, t, hv, hC, hB, ht, rt⟩ := old_term_round j 0 h hr'
        obtain ⟨v', B', C', t', hv', hC', hB', ht', rt'⟩ := old_term_round j 1 h hr'
        have q1 : t = a00 := rt.ext ra
        have q2 : t' = b00 := rt'.ext rb
        subst q1 q2
        have hnx : A.addT t t' = .ok (Tensor.ofFn t.shape (fun idx => A.add (t.get idx) (t'.get idx))) := by
          rw [addT, if_pos (rt.1.trans rt'.1.symm)]
        have ha0' : rho.indexSelect0 (traceIdx (N + 1) j 0) = .ok a0 := ha0
        have hb0' : rho.indexSelect0 (traceIdx (N + 1) j 1) = .ok b0 := hb0
        have ha00' : a0.indexSelect1 (traceIdx (N + 1) j 0) = .ok t := ha00
        have hb00' : b0.indexSelect1 (traceIdx (N + 1) j 1) = .ok t' := hb00
        have hv0 : (Tensor.eye 2 : Tensor ℂ).select0 0 = .ok v := hv
        have hv1 : (Tensor.eye 2 : Tensor ℂ).select0 1 = .ok v' := hv'
        simp only [e1, e2, e3, ha0', hb0', ha00', hb00', hv0, hv1, hB, hC, ht, hB', hC', ht', hnx, Py.ok_bind]
        refine ih (d := 2 ^ N) _ rt.1 (fun i j hi hj => ?_) (by simpa using hk)
        rw [Tensor.get_ofFn (by rw [rt.1]; simp [hi, hj])]
        exact ⟨A.fl_fl _, A.fl_fl _⟩

/-! ## `ptrace` -/

theorem ptrace_term_round {P Q : ℕ} {rho : Tensor ℂ} {r : QOp (P + Q)} (h : Represents rho r)
    (hr : ∀ a b, RepC A.fl (r a b)) (t : Bits Q) :
    ∃ v l c m, (Tensor.eye (2 ^ Q) : Tensor ℂ).select0 (enc t : ℤ) = .ok v ∧
      A.matmul (Tensor.kron (Tensor.eye (2 ^ P)) v) rho = .ok l ∧
      v.view [((2 ^ Q : ℕ) : ℤ), 1] = .ok c ∧
      A.matmul l (Tensor.kron (Tensor.eye (2 ^ P)) c) = .ok m ∧
      Represents m (fun x y : Bits P => r (Fin.append x t) (Fin.append y t)) := by
  obtain ⟨v, c, hv, hview, s1, s2, f1, f2⟩ := ptrace_mats P t
  obtain ⟨l, hl, sl, gl⟩ := matmul_two (A := A) s1 h.1
  obtain ⟨m, hm, sm, gm⟩ := matmul_two (A := A) sl s2
  have hl' : ∀ (x : Bits P) (d : Bits (P + Q)), l.get [enc x, enc d] = r (Fin.append x t) d := fun x d => by
    rw [gl _ _ (enc_lt x) (enc_lt d), A.dot_exact _ _ _ (enc (Fin.append x t : Bits (P + Q))) (enc_lt _)
      (fun j hj hne => Or.inl (by rw [f1 x j hj, if_neg hne]))
      (Or.inl ⟨by rw [f1 x _ (enc_lt _), if_pos rfl]; exact isSign_one, by rw [h.2]; exact hr _ _⟩),
      f1 x _ (enc_lt _), if_pos rfl, one_mul, h.2]
  refine ⟨v, l, c, m, hv, hl, hview, hm, sm, fun x y => ?_⟩
  rw [gm _ _ (enc_lt x) (enc_lt y), A.dot_exact _ _ _ (enc (Fin.append y t : Bits (P + Q))) (enc_lt _)
      (fun j hj hne => Or.inr (by rw [f2 y j hj, if_neg hne]))
      (Or.inr ⟨by rw [hl']; exact hr _ _, by rw [f2 y _ (enc_lt _), if_pos rfl]; exact isSign_one⟩),
      f2 y _ (enc_lt _), if_pos rfl, mul_one, hl']

/-- Adding up `term 0, …, term n` with `n` roundings. -/
theorem foldlM_round {P : ℕ} (term : ℕ → Py (Tensor ℂ)) (G : ℕ → QOp P) (n : ℕ)
    (h : ∀ k, k ≤ n → Computes (term k) (G k)) {first : Tensor ℂ} (hf : term 0 = .ok first) :
    ∃ t s, (List.range' 1 n).foldlM (fun acc i => do A.addT acc (← term i)) first = .ok t ∧ Represents t s ∧
      ∀ x y, ‖s x y - ∑ k ∈ range (n + 1), G k x y‖ ≤ ((1 + A.u) ^ n - 1) * ∑ k ∈ range (n + 1), ‖G k x y‖ := by
  induction n with
  | zero =>
    obtain ⟨U, hU, rU⟩ := h 0 le_rfl
    have : U = first := by
      rw [hU] at hf
      exact Except.ok.inj hf
    subst this
    exact ⟨U, G 0, rfl, rU, by simp⟩
  | succ n ih =>
    obtain ⟨U, s, hU, rU, hs⟩ := ih (fun k hk => h k (by omega))
    obtain ⟨T, hT, rT⟩ := h (n + 1) le_rfl
    rw [List.range'_1_concat, List.foldlM_append, hU, Py.ok_bind]
    rw [show 1 + n = n + 1 by omega]
    have hS : A.addT U T = .ok (Tensor.ofFn U.shape (fun idx => A.add (U.get idx) (T.get idx))) := by
      rw [addT, if_pos (rU.1.trans rT.1.symm)]
    refine ⟨Tensor.ofFn U.shape (fun idx => A.add (U.get idx) (T.get idx)),
      fun x y => A.add (s x y) (G (n + 1) x y), ?_, ⟨rU.1, fun x y => ?_⟩, fun x y => ?_⟩
    · simp only [List.foldlM_cons, List.foldlM_nil, hT, Py.ok_bind, hS, Py.pure_eq]
    · rw [Tensor.get_ofFn (by rw [rU.1]; simp [enc_lt]), rU.2, rT.2]
    · change ‖A.add (s x y) (G (n + 1) x y) - _‖ ≤ _
      rw [sum_range_succ _ (n + 1), sum_range_succ _ (n + 1)]
      have h1 := A.add_err (s x y) (G (n + 1) x y)
      have h2 := hs x y
      have hST := norm_sum_le (range (n + 1)) fun k => G k x y
      generalize s x y = d at *
      generalize G (n + 1) x y = g at *
      generalize ∑ k ∈ range (n + 1), G k x y = S at *
      generalize ∑ k ∈ range (n + 1), ‖G k x y‖ = T at *
      have hu := A.u_nonneg
      have hp : 1 ≤ (1 + A.u) ^ n := one_le_pow₀ (by linarith)
      have h3 : ‖d + g‖ ≤ ‖d - S‖ + ‖S‖ + ‖g‖ := by
        calc ‖d + g‖ = ‖(d - S) + S + g‖ := by congr 1; ring
          _ ≤ _ := (norm_add_le _ _).trans (add_le_add (norm_add_le _ _) le_rfl)
      have h4 : ‖A.add d g - (S + g)‖ ≤ ‖A.add d g - (d + g)‖ + ‖d - S‖ := by
        calc _ = ‖(A.add d g - (d + g)) + (d - S)‖ := by congr 1; ring
          _ ≤ _ := norm_add_le _ _
      have h5 : A.u * ‖d + g‖ ≤ A.u * (((1 + A.u) ^ n - 1) * T + T + ‖g‖) :=
        mul_le_mul_of_nonneg_left (by linarith) hu
      have h6 : A.u * ‖g‖ ≤ ((1 + A.u) ^ (n + 1) - 1) * ‖g‖ := by
        refine mul_le_mul_of_nonneg_right ?_ (norm_nonneg _)
        rw [pow_succ]
        nlinarith
      have h7 : A.u * (((1 + A.u) ^ n - 1) * T + T) + ((1 + A.u) ^ n - 1) * T = ((1 + A.u) ^ (n + 1) - 1) * T := by
        rw [pow_succ]; ring
      linarith

theorem ptrace_round {P Q : ℕ} {rho : Tensor ℂ} {r : QOp (P + Q)} (h : Represents rho r)
    (hr : ∀ a b, RepC A.fl (r a b)) :
    ∃ t s, A.ptrace rho P Q = .ok t ∧ Represents t s ∧ ∀ x y, ‖s x y - ptr (Fin.castAdd Q) r x y‖ ≤
      ((1 + A.u) ^ (2 ^ Q - 1) - 1) * (ptr (Fin.castAdd Q) (absOp r) x y).re := by
  have hterm : ∀ t : Bits Q, Computes (do
      let r ← (Tensor.eye (2 ^ Q) : Tensor ℂ).select0 (enc t : ℤ)
      let l ← A.matmul (Tensor.kron (Tensor.eye (2 ^ P)) r) rho
      A.matmul l (Tensor.kron (Tensor.eye (2 ^ P)) (← r.view [((2 ^ Q : ℕ) : ℤ), 1])))
      (fun x y : Bits P => r (Fin.append x t) (Fin.append y t)) := by
    intro t
    obtain ⟨v, l, c, m, hv, hl, hc, hm, rm⟩ := ptrace_term_round h hr t
    exact ⟨m, by simp only [hv, hl, hc, hm, Py.ok_bind], rm⟩
  choose dec hdec using fun (k : ℕ) (hk : k < 2 ^ Q) => exists_enc (N := Q) hk
  let G : ℕ → QOp P := fun k => if hk : k < 2 ^ Q then
    fun x y => r (Fin.append x (dec k hk)) (Fin.append y (dec k hk)) else 0
  have hG : ∀ t : Bits Q, G (enc t) = fun x y => r (Fin.append x t) (Fin.append y t) := by
    intro t
    have : dec (enc t) (enc_lt t) = t := enc_injective (hdec (enc t) (enc_lt t)).symm
    simp only [G, this]
    exact dif_pos (enc_lt t)
  have hpos : 0 < 2 ^ Q := by positivity
  have hall : ∀ k : ℕ, k ≤ 2 ^ Q - 1 → Computes (do
      let r ← (Tensor.eye (2 ^ Q) : Tensor ℂ).select0 (k : ℤ)
      let l ← A.matmul (Tensor.kron (Tensor.eye (2 ^ P)) r) rho
      A.matmul l (Tensor.kron (Tensor.eye (2 ^ P)) (← r.view [((2 ^ Q : ℕ) : ℤ), 1]))) (G k) := by
    intro k hk
    obtain ⟨t, rfl⟩ := exists_enc (N := Q) (k := k) (by omega)
    rw [hG]
    exact hterm t
  obtain ⟨first, hfirst, -⟩ := hall 0 (by omega)
  obtain ⟨U, s, hU, rU, hs⟩ := foldlM_round (A := A) _ G (2 ^ Q - 1) hall hfirst
  refine ⟨U, s, ?_, rU, fun x y => ?_⟩
  · unfold Arith.ptrace
    have hfirst' := hfirst
    simp only [Nat.cast_zero, Nat.cast_pow, Nat.cast_ofNat] at hfirst' hU ⊢
    rw [hfirst', Py.ok_bind]
    exact hU
  · have h1 := hs x y
    rw [show 2 ^ Q - 1 + 1 = 2 ^ Q by omega, sum_enc Q (fun k => G k x y), sum_enc Q (fun k => ‖G k x y‖)] at h1
    simp only [hG] at h1
    rw [ptr_castAdd, ptr_castAdd]
    refine h1.trans (le_of_eq ?_)
    rw [Complex.re_sum]
    rfl

end QTN.Arith
