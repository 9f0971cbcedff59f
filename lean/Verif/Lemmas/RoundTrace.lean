import Verif.Lemmas.RoundRho
import Verif.Lemmas.PTraceRun
import Verif.Model.RoundTrace

/-! # The partial trace in rounded arithmetic -/

namespace QTN

open Finset Spec Matrix

variable {N M K : ℕ}

theorem ptr_le (keep : Fin M → Fin N) {f g : QOp N} {c : ℝ} (h : ∀ a b, ‖f a b‖ ≤ c * (g a b).re) (x y : Bits M) :
    ‖ptr keep f x y‖ ≤ c * (ptr keep g x y).re := by
  unfold ptr
  rw [Complex.re_sum, mul_sum]
  refine (norm_sum_le _ _).trans (sum_le_sum fun a _ => ?_)
  rw [Complex.re_sum, mul_sum]
  refine (norm_sum_le _ _).trans (sum_le_sum fun b _ => ?_)
  split
  · exact h a b
  · simp

theorem ptr_sub (keep : Fin M → Fin N) (f g : QOp N) (x y : Bits M) :
    ptr keep f x y - ptr keep g x y = ptr keep (f - g) x y := by
  unfold ptr
  rw [← sum_sub_distrib]
  refine sum_congr rfl fun a _ => ?_
  rw [← sum_sub_distrib]
  refine sum_congr rfl fun b _ => ?_
  split <;> simp

theorem tr_absOp (r : QOp N) : (tr (absOp r)).re = ∑ a, ‖r a a‖ := by
  unfold tr absOp
  rw [Complex.re_sum]
  simp

theorem ptr_absOp_re (keep : Fin M → Fin N) (r : QOp N) (x y : Bits M) : 0 ≤ (ptr keep (absOp r) x y).re := by
  have := ptr_le keep (f := 0) (g := absOp r) (c := 1) (fun a b => by simp [absOp]) x y
  rw [one_mul] at this
  exact (norm_nonneg _).trans this

namespace Arith

variable {A : Arith} (R : TraceRoutines A)

/-- The trace is so close to one that the check passes even if the diagonal has been added up with `m` roundings. -/
def SafeTrace (A : Arith) (r : QOp N) (m : ℕ) : Prop :=
  (1 + A.u) ^ 4 * (‖tr r - 1‖ + ((1 + A.u) ^ m - 1) * ∑ a, ‖r a a‖) ≤ (1 - A.u) * 1e-4

theorem SafeTrace.mono {r : QOp N} {m n : ℕ} (h : SafeTrace A r n) (hm : m ≤ n) : SafeTrace A r m := by
  refine le_trans ?_ h
  have hu := A.u_nonneg
  refine mul_le_mul_of_nonneg_left ?_ (by positivity)
  have h1 := pow_le_pow_right₀ (by linarith : 1 ≤ 1 + A.u) hm
  have h2 : 0 ≤ ∑ a, ‖r a a‖ := sum_nonneg fun _ _ => norm_nonneg _
  nlinarith

theorem checks_ok {rho : Tensor ℂ} {r : QOp N} (h : Represents rho r) (ht : SafeTrace A r (2 ^ N))
    (l : List ℤ) (hl : ∀ x ∈ l, x ≤ (N : ℤ) - 1) : A.traceChecks R rho N l = .ok () := by
  have e : A.trace R rho = .ok (R.sum (2 ^ N) fun k => rho.get [k, k]) := by
    unfold trace
    rw [h.1]
    simp only [min_self]
  have hg := gap_accept R h ht
  unfold gap at hg
  unfold Arith.traceChecks
  rw [e, Py.ok_bind, raiseIf_false hg, Py.ok_bind, raiseIf_false, Py.ok_bind, raiseIf_false]
  · rintro ⟨-, x, hx, hgt⟩
    have := hl x hx
    omega
  · simp [h.1]

theorem checks_reject {rho : Tensor ℂ} {r : QOp N} (h : Represents rho r) (hu4 : (1 + A.u) ^ 4 ≤ 2)
    (ht : (1 + A.u) * 1e-4 < (2 - (1 + A.u) ^ 4) * (‖tr r - 1‖ - ((1 + A.u) ^ (2 ^ N) - 1) * ∑ a, ‖r a a‖))
    (n : ℤ) (l : List ℤ) : A.traceChecks R rho n l = .error .valueError := by
  have e : A.trace R rho = .ok (R.sum (2 ^ N) fun k => rho.get [k, k]) := by
    unfold trace
    rw [h.1]
    simp only [min_self]
  have hg := gap_reject R h hu4 ht
  unfold gap at hg
  unfold Arith.traceChecks
  rw [e, Py.ok_bind, raiseIf_true hg, Py.error_bind]

/-- One qubit traced out. -/
noncomputable def stepOp (A : Arith) (i : Fin (N + 1)) (r : QOp (N + 1)) : QOp N :=
  fun x y => A.add (r (i.insertNth 0 x) (i.insertNth 0 y)) (r (i.insertNth 1 x) (i.insertNth 1 y))

theorem stepOp_err (i : Fin (N + 1)) (r : QOp (N + 1)) (x y : Bits N) :
    ‖stepOp A i r x y - ptr i.succAbove r x y‖ ≤ A.u * (ptr i.succAbove (absOp r) x y).re := by
  have h1 := A.add_err (r (i.insertNth 0 x) (i.insertNth 0 y)) (r (i.insertNth 1 x) (i.insertNth 1 y))
  have h2 := ptr_le i.succAbove (f := r) (g := absOp r) (c := 1) (fun a b => by simp [absOp]) x y
  rw [one_mul] at h2
  have e : ptr i.succAbove r x y =
      r (i.insertNth 0 x) (i.insertNth 0 y) + r (i.insertNth 1 x) (i.insertNth 1 y) := by
    rw [ptr_one]
    exact Fin.sum_univ_two _
  rw [e] at h2 ⊢
  exact h1.trans (mul_le_mul_of_nonneg_left h2 A.u_nonneg)

theorem stepOp_le (i : Fin (N + 1)) (r : QOp (N + 1)) (x y : Bits N) :
    ‖stepOp A i r x y‖ ≤ (1 + A.u) * (ptr i.succAbove (absOp r) x y).re := by
  have h1 := stepOp_err (A := A) i r x y
  have h2 := ptr_le i.succAbove (f := r) (g := absOp r) (c := 1) (fun a b => by simp [absOp]) x y
  have h3 := norm_add_le (ptr i.succAbove r x y) (stepOp A i r x y - ptr i.succAbove r x y)
  rw [add_sub_cancel] at h3
  linarith

theorem SafeTrace.step {r : QOp (N + 1)} {m : ℕ} (h : SafeTrace A r (m + 1)) (i : Fin (N + 1)) :
    SafeTrace A (stepOp A i r) m := by
  have hu := A.u_nonneg
  refine le_trans (mul_le_mul_of_nonneg_left ?_ (by positivity)) h
  have hT : ∑ x, (ptr i.succAbove (absOp r) x x).re = ∑ a, ‖r a a‖ := by
    rw [← tr_absOp, ← tr_ptr i.succAbove (absOp r)]
    unfold tr
    rw [Complex.re_sum]
  have h1 : ∑ x, ‖stepOp A i r x x‖ ≤ (1 + A.u) * ∑ a, ‖r a a‖ := by
    rw [← hT, mul_sum]
    exact sum_le_sum fun x _ => stepOp_le i r x x
  have h2 : ‖tr (stepOp A i r) - tr r‖ ≤ A.u * ∑ a, ‖r a a‖ := by
    rw [← tr_ptr i.succAbove r, ← hT, mul_sum]
    unfold tr
    rw [← sum_sub_distrib]
    exact (norm_sum_le _ _).trans (sum_le_sum fun x _ => stepOp_err i r x x)
  have h3 : ‖tr (stepOp A i r) - 1‖ ≤ ‖tr (stepOp A i r) - tr r‖ + ‖tr r - 1‖ := norm_sub_le_norm_sub_add_norm_sub _ _ _
  have hp : 0 ≤ (1 + A.u) ^ m - 1 := sub_nonneg.2 (one_le_pow₀ (by linarith))
  have h4 := mul_le_mul_of_nonneg_left h1 hp
  have h5 : ((1 + A.u) ^ m - 1) * ((1 + A.u) * ∑ a, ‖r a a‖) + A.u * ∑ a, ‖r a a‖ =
      ((1 + A.u) ^ (m + 1) - 1) * ∑ a, ‖r a a‖ := by rw [pow_succ]; ring
  linarith

theorem step_run {rho : Tensor ℂ} {r : QOp (N + 1)} (h : Represents rho r) (ht : SafeTrace A r (2 ^ (N + 1)))
    (i : Fin (N + 1)) (rest : List ℤ) (hr : ∀ x ∈ wire i :: rest, x ≤ ((N + 1 : ℕ) : ℤ) - 1) :
    ∃ nxt, Represents nxt (stepOp A i r) ∧
      A.partial_trace_sorted R rho (N + 1 : ℕ) (wire i :: rest) = A.partial_trace_sorted R nxt N (rest.map (· - 1)) := by
  obtain ⟨a0, a00, ha0, ha00, ra⟩ := select_rep h i 0
  obtain ⟨b0, b00, hb0, hb00, rb⟩ := select_rep h i 1
  have hn : A.addT a00 b00 = .ok (Tensor.ofFn a00.shape (fun idx => A.add (a00.get idx) (b00.get idx))) := by
    rw [addT, if_pos (ra.1.trans rb.1.symm)]
  refine ⟨Tensor.ofFn a00.shape (fun idx => A.add (a00.get idx) (b00.get idx)), ⟨ra.1, fun x y => ?_⟩, ?_⟩
  · rw [Tensor.get_ofFn (by rw [ra.1]; simp [enc_lt]), ra.2, rb.2]
    rfl
  · rw [Arith.partial_trace_sorted, checks_ok R h ht _ hr, Py.ok_bind, raiseIf_false (by simp [wire]), Py.ok_bind]
    have e1 : ((N + 1 : ℕ) : ℤ).toNat = N + 1 := rfl
    have e2 : (wire i).toNat = (i : ℕ) := rfl
    simp only [e1, e2]
    have ha0' : rho.indexSelect0 (traceIdx (N + 1) i 0) = .ok a0 := ha0
    have hb0' : rho.indexSelect0 (traceIdx (N + 1) i 1) = .ok b0 := hb0
    have ha00' : a0.indexSelect1 (traceIdx (N + 1) i 0) = .ok a00 := ha00
    have hb00' : b0.indexSelect1 (traceIdx (N + 1) i 1) = .ok b00 := hb00
    simp only [ha0', hb0', ha00', hb00', hn, Py.ok_bind]
    have e3 : ((N + 1 : ℕ) : ℤ) - 1 = (N : ℤ) := by push_cast; ring
    rw [e3]

/-- What is known of a computed partial trace over `k` qubits. -/
structure PTrOk (A : Arith) (keep : Fin M → Fin N) (r : QOp N) (k : ℕ) (s : QOp M) : Prop where
  err : ∀ x y, ‖s x y - ptr keep r x y‖ ≤ ((1 + A.u) ^ k - 1) * (ptr keep (absOp r) x y).re
  safe : SafeTrace A s (2 ^ M)
  rep : (∀ a b, RepC A.fl (r a b)) → ∀ x y, RepC A.fl (s x y)

theorem rounded_run {rho : Tensor ℂ} {r : QOp N} (l : List (Fin N)) (hl : l.Pairwise (· < ·)) (h : Represents rho r)
    (ht : SafeTrace A r (2 ^ N)) :
    ∃ (M : ℕ) (keep : Fin M → Fin N), Spec.Keeps keep l ∧ ∃ t s, A.partial_trace_sorted R rho N (wires l) = .ok t ∧
      Represents t s ∧ PTrOk A keep r l.length s := by
  induction hk : l.length generalizing N rho r with
  | zero =>
    have : l = [] := List.length_eq_zero_iff.1 hk
    subst this
    refine ⟨N, id, ⟨strictMono_id, by simp⟩, rho, r, ?_, h, ?_, ht, fun hr => hr⟩
    · rw [wires, List.map_nil, Arith.partial_trace_sorted, checks_ok R h ht _ (by simp), Py.ok_bind]
    · intro x y
      rw [ptr_id]
      simp
  | succ k ih =>
    match N, l, hl, hk, r, h, ht with
    | 0, i :: _, _, _, _, _, _ => exact i.elim0
    | N + 1, i :: rest, hl, hk, r, h, ht =>
      rw [List.pairwise_cons] at hl
      obtain ⟨rest', rfl⟩ := exists_preimage i rest (fun j hj => (hl.1 j hj).ne')
      obtain ⟨nxt, hr, hstep⟩ := step_run R h ht i (wires (rest'.map i.succAbove)) (by
        intro x hx
        have : x ∈ wires (i :: rest'.map i.succAbove) := hx
        obtain ⟨j, -, rfl⟩ := List.mem_map.1 this
        simp only [wire]
        have := j.2
        omega)
      have hsm : rest'.Pairwise (· < ·) := by
        have := hl.2
        rw [List.pairwise_map] at this
        exact this.imp (fun h => (Fin.strictMono_succAbove i).lt_iff_lt.1 h)
      have hpow : 2 ^ N + 1 ≤ 2 ^ (N + 1) := by
        have := Nat.one_le_two_pow (n := N)
        rw [pow_succ]
        omega
      obtain ⟨M, keep, hkeep, t, s, hc, hts, hok⟩ := ih rest' hsm hr ((ht.mono hpow).step i) (by simpa using hk)
      refine ⟨M, i.succAbove ∘ keep, keeps_cons hkeep, t, s, ?_, hts, fun x y => ?_, hok.safe, fun _ => hok.rep fun a b => ?_⟩
      · have hw : wires (i :: rest'.map i.succAbove) = wire i :: wires (rest'.map i.succAbove) := rfl
        rw [hw, hstep, wires_pred i rest' hl.1]
        exact hc
      · have hu := A.u_nonneg
        have h1 := hok.err x y
        have h2 : (ptr keep (absOp (stepOp A i r)) x y).re ≤ (1 + A.u) * (ptr keep (ptr i.succAbove (absOp r)) x y).re :=
          (Complex.re_le_norm _).trans (ptr_le keep (fun a b => by
            have := stepOp_le (A := A) i r a b
            simpa [absOp] using this) x y)
        have h3 : ‖ptr keep (stepOp A i r) x y - ptr keep (ptr i.succAbove r) x y‖ ≤
            A.u * (ptr keep (ptr i.succAbove (absOp r)) x y).re := by
          rw [ptr_sub]
          exact ptr_le keep (fun a b => stepOp_err i r a b) x y
        rw [ptr_comp Fin.succAbove_right_injective] at h2 h3
        rw [ptr_comp Fin.succAbove_right_injective] at h3
        have h4 := norm_sub_le_norm_sub_add_norm_sub (s x y) (ptr keep (stepOp A i r) x y) (ptr (i.succAbove ∘ keep) r x y)
        have hp : 0 ≤ (1 + A.u) ^ k - 1 := sub_nonneg.2 (one_le_pow₀ (by linarith))
        have h5 := mul_le_mul_of_nonneg_left h2 hp
        have h6 : ((1 + A.u) ^ k - 1) * ((1 + A.u) * (ptr (i.succAbove ∘ keep) (absOp r) x y).re) +
            A.u * (ptr (i.succAbove ∘ keep) (absOp r) x y).re =
            ((1 + A.u) ^ (k + 1) - 1) * (ptr (i.succAbove ∘ keep) (absOp r) x y).re := by rw [pow_succ]; ring
        linarith
      · exact ⟨A.fl_fl _, A.fl_fl _⟩

end Arith

end QTN
