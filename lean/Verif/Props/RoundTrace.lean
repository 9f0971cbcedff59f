import Verif.Lemmas.RoundTraceOld
import Verif.Props.RoundRho

/-! # C112: partial traces in rounded arithmetic -/

namespace QTN.Props

open QTN Spec Matrix Complex Finset Arith
open scoped ComplexOrder

variable {N M : ℕ} {A : Arith}

theorem sum_diag_ptr (keep : Fin M → Fin N) (r : QOp N) (F : Bits M → ℂ) :
    ∑ x, F x * ptr keep r x x = ∑ a, F (a ∘ keep) * r a a := by
  unfold ptr
  simp only [mul_sum]
  rw [sum_comm]
  refine sum_congr rfl fun a _ => ?_
  rw [sum_comm, sum_eq_single a]
  · rw [sum_eq_single (a ∘ keep)]
    · simp
    · intro x _ hx
      rw [if_neg (fun g => hx g.1.symm), mul_zero]
    · simp
  · intro b _ hb
    refine sum_eq_zero fun x _ => ?_
    rw [if_neg, mul_zero]
    rintro ⟨g1, g2, g3⟩
    apply hb
    funext i
    by_cases hi : i ∈ Set.range keep
    · obtain ⟨j, rfl⟩ := hi
      exact (congrFun (g1.trans g2.symm) j).symm
    · exact (g3 i hi).symm
  · simp

theorem partial_trace_round (R : TraceRoutines A) {rho : Tensor ℂ} {r : QOp N} (l : List (Fin N)) (hl : l.Nodup)
    (h : Represents rho r) (ht : SafeTrace A r (2 ^ N)) {keep : Fin M → Fin N} (hk : Spec.Keeps keep l) :
    ∃ t s, A.partial_trace R rho N (wires l) = .ok t ∧ Represents t s ∧ PTrOk A keep r l.length s := by
  have hp : (l.mergeSort (· ≤ ·)).Perm l := List.mergeSort_perm _ _
  have hs : (l.mergeSort (· ≤ ·)).Pairwise (· < ·) := by
    have h1 : (l.mergeSort (· ≤ ·)).Pairwise (· ≤ ·) := by
      have := List.pairwise_mergeSort' (· ≤ ·) l
      exact this
    have h2 : (l.mergeSort (· ≤ ·)).Nodup := hp.nodup_iff.2 hl
    exact (h1.and h2).imp (fun ⟨a, b⟩ => lt_of_le_of_ne a b)
  obtain ⟨M', keep', hk', t, s, hc, hts, hok⟩ := rounded_run R _ hs h ht
  have hM : M' = M := by
    have := keeps_card hk hl
    have := keeps_card hk' (hp.nodup_iff.2 hl)
    have := hp.length_eq
    omega
  subst hM
  have : keep' = keep := keeps_unique hk' hk (fun i => hp.mem_iff)
  subst this
  rw [hp.length_eq] at hok
  refine ⟨t, s, ?_, hts, hok⟩
  unfold Arith.partial_trace
  rw [checks_ok R h ht _ ?_, Py.ok_bind, wires_sort]
  · exact hc
  · intro x hx
    obtain ⟨j, -, rfl⟩ := List.mem_map.1 hx
    simp only [wire]
    have := j.2
    omega

/-- C112, entries: if the trace is close enough to one, `partial_trace` over `k` different qubits in any order passes all
its checks.  Every entry of the result is within `(1 + u) ^ k - 1` times the partial trace of the absolute values of the
partial trace. -/
theorem C112_entries (A : Arith) (R : TraceRoutines A) (rho : Tensor ℂ) (r : QOp N) (h : Represents rho r)
    (l : List (Fin N)) (hl : l.Nodup) (keep : Fin M → Fin N) (hk : Spec.Keeps keep l)
    (ht : (1 + A.u) ^ 4 * (‖(∑ a, r a a) - 1‖ + ((1 + A.u) ^ (2 ^ N) - 1) * ∑ a, ‖r a a‖) ≤ (1 - A.u) * 1e-4) :
    ∃ t s, A.partial_trace R rho N (wires l) = .ok t ∧ Represents t s ∧
      ∀ x y, ‖s x y - ptr keep r x y‖ ≤
        ((1 + A.u) ^ l.length - 1) * (ptr keep (fun a b => ((‖r a b‖ : ℝ) : ℂ)) x y).re := by
  obtain ⟨t, s, h1, h2, h3⟩ := partial_trace_round R l hl h ht hk
  exact ⟨t, s, h1, h2, h3.err⟩

/-- C112, check: if the trace is too far from one, `partial_trace` raises a ValueError whatever the other arguments. -/
theorem C112_reject (A : Arith) (R : TraceRoutines A) (rho : Tensor ℂ) (r : QOp N) (h : Represents rho r)
    (hu : (1 + A.u) ^ 4 ≤ 2)
    (ht : (1 + A.u) * 1e-4 <
      (2 - (1 + A.u) ^ 4) * (‖(∑ a, r a a) - 1‖ - ((1 + A.u) ^ (2 ^ N) - 1) * ∑ a, ‖r a a‖))
    (n : ℤ) (lst : List ℤ) : A.partial_trace R rho n lst = .error .valueError := by
  unfold Arith.partial_trace
  rw [checks_reject R h hu ht, Py.error_bind]

/-- C112, values: measuring the result of `partial_trace` gives values within `(1 + u) ^ (k + 2 ^ M) - 1` times the sum of
the absolute diagonal entries of `P(0) - P(1)` of the kept qubits before the partial trace. -/
theorem C112_measure (A : Arith) (R : TraceRoutines A) (rho : Tensor ℂ) (r : QOp N) (h : Represents rho r)
    (hr : ∀ a b, RepC A.fl (r a b)) (l : List (Fin N)) (hl : l.Nodup) (hM : 0 < M) (keep : Fin M → Fin N)
    (hk : Spec.Keeps keep l)
    (ht : (1 + A.u) ^ 4 * (‖(∑ a, r a a) - 1‖ + ((1 + A.u) ^ (2 ^ N) - 1) * ∑ a, ‖r a a‖) ≤ (1 - A.u) * 1e-4) :
    ∃ f : Fin M → ℝ, (A.partial_trace R rho N (wires l) >>= fun t => A.measureAny R M t .none) = .ok (List.ofFn f) ∧
      ∀ j, |f j - (prob (fun a => (r a a).re) (keep j) 0 - prob (fun a => (r a a).re) (keep j) 1)| ≤
        ((1 + A.u) ^ (l.length + 2 ^ M) - 1) * ∑ a, ‖r a a‖ := by
  obtain ⟨t, s, h1, h2, h3⟩ := partial_trace_round R l hl h ht hk
  obtain ⟨f, k1, -, -, k2⟩ := C111_measure A R hM t s h2 (h3.rep hr) h3.safe
  refine ⟨f, by rw [h1, Py.ok_bind, k1], fun j => ?_⟩
  have hT : ∑ x, (ptr keep (absOp r) x x).re = ∑ a, ‖r a a‖ := by
    rw [← tr_absOp, ← tr_ptr keep (absOp r)]
    unfold tr
    rw [Complex.re_sum]
  have e1 : prob (fun a => (r a a).re) (keep j) 0 - prob (fun a => (r a a).re) (keep j) 1 =
      prob (fun x => (ptr keep r x x).re) j 0 - prob (fun x => (ptr keep r x x).re) j 1 := by
    rw [← prob_diff, ← prob_diff]
    have := congrArg Complex.re (sum_diag_ptr keep r fun x => if x j = 0 then 1 else -1)
    rw [Complex.re_sum, Complex.re_sum] at this
    refine Eq.trans ?_ (this.symm.trans ?_)
    · refine sum_congr rfl fun a _ => ?_
      simp only [Function.comp]
      split <;> simp
    · refine sum_congr rfl fun a _ => ?_
      split <;> simp
  have hd : ∑ x, ‖s x x - ptr keep r x x‖ ≤ ((1 + A.u) ^ l.length - 1) * ∑ a, ‖r a a‖ := by
    rw [← hT, mul_sum]
    exact sum_le_sum fun x _ => h3.err x x
  have h4 : |(prob (fun x => (s x x).re) j 0 - prob (fun x => (s x x).re) j 1) -
      (prob (fun x => (ptr keep r x x).re) j 0 - prob (fun x => (ptr keep r x x).re) j 1)| ≤
      ((1 + A.u) ^ l.length - 1) * ∑ a, ‖r a a‖ := by
    refine le_trans ?_ hd
    rw [← prob_diff, ← prob_diff, ← sum_sub_distrib]
    refine (abs_sum_le_sum_abs _ _).trans (sum_le_sum fun x _ => ?_)
    rw [← mul_sub, ← Complex.sub_re, abs_mul]
    refine le_trans (le_of_eq ?_) (Complex.abs_re_le_norm _)
    split <;> simp
  have h5 : ∑ x, ‖s x x‖ ≤ (1 + A.u) ^ l.length * ∑ a, ‖r a a‖ := by
    have h6 : ∑ x, ‖ptr keep r x x‖ ≤ ∑ a, ‖r a a‖ := by
      rw [← hT]
      refine sum_le_sum fun x _ => ?_
      have := ptr_le keep (f := r) (g := absOp r) (c := 1) (fun a b => by simp [absOp]) x x
      rwa [one_mul] at this
    have h7 : ∑ x, ‖s x x‖ ≤ ∑ x, ‖s x x - ptr keep r x x‖ + ∑ x, ‖ptr keep r x x‖ := by
      rw [← sum_add_distrib]
      refine sum_le_sum fun x _ => ?_
      have := norm_add_le (s x x - ptr keep r x x) (ptr keep r x x)
      rwa [sub_add_cancel] at this
    rw [sub_mul, one_mul] at hd
    linarith
  rw [e1]
  have hu := A.u_nonneg
  have hp : 0 ≤ (1 + A.u) ^ (2 ^ M) - 1 := sub_nonneg.2 (one_le_pow₀ (by linarith))
  have h6 := mul_le_mul_of_nonneg_left h5 hp
  have h7 := abs_sub_le (f j) (prob (fun x => (s x x).re) j 0 - prob (fun x => (s x x).re) j 1)
    (prob (fun x => (ptr keep r x x).re) j 0 - prob (fun x => (ptr keep r x x).re) j 1)
  have h8 := (h7.trans (add_le_add ((k2 j).trans h6) h4))
  refine h8.trans (le_of_eq ?_)
  rw [pow_add]
  ring

/-! ## Density matrices -/

theorem entry_le {r : QOp N} (h : r.PosSemidef) (a b : Bits N) : ‖r a b‖ ≤ (r a a).re / 2 + (r b b).re / 2 := by
  have hd : ∀ a, 0 ≤ (r a a).re := fun a => (Complex.le_def.1 (h.diag_nonneg (i := a))).1
  rcases eq_or_ne (r a b) 0 with hz | hz
  · rw [hz, norm_zero]
    linarith [hd a, hd b]
  have hn : (‖r a b‖ : ℂ) ≠ 0 := by simpa using hz
  have hq : ∀ w : ℂ, 0 ≤ (r a a + w * r a b + star w * (r b a + w * r b b)).re := fun w => by
    have := (Complex.le_def.1 (h.dotProduct_mulVec_nonneg (Pi.single a 1 + Pi.single b w))).1
    rw [Matrix.mulVec_add, star_add, add_dotProduct] at this
    simp only [Matrix.mulVec_single, Pi.star_single, single_dotProduct] at this
    simpa [mul_comm] using this
  have hq1 := hq (-(star (r a b)) / (‖r a b‖ : ℂ))
  have hba : r b a = star (r a b) := (h.isHermitian.apply b a).symm
  have e1 : star (r a b) * r a b = (‖r a b‖ : ℂ) * (‖r a b‖ : ℂ) := by
    rw [Complex.star_def, ← Complex.normSq_eq_conj_mul_self, Complex.normSq_eq_norm_sq]
    push_cast
    ring
  have e2 : r a a + -(star (r a b)) / (‖r a b‖ : ℂ) * r a b +
      star (-(star (r a b)) / (‖r a b‖ : ℂ)) * (r b a + -(star (r a b)) / (‖r a b‖ : ℂ) * r b b) =
      r a a + r b b - 2 * (‖r a b‖ : ℂ) := by
    have hs : star (-(star (r a b)) / (‖r a b‖ : ℂ)) = -(r a b) / (‖r a b‖ : ℂ) := by simp
    rw [hs, hba]
    generalize star (r a b) = w at *
    generalize (‖r a b‖ : ℂ) = n at *
    field_simp
    linear_combination (-2 * n + r b b) * e1
  rw [e2] at hq1
  simp at hq1
  linarith

/-- Given the kept part of the index, at most one index is related to another by the partial trace. -/
theorem sum_partner_le (keep : Fin M → Fin N) (x y : Bits M) (a : Bits N) {c : ℝ} (hc : 0 ≤ c) :
    ∑ b : Bits N, (if a ∘ keep = x ∧ b ∘ keep = y ∧ ∀ i, i ∉ Set.range keep → a i = b i then c else 0) ≤ c := by
  by_cases hx : ∃ b₀ : Bits N, a ∘ keep = x ∧ b₀ ∘ keep = y ∧ ∀ i, i ∉ Set.range keep → a i = b₀ i
  · obtain ⟨b₀, -, h2, h3⟩ := hx
    rw [sum_eq_single b₀]
    · split
      · exact le_rfl
      · exact hc
    · intro b _ hb
      rw [if_neg]
      rintro ⟨-, g2, g3⟩
      apply hb
      funext i
      by_cases hi : i ∈ Set.range keep
      · obtain ⟨j, rfl⟩ := hi
        exact congrFun (g2.trans h2.symm) j
      · exact (g3 i hi).symm.trans (h3 i hi)
    · simp
  · push Not at hx
    rw [sum_eq_zero]
    · exact hc
    · intro b _
      rw [if_neg]
      rintro ⟨g1, g2, g3⟩
      obtain ⟨i, hi, hne⟩ := hx b g1 g2
      exact hne (g3 i hi)

theorem ptr_abs_le (keep : Fin M → Fin N) {r : QOp N} (h : r.PosSemidef) (x y : Bits M) :
    (ptr keep (fun a b => ((‖r a b‖ : ℝ) : ℂ)) x y).re ≤ ∑ a, (r a a).re := by
  have hd : ∀ a, 0 ≤ (r a a).re / 2 := fun a => by
    have := (Complex.le_def.1 (h.diag_nonneg (i := a))).1
    rw [Complex.zero_re] at this
    linarith
  have h1 : (ptr keep (fun a b => ((‖r a b‖ : ℝ) : ℂ)) x y).re ≤
      ∑ a : Bits N, ∑ b : Bits N,
        (if a ∘ keep = x ∧ b ∘ keep = y ∧ ∀ i, i ∉ Set.range keep → a i = b i then (r a a).re / 2 else 0) +
      ∑ a : Bits N, ∑ b : Bits N,
        (if a ∘ keep = x ∧ b ∘ keep = y ∧ ∀ i, i ∉ Set.range keep → a i = b i then (r b b).re / 2 else 0) := by
    unfold ptr
    rw [Complex.re_sum, ← sum_add_distrib]
    refine sum_le_sum fun a _ => ?_
    rw [Complex.re_sum, ← sum_add_distrib]
    refine sum_le_sum fun b _ => ?_
    split
    · exact entry_le h a b
    · simp
  have h2 := sum_le_sum fun (a : Bits N) (_ : a ∈ univ) => sum_partner_le keep x y a (hd a)
  have h3 : ∑ a : Bits N, ∑ b : Bits N,
      (if a ∘ keep = x ∧ b ∘ keep = y ∧ ∀ i, i ∉ Set.range keep → a i = b i then (r b b).re / 2 else 0) ≤
      ∑ b, (r b b).re / 2 := by
    rw [sum_comm]
    refine sum_le_sum fun b _ => le_trans (le_of_eq ?_) (sum_partner_le keep y x b (hd b))
    refine sum_congr rfl fun a _ => if_congr ?_ rfl rfl
    constructor
    · rintro ⟨g1, g2, g3⟩; exact ⟨g2, g1, fun i hi => (g3 i hi).symm⟩
    · rintro ⟨g1, g2, g3⟩; exact ⟨g2, g1, fun i hi => (g3 i hi).symm⟩
  refine (h1.trans (add_le_add h2 h3)).trans (le_of_eq ?_)
  rw [← sum_add_distrib]
  exact sum_congr rfl fun a _ => add_halves _

/-- C112, density matrices: if the matrix is positive semidefinite with trace `τ`, every entry of the result is within
`((1 + u) ^ k - 1) τ` of that of the partial trace. -/
theorem C112_density (A : Arith) (R : TraceRoutines A) (rho : Tensor ℂ) (r : QOp N) (h : Represents rho r)
    (hp : r.PosSemidef) (τ : ℝ) (hτ : ∑ a, r a a = τ) (l : List (Fin N)) (hl : l.Nodup) (keep : Fin M → Fin N)
    (hk : Spec.Keeps keep l)
    (ht : (1 + A.u) ^ 4 * (|τ - 1| + ((1 + A.u) ^ (2 ^ N) - 1) * τ) ≤ (1 - A.u) * 1e-4) :
    ∃ t s, A.partial_trace R rho N (wires l) = .ok t ∧ Represents t s ∧
      ∀ x y, ‖s x y - ptr keep r x y‖ ≤ ((1 + A.u) ^ l.length - 1) * τ := by
  have hτ' : ∑ a, (r a a).re = τ := by
    rw [← Complex.re_sum, hτ, Complex.ofReal_re]
  have hd : ∀ a, 0 ≤ (r a a).re ∧ (r a a).im = 0 := fun a => by
    have := Complex.le_def.1 (hp.diag_nonneg (i := a))
    exact ⟨this.1, this.2.symm⟩
  obtain ⟨e1, e2⟩ := diag_sums hd hτ'
  obtain ⟨t, s, h1, h2, h3⟩ := C112_entries A R rho r h l hl keep hk (by rwa [e1, e2])
  refine ⟨t, s, h1, h2, fun x y => (h3 x y).trans (mul_le_mul_of_nonneg_left ?_ ?_)⟩
  · rw [← hτ']
    exact ptr_abs_le keep hp x y
  · have := A.u_nonneg
    exact sub_nonneg.2 (one_le_pow₀ (by linarith))

/-- The state |00⟩⟨00| meets the hypotheses whenever the arithmetic is that of single precision or better. -/
example (A : Arith) (R : TraceRoutines A) (hu : A.u ≤ 2⁻¹ ^ 24) : ∃ t s,
    A.partial_trace R (Tensor.ofRows [[1, 0, 0, 0], [0, 0, 0, 0], [0, 0, 0, 0], [0, 0, 0, 0]]) 2 [0] = .ok t ∧
      Represents (N := 1) t s ∧ ‖s ![0] ![0] - 1‖ ≤ A.u ∧ ‖s ![1] ![1]‖ ≤ A.u := by
  have hb : ∀ a : Bits 2, a = ![0, 0] ∨ a = ![0, 1] ∨ a = ![1, 0] ∨ a = ![1, 1] := by decide
  generalize hv : (fun a : Bits 2 => if a 0 = 0 ∧ a 1 = 0 then (1 : ℂ) else 0) = v
  have hrep : Represents (N := 2) (Tensor.ofRows [[1, 0, 0, 0], [0, 0, 0, 0], [0, 0, 0, 0], [0, 0, 0, 0]])
      (Matrix.vecMulVec v (star v)) :=
    ⟨rfl, fun a b => by
      rw [← hv]
      rcases hb a with rfl | rfl | rfl | rfl <;> rcases hb b with rfl | rfl | rfl | rfl <;>
        simp [enc, Tensor.ofRows, Tensor.ofFn, Fin.sum_univ_two, Matrix.vecMulVec_apply]⟩
  have huniv : (Finset.univ : Finset (Bits 2)) = {![0, 0], ![0, 1], ![1, 0], ![1, 1]} := by decide
  have hk : Spec.Keeps ((0 : Fin 2).succAbove ∘ id) [0] := keeps_cons (i := 0) (l := []) ⟨strictMono_id, by simp⟩
  have h0 := A.u_nonneg
  have hu' : A.u ≤ 6e-8 := hu.trans (by norm_num)
  obtain ⟨t, s, h1, h2, h3⟩ := C112_density A R _ _ hrep (Matrix.posSemidef_vecMulVec_self_star v) 1
    (by rw [huniv, ← hv]; simp [Finset.sum_insert, Matrix.vecMulVec_apply]) [0] (by simp) _ hk (by
      have h4 : (1 + A.u) ^ 4 ≤ 1 + 3e-7 := (pow_le_pow_left₀ (by linarith) (by linarith : 1 + A.u ≤ 1 + 6e-8) 4).trans
        (by norm_num)
      have h5 : 0 ≤ (1 + A.u) ^ 4 - 1 := sub_nonneg.2 (one_le_pow₀ (by linarith))
      norm_num
      nlinarith)
  have e : ∀ q : QOp 2, ∀ c : Fin 2, ptr ((0 : Fin 2).succAbove ∘ id) q ![c] ![c] = q ![0, c] ![0, c] + q ![1, c] ![1, c] :=
    fun q c => by
      rw [Function.comp_id, ptr_one]
      have f : ∀ b c : Fin 2, (Fin.insertNth (α := fun _ => Fin 2) 0 b ![c] : Bits 2) = ![b, c] := by decide
      refine (Fin.sum_univ_two _).trans ?_
      rw [f, f]
  refine ⟨t, s, h1, h2, ?_, ?_⟩
  · have h4 := h3 ![0] ![0]
    rw [e, ← hv] at h4
    simpa [Matrix.vecMulVec_apply] using h4
  · have h4 := h3 ![1] ![1]
    rw [e, ← hv] at h4
    simpa [Matrix.vecMulVec_apply] using h4

/-! ## Single precision -/

theorem pow_ten {u : ℝ} (hu0 : 0 ≤ u) (hu : u ≤ 2⁻¹ ^ 24) {k : ℕ} (hk : k ≤ 10) : (1 + u) ^ k - 1 ≤ 6e-7 := by
  have h0 : (1 : ℝ) ≤ 1 + u := by linarith
  have h1 := pow_le_pow_right₀ h0 hk
  have h2 : (1 + u) ^ 10 ≤ (1 + 2⁻¹ ^ 24) ^ 10 := pow_le_pow_left₀ (by linarith) (by linarith) 10
  have h3 : (1 + 2⁻¹ ^ 24 : ℝ) ^ 10 ≤ 1 + 6e-7 := by norm_num
  linarith

theorem length_pow_le {k M N : ℕ} (h : M + k = N) : k + 2 ^ M ≤ 2 ^ N := by
  subst h
  induction k with
  | zero => simp
  | succ k ih =>
    have := Nat.one_le_two_pow (n := M + k)
    rw [← add_assoc, pow_succ]
    omega

/-- C112, single precision, up to 10 qubits, diagonal entries real and not negative: a trace within `3e-5` of one is
accepted, every entry is within `6e-7` times the partial trace of the absolute values, and measuring what is left gives
values within `6.2e-5` of those of the whole; a trace that is off by more than `1.7e-4` is rejected. -/
theorem C112_float32 (A : Arith) (R : TraceRoutines A) (hu : A.u ≤ 2⁻¹ ^ 24) (hN' : N ≤ 10) (rho : Tensor ℂ) (r : QOp N)
    (h : Represents rho r) (hr : ∀ a b, RepC A.fl (r a b)) (hp : ∀ a, 0 ≤ (r a a).re ∧ (r a a).im = 0) (t : ℝ)
    (ht : ∑ a, (r a a).re = t) (l : List (Fin N)) (hl : l.Nodup) (hM : 0 < M) (keep : Fin M → Fin N)
    (hk : Spec.Keeps keep l) :
    (|t - 1| ≤ 3e-5 → ∃ o s, A.partial_trace R rho N (wires l) = .ok o ∧ Represents o s ∧
      (∀ x y, ‖s x y - ptr keep r x y‖ ≤ 6e-7 * (ptr keep (fun a b => ((‖r a b‖ : ℝ) : ℂ)) x y).re) ∧
      ∃ f : Fin M → ℝ, A.measureAny R M o .none = .ok (List.ofFn f) ∧
        ∀ j, |f j - (prob (fun a => (r a a).re) (keep j) 0 - prob (fun a => (r a a).re) (keep j) 1)| ≤ 6.2e-5) ∧
    (1.7e-4 < |t - 1| → A.partial_trace R rho N (wires l) = .error .valueError) := by
  obtain ⟨e1, e2⟩ := diag_sums hp ht
  obtain ⟨g0, g1⟩ := pow_1024 A.u_nonneg hu hN'
  obtain ⟨q0, q1⟩ := pow_four A.u_nonneg hu
  have ht0 : 0 ≤ t := by rw [← ht]; exact Finset.sum_nonneg fun a _ => (hp a).1
  have h0 := A.u_nonneg
  have hu' : A.u ≤ 6e-8 := hu.trans (by norm_num)
  have hγ : ((1 + A.u) ^ (2 ^ N) - 1) * t ≤ 6.11e-5 * t := mul_le_mul_of_nonneg_right g1 ht0
  have hcard := keeps_card hk hl
  constructor
  · intro h1
    have ht1 : t ≤ 1.00003 := by linarith [(abs_le.1 h1).2]
    have hs : (1 + A.u) ^ 4 * (‖(∑ a, r a a) - 1‖ + ((1 + A.u) ^ (2 ^ N) - 1) * ∑ a, ‖r a a‖) ≤ (1 - A.u) * 1e-4 := by
      rw [e1, e2]
      have h2 : |t - 1| + ((1 + A.u) ^ (2 ^ N) - 1) * t ≤ 9.2e-5 := by linarith
      have h3 : (1 + A.u) ^ 4 * (|t - 1| + ((1 + A.u) ^ (2 ^ N) - 1) * t) ≤ (1 + 3e-7) * 9.2e-5 :=
        mul_le_mul q1 h2 (by positivity) (by norm_num)
      linarith
    obtain ⟨o, s, k1, k2, k3⟩ := C112_entries A R rho r h l hl keep hk hs
    obtain ⟨f, k4, k5⟩ := C112_measure A R rho r h hr l hl hM keep hk hs
    rw [k1, Py.ok_bind] at k4
    refine ⟨o, s, k1, k2, fun x y => (k3 x y).trans ?_, f, k4, fun j => (k5 j).trans ?_⟩
    · exact mul_le_mul_of_nonneg_right (pow_ten h0 hu (by omega)) (ptr_absOp_re keep r x y)
    · rw [e1]
      have h2 := pow_le_pow_right₀ (by linarith : 1 ≤ 1 + A.u) (length_pow_le hcard)
      have h3 := mul_le_mul_of_nonneg_right (sub_le_sub_right h2 1) ht0
      exact (h3.trans hγ).trans (by linarith)
  · intro h1
    refine C112_reject A R rho r h (by linarith) ?_ _ _
    rw [e1, e2]
    have h2 : t ≤ 1 + |t - 1| := by linarith [le_abs_self (t - 1)]
    have h3 : 1.0885e-4 ≤ |t - 1| - ((1 + A.u) ^ (2 ^ N) - 1) * t := by linarith
    have h4 : (1 - 3e-7) * 1.0885e-4 ≤ (2 - (1 + A.u) ^ 4) * (|t - 1| - ((1 + A.u) ^ (2 ^ N) - 1) * t) :=
      mul_le_mul (by linarith) h3 (by norm_num) (by linarith)
    linarith

/-- The Bell state, whose entries need no rounding, meets the hypotheses: tracing out the second qubit leaves one half on
the diagonal up to `3e-7`, for any arithmetic and for sums computed one term after the other. -/
example (A : Arith) (hu : A.u ≤ 2⁻¹ ^ 24) : ∃ o s,
    A.partial_trace A.seqTrace (Tensor.ofRows [[1 / 2, 0, 0, 1 / 2], [0, 0, 0, 0], [0, 0, 0, 0], [1 / 2, 0, 0, 1 / 2]]) 2 [1] =
      .ok o ∧ Represents (N := 1) o s ∧ ‖s ![0] ![0] - 1 / 2‖ ≤ 3e-7 := by
  have hb : ∀ a : Bits 2, a = ![0, 0] ∨ a = ![0, 1] ∨ a = ![1, 0] ∨ a = ![1, 1] := by decide
  generalize hr : (Matrix.of fun a b : Bits 2 => if a 0 = a 1 ∧ b 0 = b 1 then (1 / 2 : ℂ) else 0) = r
  have hrep : Represents (N := 2)
      (Tensor.ofRows [[1 / 2, 0, 0, 1 / 2], [0, 0, 0, 0], [0, 0, 0, 0], [1 / 2, 0, 0, 1 / 2]]) r :=
    ⟨rfl, fun a b => by
      rw [← hr]
      rcases hb a with rfl | rfl | rfl | rfl <;> rcases hb b with rfl | rfl | rfl | rfl <;>
        simp [enc, Tensor.ofRows, Tensor.ofFn, Fin.sum_univ_two]⟩
  have hhalf : RepC A.fl (1 / 2 : ℂ) := by
    have h := A.fl_half 1 A.fl_one
    constructor
    · norm_num at h ⊢; exact h
    · have := fl_zero A; norm_num; exact this
  have hentry : ∀ a b : Bits 2, RepC A.fl (r a b) := fun a b => by
    rw [← hr, Matrix.of_apply]
    split
    · exact hhalf
    · exact rep_zero
  have huniv : (Finset.univ : Finset (Bits 2)) = {![0, 0], ![0, 1], ![1, 0], ![1, 1]} := by decide
  have hk : Spec.Keeps ((1 : Fin 2).succAbove ∘ id) [1] := keeps_cons (i := 1) (l := []) ⟨strictMono_id, by simp⟩
  obtain ⟨o, s, h1, h2, h3, -⟩ := (C112_float32 A A.seqTrace hu (by norm_num) _ r hrep hentry
    (fun a => by rw [← hr, Matrix.of_apply]; split <;> norm_num) 1
    (by rw [huniv, ← hr]; simp [Finset.sum_insert]; norm_num) [1] (by simp) (by norm_num) _ hk).1 (by norm_num)
  refine ⟨o, s, h1, h2, ?_⟩
  have e : ∀ q : QOp 2, ptr ((1 : Fin 2).succAbove ∘ id) q ![0] ![0] = q ![0, 0] ![0, 0] + q ![0, 1] ![0, 1] := fun q => by
    rw [Function.comp_id, ptr_one]
    have f : ∀ b : Fin 2, (Fin.insertNth (α := fun _ => Fin 2) 1 b ![0] : Bits 2) = ![0, b] := by decide
    refine (Fin.sum_univ_two _).trans ?_
    rw [f, f]
  have h4 := (h3 ![0] ![0]).trans_eq (congrArg (fun z : ℂ => 6e-7 * z.re) (e _))
  rw [e, ← hr] at h4
  norm_num at h4 ⊢
  exact h4

/-- The identity of two qubits has trace 4 and is rejected. -/
example (A : Arith) (hu : A.u ≤ 2⁻¹ ^ 24) (lst : List ℤ) :
    A.partial_trace A.seqTrace (Tensor.eye 4) 2 lst = .error .valueError := by
  have hrep : Represents (N := 2) (Tensor.eye 4) 1 := ⟨rfl, fun a b => by
    have hb : ∀ a : Bits 2, a = ![0, 0] ∨ a = ![0, 1] ∨ a = ![1, 0] ∨ a = ![1, 1] := by decide
    rcases hb a with rfl | rfl | rfl | rfl <;> rcases hb b with rfl | rfl | rfl | rfl <;>
      simp [enc, Tensor.eye, Tensor.ofFn, Fin.sum_univ_two]⟩
  obtain ⟨q0, q1⟩ := pow_four A.u_nonneg hu
  obtain ⟨g0, g1⟩ := pow_1024 (N := 2) A.u_nonneg hu (by norm_num)
  have hu' : A.u ≤ 6e-8 := hu.trans (by norm_num)
  refine C112_reject A A.seqTrace _ 1 hrep (by linarith) ?_ _ _
  have e1 : ‖(∑ a : Bits 2, (1 : QOp 2) a a) - 1‖ = 3 := by simp; norm_num
  have e2 : ∑ a : Bits 2, ‖(1 : QOp 2) a a‖ = 4 := by simp
  rw [e1, e2]
  generalize (1 + A.u) ^ (2 ^ 2) - 1 = g at *
  have h3 : (2 : ℝ) ≤ 3 - g * 4 := by linarith
  have h4 : (1 / 2 : ℝ) * 2 ≤ (2 - (1 + A.u) ^ 4) * (3 - g * 4) :=
    mul_le_mul (by linarith) h3 (by norm_num) (by linarith)
  linarith

/-- C112, order: the order of the list does not matter, to the last bit. -/
theorem C112_order (A : Arith) (R : TraceRoutines A) (rho : Tensor ℂ) (n : ℤ) (l l' : List ℤ) (h : l.Perm l') :
    A.partial_trace R rho n l = A.partial_trace R rho n l' := by
  have h1 : A.traceChecks R rho n l = A.traceChecks R rho n l' := by
    have e : (l ≠ [] ∧ ∃ x ∈ l, x > n - 1) ↔ (l' ≠ [] ∧ ∃ x ∈ l', x > n - 1) := by
      refine and_congr (not_congr ⟨fun g => ?_, fun g => ?_⟩) ⟨?_, ?_⟩
      · subst g; exact h.symm.eq_nil
      · subst g; exact h.eq_nil
      · rintro ⟨x, hx, hg⟩; exact ⟨x, h.mem_iff.1 hx, hg⟩
      · rintro ⟨x, hx, hg⟩; exact ⟨x, h.mem_iff.2 hx, hg⟩
    unfold Arith.traceChecks
    simp only [e]
  have h2 : l.mergeSort (· ≤ ·) = l'.mergeSort (· ≤ ·) := by
    have p : (l.mergeSort (· ≤ ·)).Perm (l'.mergeSort (· ≤ ·)) :=
      (List.mergeSort_perm _ _).trans (h.trans (List.mergeSort_perm _ _).symm)
    exact p.eq_of_pairwise (fun a b _ _ h1 h2 => le_antisymm h1 h2) (List.pairwise_mergeSort' (· ≤ ·) l)
      (List.pairwise_mergeSort' (· ≤ ·) l')
  unfold Arith.partial_trace
  rw [h1, h2]

example (A : Arith) (R : TraceRoutines A) (rho : Tensor ℂ) :
    A.partial_trace R rho 4 [2, 0, 1] = A.partial_trace R rho 4 [0, 1, 2] :=
  C112_order A R rho 4 _ _ (by decide)

/-! ## The other two functions -/

/-- C112, older version: on a square matrix whose entries are numbers of the arithmetic, `partial_trace_old` returns the
same tensor or raises the same exception as `partial_trace`, for all numbers of qubits and all lists. -/
theorem C112_old (A : Arith) (R : TraceRoutines A) (rho : Tensor ℂ) (d : ℕ) (hs : rho.shape = [d, d])
    (hr : ∀ i j, i < d → j < d → RepC A.fl (rho.get [i, j])) (n : ℤ) (lst : List ℤ) :
    A.partial_trace_old R rho n lst = A.partial_trace R rho n lst := by
  unfold Arith.partial_trace_old Arith.partial_trace
  rw [old_sorted_round R _ hs hr]

/-- C112, `ptrace`: it has no check, and adds `2 ^ Q` matrices one after the other. -/
theorem C112_ptrace (A : Arith) (P Q : ℕ) (rho : Tensor ℂ) (r : QOp (P + Q)) (h : Represents rho r)
    (hr : ∀ a b, RepC A.fl (r a b)) :
    ∃ t s, A.ptrace rho P Q = .ok t ∧ Represents t s ∧ ∀ x y, ‖s x y - ptr (Fin.castAdd Q) r x y‖ ≤
      ((1 + A.u) ^ (2 ^ Q - 1) - 1) * (ptr (Fin.castAdd Q) (fun a b => ((‖r a b‖ : ℝ) : ℂ)) x y).re :=
  ptrace_round h hr

/-- The Bell state: `partial_trace_old` gives what `partial_trace` gives. -/
example (A : Arith) (R : TraceRoutines A) (lst : List ℤ) :
    A.partial_trace_old R (Tensor.ofRows [[1 / 2, 0, 0, 1 / 2], [0, 0, 0, 0], [0, 0, 0, 0], [1 / 2, 0, 0, 1 / 2]]) 2 lst =
      A.partial_trace R (Tensor.ofRows [[1 / 2, 0, 0, 1 / 2], [0, 0, 0, 0], [0, 0, 0, 0], [1 / 2, 0, 0, 1 / 2]]) 2 lst := by
  have hhalf : RepC A.fl (1 / 2 : ℂ) := by
    have h := A.fl_half 1 A.fl_one
    constructor
    · norm_num at h ⊢; exact h
    · have := fl_zero A; norm_num; exact this
  have h0 : RepC A.fl 0 := rep_zero
  refine C112_old A R _ 4 rfl (fun i j hi hj => ?_) 2 lst
  interval_cases i <;> interval_cases j <;> simp only [Tensor.ofRows, Tensor.ofFn] <;> first | exact hhalf | exact h0

/-- Two qubits with a single one: `ptrace` makes one addition and no error larger than `u`. -/
example (A : Arith) : ∃ t s,
    A.ptrace (Tensor.ofRows [[1, 0, 0, 0], [0, 0, 0, 0], [0, 0, 0, 0], [0, 0, 0, 0]]) 1 1 = .ok t ∧
      Represents (N := 1) t s ∧ ‖s ![0] ![0] - 1‖ ≤ A.u := by
  have hb : ∀ a : Bits 2, a = ![0, 0] ∨ a = ![0, 1] ∨ a = ![1, 0] ∨ a = ![1, 1] := by decide
  generalize hr : (Matrix.of fun a b : Bits 2 => if a = 0 ∧ b = 0 then (1 : ℂ) else 0) = r
  have hrep : Represents (N := 2) (Tensor.ofRows [[1, 0, 0, 0], [0, 0, 0, 0], [0, 0, 0, 0], [0, 0, 0, 0]]) r :=
    ⟨rfl, fun a b => by
      rw [← hr]
      rcases hb a with rfl | rfl | rfl | rfl <;> rcases hb b with rfl | rfl | rfl | rfl <;>
        simp [enc, Tensor.ofRows, Tensor.ofFn, Fin.sum_univ_two]⟩
  obtain ⟨t, s, h1, h2, h3⟩ := C112_ptrace A 1 1 _ r hrep fun a b => by
    rw [← hr, Matrix.of_apply]
    split
    · exact rep_one
    · exact rep_zero
  refine ⟨t, s, h1, h2, ?_⟩
  have e : ∀ q : QOp (1 + 1), ptr (Fin.castAdd 1) q ![0] ![0] = q ![0, 0] ![0, 0] + q ![0, 1] ![0, 1] := fun q => by
    rw [ptr_castAdd]
    have f : ∀ b : Bits 1, (Fin.append (![0] : Bits 1) b : Bits (1 + 1)) = ![0, b 0] := by decide
    simp only [f]
    rw [← (Equiv.funUnique (Fin 1) (Fin 2)).symm.sum_comp, Fin.sum_univ_two]
    rfl
  have h4 := (h3 ![0] ![0]).trans_eq (congrArg (fun z : ℂ => ((1 + A.u) ^ (2 ^ 1 - 1) - 1) * z.re) (e _))
  rw [e, ← hr] at h4
  simpa using h4

end QTN.Props
