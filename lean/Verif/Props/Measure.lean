import Verif.Lemmas.MeasureL
import Verif.Props.Gates

/-! # Properties C36 and C38: measurement and matrix predicates -/

namespace QTN.Props

open QTN QTN.Spec Matrix

variable {N : ℕ}

/-! ## C36 -/

/-- C36 (partial: a single integer `ith` must not be 0): `measure` returns `P(0) - P(1)` of the
requested qubits, in the requested order; all qubits for None. State vectors and density matrices
give the same values.
Missing for the full statement: `ith=0`, for which it is false (`C36_zero_measures_all`). -/
theorem C36_measure_partial (hN : 0 < N) (state : Tensor ℂ) (p : Bits N → ℝ) (h : HasProbs state p) :
    measure N state .none = .ok (List.ofFn (fun i => prob p i 0 - prob p i 1)) ∧
    (∀ i : Fin N, (i : ℕ) ≠ 0 → measure N state (.int (wire i)) = .ok [prob p i 0 - prob p i 1]) ∧
    (∀ ws : List (Fin N), ws ≠ [] → measure N state (.list (wires ws)) =
      .ok (ws.map (fun i => prob p i 0 - prob p i 1))) := by
  refine ⟨?_, fun i hi => ?_, fun ws hw => ?_⟩
  · have := measure_list hN h (List.finRange N)
    rw [wires_finRange, ← List.ofFn_eq_map] at this
    exact this
  · have := measure_list hN h [i]
    unfold measure Zmeasure
    rw [if_neg (by simp [MeasArg.falsy, wire, hi])]
    refine Eq.trans ?_ this
    simp only [wires, List.map_cons, List.map_nil, List.mapM_cons, List.mapM_nil]
    rcases zObservable N (wire i) with e | a <;> rfl
  · have := measure_list hN h ws
    unfold measure Zmeasure
    rw [if_neg (by simp [MeasArg.falsy, wires, hw])]
    exact this

/-- C36: the values lie in `[-1, 1]` when the probabilities are non-negative and sum to one, which they
do for every normalised vector and every density matrix. -/
theorem C36_range (p : Bits N → ℝ) (h0 : ∀ a, 0 ≤ p a) (h1 : ∑ a, p a = 1) (i : Fin N) :
    prob p i 0 - prob p i 1 ∈ Set.Icc (-1) 1 := by
  have hs : prob p i 0 + prob p i 1 = 1 := by
    unfold prob
    rw [Finset.sum_filter, Finset.sum_filter, ← Finset.sum_add_distrib, ← h1]
    refine Finset.sum_congr rfl fun a _ => ?_
    have : a i = 0 ∨ a i = 1 := by
      generalize a i = x
      fin_cases x <;> simp
    rcases this with h | h <;> simp [h]
  have hp : ∀ b, 0 ≤ prob p i b := fun b => Finset.sum_nonneg fun a _ => h0 a
  have := hp 0
  have := hp 1
  constructor <;> linarith

/-- C36: a normalised vector and its projector have the same probabilities, non-negative with sum 1. -/
theorem C36_vector_density (state rho : Tensor ℂ) (psi : ℕ → ℂ) (hs : IsVec state (2 ^ N) psi)
    (hr : IsMat rho (2 ^ N) (fun i j => psi i * star (psi j)))
    (hn : ∑ k ∈ Finset.range (2 ^ N), ‖psi k‖ ^ 2 = 1) :
    ∃ p : Bits N → ℝ, HasProbs state p ∧ HasProbs rho p ∧ (∀ a, 0 ≤ p a) ∧ ∑ a, p a = 1 := by
  have hd : ∀ a : Bits N, psi (enc a) * star (psi (enc a)) = ((‖psi (enc a)‖ ^ 2 : ℝ) : ℂ) := by
    intro a
    rw [Complex.star_def, Complex.mul_conj, Complex.normSq_eq_norm_sq]
  refine ⟨fun a => ‖psi (enc a)‖ ^ 2, .inl ⟨psi, hs, fun _ => rfl⟩, .inr ⟨_, hr, ?_, fun a => ?_⟩,
    fun a => by positivity, by rw [← hn, sum_enc]⟩
  · simp only [hd]
    rw [← Complex.ofReal_sum, ← sum_enc N (fun k => ‖psi k‖ ^ 2), hn]
    norm_num
  · rw [hd, Complex.ofReal_re]

/-- C36 is false for `ith=0`: on two or more qubits the call returns one value per qubit instead of
exactly one value. -/
theorem C36_zero_measures_all (hN : 2 ≤ N) (state : Tensor ℂ) (p : Bits N → ℝ) (h : HasProbs state p) :
    ∃ l, measure N state (.int 0) = .ok l ∧ l.length = N ∧ l.length ≠ 1 ∧
      measure N state (.int 0) = measure N state .none := by
  refine ⟨_, (C36_measure_partial (by omega) state p h).1, by simp, by simp; omega, rfl⟩

/-- C36, error branch: a qubit outside the register raises ValueError. -/
theorem C36_rejects (n i : ℤ) (state : Tensor ℂ) (h : i < 0 ∨ n ≤ i) (h0 : i ≠ 0) :
    measure n state (.int i) = .error .valueError := by
  unfold measure Zmeasure
  rw [if_neg (by simp [MeasArg.falsy, h0])]
  have : zObservable n i = .error .valueError := (C01_rejects n i h 0).2.2.2.1
  simp only [this, Py.error_bind]

/-- A three-qubit vector with unequal probabilities. -/
example : ∃ (state : Tensor ℂ) (p : Bits 3 → ℝ), HasProbs state p ∧ (∀ a, 0 ≤ p a) ∧ 0 < p 0 := by
  refine ⟨Tensor.ofFn [1, 8] (fun x => (x.getD 1 0 + 1 : ℂ)), fun a => ‖((enc a : ℂ) + 1)‖ ^ 2,
    .inl ⟨fun k => (k : ℂ) + 1, .inr (.inl ⟨rfl, fun i hi => ?_⟩), fun _ => rfl⟩, fun a => by positivity, ?_⟩
  · rw [Tensor.get_ofFn (by simp at hi ⊢; omega)]; simp
  · simp [enc]

example : ∃ (rho : Tensor ℂ) (p : Bits 1 → ℝ), HasProbs rho p ∧ (∀ a, 0 ≤ p a) ∧ ∑ a, p a = 1 := by
  have hs : ∀ f : Bits 1 → ℂ, ∑ a, f a = f 0 + f 1 := by
    intro f
    rw [← (Equiv.funUnique (Fin 1) (Fin 2)).symm.sum_comp]
    simp [Fin.sum_univ_two]
    congr 2
  refine ⟨Tensor.smul (1 / 2) (Tensor.eye 2), fun _ => 1 / 2,
    .inr ⟨fun i j => if i = j then 1 / 2 else 0, ⟨rfl, fun i j hi hj => ?_⟩, ?_, fun a => ?_⟩, fun a => by norm_num, ?_⟩
  · rw [Tensor.smul_get, Tensor.eye_get (by simpa using hi) (by simpa using hj)]; simp
  · rw [hs]; norm_num
  · norm_num
  · simp

end QTN.Props
