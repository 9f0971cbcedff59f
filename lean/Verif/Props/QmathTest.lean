import Verif.Model.QmathTest
import Verif.Props.Measure
import Verif.Lemmas.Expval

/-!
# C89: the unit tests of qmath.py
-/

namespace QTN.Props

open QTN QTN.Spec QTN.QmathTest

/-- C89: the Kronecker product of any non-empty list of matrices has the products of the numbers of rows and
of the numbers of columns as its shape. -/
theorem C89_multi_kron_shape (ts : List (Tensor ℂ)) (dims : List (ℕ × ℕ)) (hne : ts ≠ [])
    (h : List.Forall₂ (fun t d => t.shape = [d.1, d.2]) ts dims) :
    ∃ d, multi_kron ts = .ok d ∧ d.shape = [(dims.map Prod.fst).prod, (dims.map Prod.snd).prod] := by
  cases h with
  | nil => exact absurd rfl hne
  | @cons t d ts dims ht hts =>
    refine ⟨_, rfl, ?_⟩
    clear hne
    simp only [List.map_cons, List.prod_cons]
    obtain ⟨m, n⟩ := d
    dsimp only at ht ⊢
    induction hts generalizing t m n with
    | nil => simpa using ht
    | @cons t' d' ts dims ht' hts ih =>
      simp only [List.foldl_cons, List.map_cons, List.prod_cons]
      rw [ih _ _ (Tensor.kron_shape2 ht ht'), mul_assoc, mul_assoc]

/-- C89 (partial: `test_measure` is missing, for which it is false, `C89_test_measure`): the tests of
`multi_kron` and `dag` pass for every outcome of their random numbers. -/
theorem C89_tests_partial (a b c : Tensor ℂ) (ha : a.shape = [2, 2]) (hb : b.shape = [2, 2]) (hc : c.shape = [2, 2]) :
    test_multi_kron a b c = .ok () ∧ test_dag a b = .ok () := by
  constructor
  · obtain ⟨d, e, s⟩ := C89_multi_kron_shape [a, b, c] [(2, 2), (2, 2), (2, 2)] (by simp)
      (.cons ha (.cons hb (.cons hc .nil)))
    unfold test_multi_kron
    rw [e, Py.ok_bind, pyAssert_true (by rw [s]; rfl)]
  · obtain ⟨a', ea, -⟩ := dag_ok ha
    obtain ⟨b', eb, -⟩ := dag_ok hb
    unfold test_dag
    rw [ea, Py.ok_bind, eb, Py.ok_bind]

/-- C89: a call of `measure` by keywords other than its own, or without the number of qubits or the state,
is a TypeError whatever the values are. -/
theorem C89_bad_call (kws : List (String × Val))
    (h : (∃ kw ∈ kws.map Prod.fst, kw ∉ ["n_qubit", "state", "ith"]) ∨ "n_qubit" ∉ kws.map Prod.fst ∨
      "state" ∉ kws.map Prod.fst) : measureKw kws = .error .typeError := by
  have hb : bindKw measureParams kws = .error .typeError := by
    unfold bindKw
    by_cases h1 : ∃ kw ∈ kws.map Prod.fst, kw ∉ measureParams.map Param.name
    · rw [raiseIf_true h1, Py.error_bind]
    · rw [raiseIf_false h1, Py.ok_bind, raiseIf_true]
      rcases h with h | h | h
      · exact absurd h h1
      · exact ⟨⟨"n_qubit", false⟩, by simp [measureParams], rfl, h⟩
      · exact ⟨⟨"state", false⟩, by simp [measureParams], rfl, h⟩
  unfold measureKw
  rw [hb, Py.error_bind]

/-- C89 is false of `test_measure`: the test always fails with a TypeError. -/
theorem C89_test_measure : test_measure = .error .typeError := by
  unfold test_measure
  rw [C89_bad_call _ (.inr (.inl (by simp))), Py.error_bind]

theorem sum_bits_one {M : Type} [AddCommMonoid M] (f : Bits 1 → M) : ∑ a, f a = f (fun _ => 0) + f (fun _ => 1) := by
  rw [← (Equiv.funUnique (Fin 1) (Fin 2)).symm.sum_comp, Fin.sum_univ_two]
  rfl

/-- C89: with the arguments `measure` asks for, the state of the test gives the value the test wants to see:
the expectation value of `Z` in the maximally mixed state, zero. -/
theorem C89_repaired : measureKw [("n_qubit", .int 1), ("state", .tensor rho)] = .ok [0] := by
  have hb : bindKw measureParams [("n_qubit", .int 1), ("state", .tensor rho)] = .ok () := by
    unfold bindKw
    rw [raiseIf_false (by simp [measureParams]), Py.ok_bind, raiseIf_false (by simp [measureParams])]
  have hp : HasProbs (N := 1) rho (fun _ => 1 / 2) := by
    refine .inr ⟨fun i j => if i = j then 1 / 2 else 0, ⟨rfl, fun i j hi hj => ?_⟩, ?_, fun a => by norm_num⟩
    · unfold rho
      rw [Tensor.get_ofFn (by simp at hi hj ⊢; omega)]
      norm_num
    · rw [sum_bits_one]
      norm_num
  have := (C36_measure_partial (N := 1) (by norm_num) rho _ hp).1
  unfold measureKw
  rw [hb, Py.ok_bind]
  simp only [List.lookup]
  refine Eq.trans this ?_
  have h2 : ∀ b : Fin 2, prob (N := 1) (fun _ => 1 / 2) 0 b = 1 / 2 := by
    intro b
    unfold prob
    rw [Finset.sum_filter, sum_bits_one]
    fin_cases b <;> simp
  rw [List.ofFn_succ, List.ofFn_zero, h2, h2, sub_self]

example : (Tensor.eye 2 : Tensor ℂ).shape = [2, 2] := rfl

/-- Three matrices of different shapes. -/
example : List.Forall₂ (fun (t : Tensor ℂ) (d : ℕ × ℕ) => t.shape = [d.1, d.2])
    [Tensor.ofFn [2, 3] (fun _ => 1), Tensor.eye 4, Tensor.ofFn [1, 5] (fun _ => 2)] [(2, 3), (4, 4), (1, 5)] :=
  .cons rfl (.cons rfl (.cons rfl .nil))

end QTN.Props
