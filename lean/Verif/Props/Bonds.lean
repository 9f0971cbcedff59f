import Verif.Lemmas.Bonds
import Verif.Props.Expect

/-! # Property C56: bond dimensions and the only exception of the tensor-network path -/

namespace QTN.Props

open QTN QTN.Spec Matrix

variable {N : ℕ}

/-- C56: whatever singular values are cut off, a circuit of valid operations with a working `TN_operation`
turns every matrix product state of `N` sites into a matrix product state of `N` sites, or raises
RuntimeError; no other exception and no misshapen result is possible. -/
theorem C56_evolution {svd : SVDOracle} (hv : ValidSVD svd) (l : List (Item N)) (h : ∀ it ∈ l, it.WF)
    (hc : ∀ it ∈ l, HasTN it) (ops : List Op) (hops : l.mapM buildItem = .ok ops)
    (mps : List (Tensor ℂ)) (hm : ValidMPS N mps) :
    ReturnsOr (ValidMPS N) ((circ N ops).TN_evolution svd mps) :=
  (circuit_keeps bondClosed_pos hv l h (fun it hit => hasTN_iff (hc it hit)) hops (circ_nqubits N ops)
    (circ_gate N ops) mps (bonds_valid.2 hm)).mono fun _ => bonds_valid.1

/-- C56: the bond dimensions never exceed the largest Schmidt rank a state can have: if the bond to the
left of site `i` has dimension at most `2 ^ min i (N-i)` at the start, the same holds at the end. -/
theorem C56_bound {svd : SVDOracle} (hv : ValidSVD svd) (l : List (Item N)) (h : ∀ it ∈ l, it.WF)
    (hc : ∀ it ∈ l, HasTN it) (ops : List Op) (hops : l.mapM buildItem = .ok ops)
    (mps : List (Tensor ℂ)) (hm : BoundedMPS N mps) :
    ReturnsOr (BoundedMPS N) ((circ N ops).TN_evolution svd mps) :=
  circuit_keeps bondClosed_max hv l h (fun it hit => hasTN_iff (hc it hit)) hops (circ_nqubits N ops)
    (circ_gate N ops) mps hm

/-- C56: `StateVec2MPS` of any row of `2^N` entries returns a matrix product state within these bounds, or
raises RuntimeError. -/
theorem C56_from_vector {svd : SVDOracle} (hv : ValidSVD svd) (hN : 0 < N) (psi : Tensor ℂ)
    (hs : psi.shape = [1, 2 ^ N]) : ReturnsOr (BoundedMPS N) (StateVec2MPS svd psi N) :=
  sv2mps_bounded hv hN hs

theorem bounded_valid {mps : List (Tensor ℂ)} (h : BoundedMPS N mps) : ValidMPS N mps := by
  obtain ⟨hl, D, h0, hN, hp, -, hs⟩ := h
  exact ⟨hl, D, h0, hN, hp, hs⟩

/-- C56: `cir_expectation` with the default `TN=True` returns a number or raises RuntimeError, for every
input row, every observable and every SVD routine that keeps its contract. -/
theorem C56_expectation {svd : SVDOracle} (hv : ValidSVD svd) (hN : 0 < N) (l : List (Item N))
    (h : ∀ it ∈ l, it.WF) (hc : ∀ it ∈ l, HasTN it) (ops : List Op) (hops : l.mapM buildItem = .ok ops)
    (init M : Tensor ℂ) (hi : init.shape = [1, 2 ^ N]) (hM : M.shape = [2 ^ N, 2 ^ N]) :
    ReturnsOr (fun _ => True) ((circ N ops).cir_expectation svd init M true) := by
  have hr := row_of_shape (N := N) hi
  have hM' := rep_of_shape hM
  by_cases hch : (circ N ops).TN_check = true
  · rw [cir_expectation_checks svd _ (by rw [hi, circ_nqubits]) hM, if_pos ⟨hch, rfl⟩, row_view_row hr,
      TNM.lift_ok_bind, circ_nqubits]
    refine (C56_from_vector hv hN init hi).bind fun mps hm =>
      (C56_evolution hv l h hc ops hops mps (bounded_valid hm)).bind fun mps' hm' => ?_
    obtain ⟨v, hv'⟩ := hm'.holds
    obtain ⟨sv, e, hsv⟩ := mps2sv_rep (holds_iff.1 hv') hN
    rw [e, TNM.lift_ok_bind]
    exact Spec.ReturnsOr.lift (quadForm_row hsv hM') trivial
  · intro s
    obtain ⟨ops', hops', hU, -⟩ := C13_items N l h
    rw [hops] at hops'; cases hops'
    exact .inl ⟨_, _, cir_expectation_matrix svd _ (circ_nqubits N ops) hU hr hM' true
      (fun e => hch e.1) s, trivial⟩

/-- C56: the RuntimeError does happen, on a valid circuit, for the zero vector. -/
theorem C56_zero_input {svd : SVDOracle} (hv : ValidSVD svd) (hN : 2 ≤ N) (s : List (Tensor ℂ)) :
    ∃ s', (circ N []).cir_expectation svd (Tensor.zeros [1, 2 ^ N]) (Tensor.eye (2 ^ N)) true s =
      (.error .runtimeError, s') := by
  have hi : (Tensor.zeros [1, 2 ^ N] : Tensor ℂ).shape = [1, 2 ^ N] := rfl
  rw [cir_expectation_checks svd _ (by rw [hi, circ_nqubits]) (k := 2 ^ N) rfl, if_pos ⟨rfl, rfl⟩,
    row_view_row (row_of_shape (N := N) hi), TNM.lift_ok_bind, circ_nqubits]
  obtain ⟨s', e⟩ := C16_zero_raises hv hN (Tensor.zeros [1, 2 ^ N]) hi (fun x => by
    by_cases hx : x < 2 ^ N
    · exact Tensor.get_ofFn (by simp [hx])
    · exact Tensor.get_out (by rw [hi]; simp [inB, hx])) s
  exact ⟨s', TNM.bind_error e _⟩

/-- A state of three qubits with the largest allowed bond dimensions, and a circuit on it. -/
example : ∃ svd, ValidSVD svd ∧
    BoundedMPS 3 [Tensor.ofFn [2, 1, 2] (fun i => (i.getD 2 0 : ℂ)), Tensor.ofFn [2, 2, 2] (fun _ => 1),
      Tensor.ofFn [2, 2, 1] (fun _ => 1)] ∧
    (∀ it ∈ [Item.gate (.toffoli (2 : Fin 3) 0 1), .ring (List.finRange 3), .gate (.cnot 2 0)],
      it.WF ∧ HasTN it) ∧
    ∃ ops, [Item.gate (.toffoli (2 : Fin 3) 0 1), .ring (List.finRange 3), .gate (.cnot 2 0)].mapM buildItem =
      .ok ops := by
  obtain ⟨svd, hv⟩ := exists_validSVD
  have hw : ∀ it ∈ [Item.gate (.toffoli (2 : Fin 3) 0 1), .ring (List.finRange 3), .gate (.cnot 2 0)],
      it.WF ∧ HasTN it := by
    intro it hit
    simp only [List.mem_cons, List.not_mem_nil, or_false] at hit
    rcases hit with rfl | rfl | rfl
    · exact ⟨⟨by decide, by decide, by decide⟩, trivial⟩
    · exact ⟨⟨List.nodup_finRange 3, by simp⟩, rfl⟩
    · exact ⟨show (2 : Fin 3) ≠ 0 by decide, trivial⟩
  refine ⟨svd, hv, ⟨rfl, fun i => if i = 0 ∨ 3 ≤ i then 1 else 2, rfl, rfl, ?_, ?_, ?_⟩, hw, ?_⟩
  · intro i; beta_reduce; split <;> omega
  · intro i hi
    interval_cases i <;> decide
  · intro i hi
    have : i < 3 := hi
    interval_cases i <;> rfl
  · obtain ⟨ops, e, -⟩ := C13_items 3 _ fun it hit => (hw it hit).1
    exact ⟨ops, e⟩

end QTN.Props
