import Verif.Lemmas.Frame
import Verif.Props.Schmidt

/-! # Property C86: operations on matrix product states are local -/

namespace QTN.Props

open QTN QTN.Spec Matrix

variable {N : ℕ}

/-- C86: whatever the SVD routine returns and whatever tensors the list contains, an operation that
returns leaves all sites outside the span of its qubits as they were. -/
theorem C86_sites (svd : SVDOracle) (it : Item N) (h : it.WF) (o : Op) (ho : buildItem it = .ok o)
    (mps mps' s s' : List (Tensor ℂ)) (e : o.TN_operation svd mps s = (.ok mps', s')) :
    SameOutside it.spans mps mps' := item_frame it h ho mps s mps' s' e

/-- A gate on qubit 0 of two, on `(|0⟩ + 2|1⟩)|0⟩`, which returns. -/
example : ∃ svd o mps' s', ValidSVD svd ∧ buildItem (Item.gate (.h (0 : Fin 2))) = .ok o ∧
    o.TN_operation svd [site1 1 2, site1 1 0] [] = (.ok mps', s') ∧ ¬ (Item.gate (.h (0 : Fin 2))).spans 1 := by
  obtain ⟨svd, hv⟩ := exists_validSVD
  obtain ⟨o, ho, hf⟩ := single_item svd (Item.gate (.h (0 : Fin 2))) trivial trivial
  obtain ⟨mps', e, -⟩ := hf _ _ (site1_pair 1 2 1 0)
  refine ⟨svd, o, mps', [], hv, ho, e [], ?_⟩
  rintro ⟨p, hp, q, hq, h1, h2, -⟩
  simp only [Item.qubits, Instr.qubits, List.mem_singleton] at hq
  subst hq
  simp at h2

/-- C86: a circuit leaves all sites outside the spans of its operations as they were. -/
theorem C86_circuit_sites (svd : SVDOracle) (l : List (Item N)) (h : ∀ it ∈ l, it.WF) (ops : List Op)
    (hops : l.mapM buildItem = .ok ops) (mps mps' s s' : List (Tensor ℂ))
    (e : (circ N ops).TN_evolution svd mps s = (.ok mps', s')) :
    SameOutside (fun j => ∃ it ∈ l, it.spans j) mps mps' :=
  circuit_frame l h hops (circ_gate N ops) mps s mps' s' e

/-- The circuit of one such gate, which returns. -/
example : ∃ svd ops mps' s', ValidSVD svd ∧ [Item.gate (.h (0 : Fin 2))].mapM buildItem = .ok ops ∧
    (circ 2 ops).TN_evolution svd [site1 1 2, site1 1 0] [] = (.ok mps', s') := by
  obtain ⟨svd, hv⟩ := exists_validSVD
  obtain ⟨o, ho, hf⟩ := single_item svd (Item.gate (.h (0 : Fin 2))) trivial trivial
  obtain ⟨mps', e, -⟩ := hf _ _ (site1_pair 1 2 1 0)
  have hs : o.supportTN = true := by cases ho; rfl
  refine ⟨svd, [o], mps', [], hv, by rw [List.mapM_cons, ho, Py.ok_bind]; rfl, ?_⟩
  unfold Circuit.TN_evolution
  rw [raiseIf_false (by simp [circ_nqubits]), TNM.lift_ok_bind, circ_gate, List.foldlM_cons, if_pos hs,
    TNM.bind_ok (e [])]
  rfl

/-- C86: every bond which no operation of the circuit crosses keeps its dimension. -/
theorem C86_bonds {svd : SVDOracle} (hv : ValidSVD svd) (l : List (Item N)) (h : ∀ it ∈ l, it.WF)
    (hc : ∀ it ∈ l, HasTN it) (ops : List Op) (hops : l.mapM buildItem = .ok ops) (D : ℕ → ℕ)
    (mps : List (Tensor ℂ)) (hm : HasBonds N D mps) :
    ReturnsOr (fun mps' => ∃ D', HasBonds N D' mps' ∧ ∀ k ≤ N, (∀ it ∈ l, ¬ it.crosses k) → D' k = D k)
      ((circ N ops).TN_evolution svd mps) :=
  circuit_bonds hv l h (fun it hit => hasTN_iff (hc it hit)) hops (circ_nqubits N ops) (circ_gate N ops) mps hm

/-- Four qubits; no operation crosses the cut in the middle, the outer cuts are crossed. -/
example : ∃ svd, ValidSVD svd ∧ (∀ it ∈ [Item.gate (.cnot (1 : Fin 4) 0), .hlayer (List.finRange 4), .gate (.swap 2 3)],
      it.WF ∧ HasTN it ∧ ¬ it.crosses 2) ∧ (Item.gate (.swap (2 : Fin 4) 3)).crosses 3 ∧
    HasBonds 4 (fun k => if k = 2 then 3 else 1) [Tensor.ofFn [2, 1, 1] (fun _ => 1), Tensor.ofFn [2, 1, 3] (fun _ => 1),
      Tensor.ofFn [2, 3, 1] (fun _ => 1), Tensor.ofFn [2, 1, 1] (fun _ => 1)] := by
  obtain ⟨svd, hv⟩ := exists_validSVD
  refine ⟨svd, hv, ?_, ⟨2, by simp [Item.qubits, Instr.qubits], 3, by simp [Item.qubits, Instr.qubits],
    by decide, by decide, fun h => h⟩, rfl, rfl, rfl, ?_, ?_⟩
  · intro it hit
    simp only [List.mem_cons, List.not_mem_nil, or_false] at hit
    rcases hit with rfl | rfl | rfl
    · refine ⟨show (1 : Fin 4) ≠ 0 by decide, trivial, ?_⟩
      rintro ⟨p, hp, q, hq, h1, h2, -⟩
      simp only [Item.qubits, Instr.qubits, List.mem_cons, List.not_mem_nil, or_false] at hq
      rcases hq with rfl | rfl <;> simp at h2
    · exact ⟨⟨by omega, List.nodup_finRange 4⟩, trivial, fun ⟨_, _, _, _, _, _, h⟩ => h trivial⟩
    · refine ⟨show (2 : Fin 4) ≠ 3 by decide, trivial, ?_⟩
      rintro ⟨p, hp, q, hq, h1, h2, -⟩
      simp only [Item.qubits, Instr.qubits, List.mem_cons, List.not_mem_nil, or_false] at hp
      rcases hp with rfl | rfl <;> simp at h1
  · intro i; beta_reduce; split <;> omega
  · intro i hi
    have : i < 4 := hi
    interval_cases i <;> rfl

/-- C86: a product state, converted by `StateVec2MPS` and evolved, has dimension 1 at every bond which no
operation crosses. -/
theorem C86_product {svd : SVDOracle} (hv : ValidSVD svd) (hN : 0 < N) (psi : Tensor ℂ)
    (hs : psi.shape = [1, 2 ^ N]) (f : Fin N → Fin 2 → ℂ)
    (hf : ∀ a : Bits N, psi.get [0, enc a] = ∏ i, f i (a i)) (l : List (Item N)) (h : ∀ it ∈ l, it.WF)
    (hc : ∀ it ∈ l, HasTN it) (ops : List Op) (hops : l.mapM buildItem = .ok ops) :
    ReturnsOr (fun mps' => ∃ D', HasBonds N D' mps' ∧ ∀ k ≤ N, (∀ it ∈ l, ¬ it.crosses k) → D' k = 1)
      (do let mps ← StateVec2MPS svd psi N
          (circ N ops).TN_evolution svd mps) := by
  intro s
  rcases C56_from_vector hv hN psi hs s with ⟨mps, s1, e, -⟩ | ⟨s1, e⟩
  · obtain ⟨hl, hsh⟩ := C85_product hv hN psi hs f hf s s1 mps e
    rw [TNM.bind_ok e]
    exact C86_bonds hv l h hc ops hops (fun _ => 1) mps ⟨hl, rfl, rfl, fun _ => Nat.one_pos,
      fun i hi => hsh _ (List.getElem_mem hi)⟩ s1
  · exact .inr ⟨s1, TNM.bind_error e _⟩

/-- `|00⟩` is a product state. -/
example : ∀ a : Bits 2, (bellVec 1 0).get [0, enc a] = ∏ i, (fun (_ : Fin 2) (x : Fin 2) => if x = 0 then (1 : ℂ) else 0) i (a i) := by
  intro a
  obtain ⟨x, y, rfl⟩ : ∃ x y, a = ![x, y] := ⟨a 0, a 1, by ext i; fin_cases i <;> rfl⟩
  rw [Fin.prod_univ_two]
  fin_cases x <;> fin_cases y
  · exact (show (bellVec 1 0).get [0, 0] = 1 from Tensor.get_ofFn rfl).trans (by simp)
  · exact (show (bellVec 1 0).get [0, 1] = 0 from Tensor.get_ofFn rfl).trans (by simp)
  · exact (show (bellVec 1 0).get [0, 2] = 0 from Tensor.get_ofFn rfl).trans (by simp)
  · exact (show (bellVec 1 0).get [0, 3] = 0 from Tensor.get_ofFn rfl).trans (by simp)

/-- C86: a bond that is crossed can grow: CNOT turns `(p|0⟩ + q|1⟩)|0⟩`, whose bond has dimension 1,
into sites with a bond of dimension 2. -/
theorem C86_crossed {svd : SVDOracle} (hv : ValidSVD svd) {p q : ℂ} (hp : 1e-8 < ‖p‖) (hq : 1e-8 < ‖q‖) :
    HasBonds 2 (fun _ => 1) [site1 p q, site1 1 0] ∧
    ∃ mps' s' D', (circ 2 [.gate (mkCnot 2 (.list [0, 1]))]).TN_evolution svd [site1 p q, site1 1 0] [] = (.ok mps', s') ∧
      HasBonds 2 D' mps' ∧ D' 1 = 2 := by
  have hp0 : p ≠ 0 := fun h => by rw [h, norm_zero] at hp; norm_num at hp
  have hq0 : q ≠ 0 := fun h => by rw [h, norm_zero] at hq; norm_num at hq
  have hw : ∀ it ∈ [Item.gate (.cnot (0 : Fin 2) 1)], it.WF := by
    simp only [List.mem_singleton, forall_eq]
    exact (show (0 : Fin 2) ≠ 1 by decide)
  have hc : ∀ it ∈ [Item.gate (.cnot (0 : Fin 2) 1)], HasTN it := by
    simp only [List.mem_singleton, forall_eq]
    trivial
  have hb : HasBonds 2 (fun _ => 1) [site1 p q, site1 1 0] := ⟨rfl, rfl, rfl, fun _ => Nat.one_pos, fun i hi => by
    have : i < 2 := hi
    interval_cases i <;> rfl⟩
  refine ⟨hb, ?_⟩
  have hops : [Item.gate (.cnot (0 : Fin 2) 1)].mapM buildItem = .ok [.gate (mkCnot 2 (.list [0, 1]))] := rfl
  obtain ⟨ops, hops', hev⟩ := C22_evolution hv (by omega) _ hw hc
  rw [hops] at hops'
  cases hops'
  have hm := site1_pair p q 1 0
  have hrun : (circ 2 [.gate (mkCnot 2 (.list [0, 1]))]).TN_evolution svd [site1 p q, site1 1 0] [] =
      (mkCnot 2 (.list [0, 1])).TN_operation svd [site1 p q, site1 1 0] [] := by
    unfold Circuit.TN_evolution
    rw [raiseIf_false (by simp [circ_nqubits]), TNM.lift_ok_bind, circ_gate, List.foldlM_cons]
    show ((((mkCnot 2 (.list [0, 1])).TN_operation svd _) >>= fun a => pure a) []) = _
    rw [TNM.bind_pure]
  rcases hev _ _ [] (holds_iff.2 hm) (by rw [hrun]; exact cnot_run_lossless hv hp hq) with
    ⟨mps', s', -, -, e, hh, -⟩ | ⟨h0, -⟩
  · refine ⟨mps', s', ?_⟩
    have hbd : BoundedMPS 2 [site1 p q, site1 1 0] := ⟨rfl, fun _ => 1, rfl, rfl, fun _ => Nat.one_pos,
      fun _ _ => Nat.one_le_two_pow, hb.2.2.2.2⟩
    rcases C56_bound hv _ hw hc _ hops _ hbd [] with ⟨m, t, e', hl, D', d0, d2, hpos, hle, hsh⟩ | ⟨t, e'⟩
    · rw [e] at e'
      obtain ⟨rfl, -⟩ : mps' = m ∧ s' = t := by simpa using e'
      refine ⟨D', e, ⟨hl, d0, d2, hpos, hsh⟩, le_antisymm (by simpa using hle 1 (by omega)) ?_⟩
      refine le_trans ?_ (C85_lower_bound hh hsh (k := 1) (by omega))
      refine (schmidt_bell hp0 hq0).trans (le_of_eq (congrArg (fun v : QState 2 => schmidtRank v 1) (funext fun a => Eq.symm ?_)))
      obtain ⟨x, y, rfl⟩ : ∃ x y, a = ![x, y] := ⟨a 0, a 1, by ext i; fin_cases i <;> rfl⟩
      simp only [Matrix.mulVec, dotProduct]
      rw [sum_bits2]
      fin_cases x <;> fin_cases y
      · refine Eq.trans ?_ (show (bellVec p q).get [0, 0] = p from Tensor.get_ofFn rfl).symm
        simp [circuitOp, timeOrdered, Item.op, Instr.op, controlled, onQubit, Spec.X, Fin.forall_fin_two]
      · refine Eq.trans ?_ (show (bellVec p q).get [0, 1] = 0 from Tensor.get_ofFn rfl).symm
        simp [circuitOp, timeOrdered, Item.op, Instr.op, controlled, onQubit, Spec.X, Fin.forall_fin_two]
      · refine Eq.trans ?_ (show (bellVec p q).get [0, 2] = 0 from Tensor.get_ofFn rfl).symm
        simp [circuitOp, timeOrdered, Item.op, Instr.op, controlled, onQubit, Spec.X, Fin.forall_fin_two]
      · refine Eq.trans ?_ (show (bellVec p q).get [0, 3] = q from Tensor.get_ofFn rfl).symm
        simp [circuitOp, timeOrdered, Item.op, Instr.op, controlled, onQubit, Spec.X, Fin.forall_fin_two]
    · rw [e] at e'; simp at e'
  · have := congrFun h0 ![0, 0]
    simp [hp0] at this

example : (1e-8 : ℝ) < ‖(1 : ℂ)‖ ∧ (1e-8 : ℝ) < ‖(-2 : ℂ)‖ := by norm_num

end QTN.Props
