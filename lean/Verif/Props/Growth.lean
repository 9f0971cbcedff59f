import Verif.Lemmas.Growth
import Verif.Props.Frame

/-! # Property C90: how fast the bonds of a matrix product state grow -/

namespace QTN.Props

open QTN QTN.Spec

variable {N : ℕ}

/-- C90: after a circuit every bond is at most the product of the bounds of its operations times the bond
before. -/
theorem C90_growth {svd : SVDOracle} (hv : ValidSVD svd) (l : List (Item N)) (h : ∀ it ∈ l, it.WF)
    (hc : ∀ it ∈ l, HasTN it) (ops : List Op) (hops : l.mapM buildItem = .ok ops) (D : ℕ → ℕ)
    (mps : List (Tensor ℂ)) (hm : HasBonds N D mps) :
    ReturnsOr (fun mps' => ∃ D', HasBonds N D' mps' ∧ ∀ k ≤ N, D' k ≤ (l.map fun it => it.growth k).prod * D k)
      ((circ N ops).TN_evolution svd mps) :=
  circuit_grows hv l h (fun it hit => hasTN_iff (hc it hit)) hops (circ_nqubits N ops) (circ_gate N ops) mps D hm

/-- Twenty qubits of bond dimension 1: a layer, a CNOT and a Toffoli gate on neighbours and a ring; the bond between
qubits 0 and 1 grows to at most 128, although up to 2^10 is possible in the middle of the chain. -/
example : (∀ it ∈ [Item.hlayer (List.finRange 20), .gate (.cnot (1 : Fin 20) 0), .gate (.toffoli 2 0 1),
      .ring (List.finRange 20)], it.WF ∧ HasTN it) ∧
    (([Item.hlayer (List.finRange 20), .gate (.cnot (1 : Fin 20) 0), .gate (.toffoli 2 0 1),
      .ring (List.finRange 20)] : List (Item 20)).map fun it => it.growth 1).prod = 128 ∧
    HasBonds 20 (fun _ => 1) (List.replicate 20 (Tensor.ofFn [2, 1, 1] fun _ => 1)) := by
  refine ⟨?_, ?_, ?_⟩
  · intro it hit
    simp only [List.mem_cons, List.not_mem_nil, or_false] at hit
    rcases hit with rfl | rfl | rfl | rfl
    · exact ⟨⟨by omega, List.nodup_finRange 20⟩, trivial⟩
    · exact ⟨show (1 : Fin 20) ≠ 0 by decide, trivial⟩
    · exact ⟨⟨by decide, by decide, by decide⟩, trivial⟩
    · exact ⟨⟨List.nodup_finRange 20, by simp⟩, rfl⟩
  · simp [Item.growth, Instr.growth, pairGrowth]
  · refine ⟨by simp, rfl, rfl, fun _ => Nat.one_pos, fun i hi => ?_⟩
    rw [List.getElem_replicate]
    rfl

/-- A circuit of one-qubit operations and of controlled gates between neighbours. -/
def Neighbours : Item N → Prop
  | .layer _ _ _ | .hlayer _ => True
  | .gate (.cnot p q) | .gate (.cz p q) | .gate (.cphase _ p q) | .gate (.cu3 _ _ _ p q) =>
    (p : ℕ) = q + 1 ∨ (q : ℕ) = p + 1
  | .gate ins => ins.qubits.length = 1
  | _ => False

theorem neighbours_growth {it : Item N} (h : Neighbours it) (k : ℕ) :
    it.growth k ≤ 2 ∧ (¬ it.crosses k → it.growth k = 1) := by
  have pair : ∀ {p q : Fin N}, ((p : ℕ) = q + 1 ∨ (q : ℕ) = p + 1) →
      pairGrowth 2 (min (p : ℕ) q) (max (p : ℕ) q) k ≤ 2 ∧
      (¬ (∃ a ∈ [p, q], ∃ b ∈ [p, q], (a : ℕ) < k ∧ k ≤ b ∧ ¬ False) →
        pairGrowth 2 (min (p : ℕ) q) (max (p : ℕ) q) k = 1) := by
    intro p q hpq
    unfold pairGrowth
    refine ⟨by split_ifs <;> omega, fun hn => ?_⟩
    have h1 : ¬ ((p : ℕ) < k ∧ k ≤ q) := fun ⟨a, b⟩ => hn ⟨p, by simp, q, by simp, a, b, id⟩
    have h2 : ¬ ((q : ℕ) < k ∧ k ≤ p) := fun ⟨a, b⟩ => hn ⟨q, by simp, p, by simp, a, b, id⟩
    split_ifs <;> omega
  have one : (1 : ℕ) ≤ 2 ∧ (¬ it.crosses k → (1 : ℕ) = 1) := ⟨by omega, fun _ => rfl⟩
  cases it with
  | gate ins =>
    cases ins with
    | cnot p q => exact pair h
    | cz p q => exact pair h
    | cphase _ p q => exact pair h
    | cu3 _ _ _ p q => exact pair h
    | swap p q => exact absurd h (by simp [Neighbours, Instr.qubits])
    | toffoli a b t => exact absurd h (by simp [Neighbours, Instr.qubits])
    | _ => exact one
  | layer _ _ _ => exact one
  | hlayer _ => exact one
  | ring _ => exact h.elim
  | ringDag _ => exact h.elim
  | ring2 _ => exact h.elim
  | basic _ _ _ => exact h.elim

open Classical in
/-- C90: with controlled gates between neighbours only, every bond grows by at most a factor 2 for each gate across
it. -/
theorem C90_neighbours {svd : SVDOracle} (hv : ValidSVD svd) (l : List (Item N)) (h : ∀ it ∈ l, it.WF)
    (hc : ∀ it ∈ l, HasTN it) (hnb : ∀ it ∈ l, Neighbours it) (ops : List Op) (hops : l.mapM buildItem = .ok ops)
    (D : ℕ → ℕ) (mps : List (Tensor ℂ)) (hm : HasBonds N D mps) :
    ReturnsOr (fun mps' => ∃ D', HasBonds N D' mps' ∧
        ∀ k ≤ N, D' k ≤ 2 ^ (l.filter fun it => it.crosses k).length * D k)
      ((circ N ops).TN_evolution svd mps) := by
  refine (C90_growth hv l h hc ops hops D mps hm).mono fun m ⟨D', hD', hk⟩ => ⟨D', hD', fun k hkN =>
    (hk k hkN).trans (Nat.mul_le_mul_right _ ?_)⟩
  rename_i hx
  clear hk hx hops hc h
  induction l with
  | nil => simp
  | cons it l ih =>
    have hit := neighbours_growth (hnb it (by simp)) k
    have := ih fun j hj => hnb j (by simp [hj])
    rw [List.map_cons, List.prod_cons]
    by_cases e : it.crosses k
    · rw [List.filter_cons_of_pos (by simpa using e), List.length_cons, pow_succ, mul_comm _ 2]
      exact Nat.mul_le_mul hit.1 this
    · rw [List.filter_cons_of_neg (by simpa using e), hit.2 e, one_mul]
      exact this

example : ∀ it ∈ [Item.gate (.h (0 : Fin 3)), .gate (.cnot 0 1), .gate (.cz 2 1)],
    it.WF ∧ HasTN it ∧ Neighbours it := by
  intro it hit
  simp only [List.mem_cons, List.not_mem_nil, or_false] at hit
  rcases hit with rfl | rfl | rfl
  · exact ⟨trivial, trivial, rfl⟩
  · exact ⟨show (0 : Fin 3) ≠ 1 by decide, trivial, .inr rfl⟩
  · exact ⟨show (2 : Fin 3) ≠ 1 by decide, trivial, .inl rfl⟩

/-- C90: a product state, converted by `StateVec2MPS` and evolved, has bonds of at most the product of the bounds. -/
theorem C90_product {svd : SVDOracle} (hv : ValidSVD svd) (hN : 0 < N) (psi : Tensor ℂ)
    (hs : psi.shape = [1, 2 ^ N]) (f : Fin N → Fin 2 → ℂ)
    (hf : ∀ a : Bits N, psi.get [0, enc a] = ∏ i, f i (a i)) (l : List (Item N)) (h : ∀ it ∈ l, it.WF)
    (hc : ∀ it ∈ l, HasTN it) (ops : List Op) (hops : l.mapM buildItem = .ok ops) :
    ReturnsOr (fun mps' => ∃ D', HasBonds N D' mps' ∧ ∀ k ≤ N, D' k ≤ (l.map fun it => it.growth k).prod)
      (do let mps ← StateVec2MPS svd psi N
          (circ N ops).TN_evolution svd mps) := by
  intro s
  rcases C56_from_vector hv hN psi hs s with ⟨mps, s1, e, -⟩ | ⟨s1, e⟩
  · obtain ⟨hl, hsh⟩ := C85_product hv hN psi hs f hf s s1 mps e
    rw [TNM.bind_ok e]
    have := C90_growth hv l h hc ops hops (fun _ => 1) mps ⟨hl, rfl, rfl, fun _ => Nat.one_pos,
      fun i hi => hsh _ (List.getElem_mem hi)⟩ s1
    simpa only [mul_one] using this
  · exact .inr ⟨s1, TNM.bind_error e _⟩

/-- C90: the bound for a CNOT between neighbours is reached: from bond 1 to bond 2. -/
theorem C90_reached {svd : SVDOracle} (hv : ValidSVD svd) :
    ∃ (mps mps' s' : List (Tensor ℂ)) (D D' : ℕ → ℕ), HasBonds 2 D mps ∧
      (circ 2 [.gate (mkCnot 2 (.list [0, 1]))]).TN_evolution svd mps [] = (.ok mps', s') ∧ HasBonds 2 D' mps' ∧
      [Item.gate (.cnot (0 : Fin 2) 1)].mapM buildItem = .ok [.gate (mkCnot 2 (.list [0, 1]))] ∧
      D' 1 = (Item.gate (.cnot (0 : Fin 2) 1)).growth 1 * D 1 := by
  obtain ⟨hb, mps', s', D', e, hD', h2⟩ := C86_crossed hv (p := 1) (q := 1) (by norm_num) (by norm_num)
  exact ⟨_, mps', s', _, D', hb, e, hD', rfl, by rw [h2]; simp [Item.growth, Instr.growth, pairGrowth]⟩

example : ∃ svd, ValidSVD svd := exists_validSVD

end QTN.Props
