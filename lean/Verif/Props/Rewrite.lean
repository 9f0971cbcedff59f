import Verif.Lemmas.Rewrite
import Verif.Props.Paths
import Verif.Props.Expect
import Mathlib.Analysis.SpecialFunctions.Trigonometric.Angle

/-! # Property C95: circuits may be rewritten by the usual identities -/

namespace QTN.Props

open QTN QTN.Spec Matrix

variable {N : ℕ}

/-- C95: both sides of a law are circuits the library accepts, and `U()` returns the same tensor for both. -/
theorem C95_laws {a b : List (Instr N)} (r : Rule a b) :
    ∃ ops ops' U, (a.map Item.gate).mapM buildItem = .ok ops ∧ (b.map Item.gate).mapM buildItem = .ok ops' ∧
      (circ N ops).U = .ok U ∧ (circ N ops').U = .ok U := by
  have hw := rule_wf r
  have wf : ∀ {l : List (Instr N)}, (∀ g ∈ l, g.WF) → ∀ it ∈ l.map Item.gate, it.WF := fun h it hit => by
    obtain ⟨g, hg, rfl⟩ := List.mem_map.1 hit
    exact h g hg
  obtain ⟨ops, hops, ⟨U, hU, rU⟩, -⟩ := C13_items N _ (wf hw.1)
  obtain ⟨ops', hops', ⟨U', hU', rU'⟩, -⟩ := C13_items N _ (wf hw.2)
  have e : circuitOp (a.map Item.gate) = circuitOp (b.map Item.gate) := rule_op r
  rw [← e] at rU'
  exact ⟨ops, ops', U, hops, hops', hU, by rw [hU', rU'.ext rU]⟩

/-- A Toffoli gate and its usual circuit of six controlled NOTs, on four qubits. -/
example : ∃ l : List (Instr 4), Rule [.toffoli 3 0 2] l ∧ l.length = 15 :=
  ⟨_, .toffoli_cnot 3 0 2 (by decide), rfl⟩

/-- C95: a part of a circuit may be replaced by any other circuit with the same operator, between any gates and layers:
`U()` returns the same tensor, and every expectation value stays the same. -/
theorem C95_replace (pre a b post : List (Item N)) (hp : ∀ it ∈ pre, it.WF) (ha : ∀ it ∈ a, it.WF)
    (hb : ∀ it ∈ b, it.WF) (hq : ∀ it ∈ post, it.WF) (e : circuitOp a = circuitOp b) :
    ∃ ops ops' U, (pre ++ a ++ post).mapM buildItem = .ok ops ∧ (pre ++ b ++ post).mapM buildItem = .ok ops' ∧
      (circ N ops).U = .ok U ∧ (circ N ops').U = .ok U ∧
      ∀ (svd : SVDOracle) (init M : Tensor ℂ) (v : QState N) (O : QOp N) (s : List (Tensor ℂ)), IsRow init v →
        Represents M O → ∃ x : ℝ, (circ N ops).cir_expectation svd init M false s = (.ok x, s) ∧
          (circ N ops').cir_expectation svd init M false s = (.ok x, s) := by
  have w1 : ∀ it ∈ pre ++ a ++ post, it.WF := by simp only [List.forall_mem_append]; exact ⟨⟨hp, ha⟩, hq⟩
  have w2 : ∀ it ∈ pre ++ b ++ post, it.WF := by simp only [List.forall_mem_append]; exact ⟨⟨hp, hb⟩, hq⟩
  have e' : circuitOp (pre ++ a ++ post) = circuitOp (pre ++ b ++ post) := by
    unfold circuitOp at e ⊢
    simp only [List.map_append, timeOrdered_append, e]
  obtain ⟨ops, hops, ⟨U, hU, rU⟩, -⟩ := C13_items N _ w1
  obtain ⟨ops', hops', ⟨U', hU', rU'⟩, -⟩ := C13_items N _ w2
  have rU'' := rU'
  rw [← e'] at rU''
  refine ⟨ops, ops', U, hops, hops', hU, by rw [hU', rU''.ext rU], fun svd init M v O s hi hM => ?_⟩
  obtain ⟨o1, h1, x1⟩ := C28_matrix_path svd _ w1 init M v hi O hM s
  obtain ⟨o2, h2, x2⟩ := C28_matrix_path svd _ w2 init M v hi O hM s
  rw [hops] at h1
  rw [hops'] at h2
  cases h1
  cases h2
  exact ⟨_, x1, by rw [x2, e']⟩

/-- A swap inside a ring of controlled NOTs and a layer, written as three controlled NOTs. -/
example : circuitOp [Item.gate (.swap (0 : Fin 3) 2)] =
    circuitOp [Item.gate (.cnot (0 : Fin 3) 2), Item.gate (.cnot 2 0), Item.gate (.cnot 0 2)] :=
  rule_op (.swap_cnot 0 2 (by decide))

/-- C95: rewriting gates by the laws, any number of times, at any place and in both directions, keeps a circuit valid,
and `U()` returns the same tensor before and after. -/
theorem C95_rewrite {a b : List (Instr N)} (r : Rewrites a b) (h : ∀ g ∈ a, g.WF) :
    (∀ g ∈ b, g.WF) ∧
    ∃ ops ops' U, (a.map Item.gate).mapM buildItem = .ok ops ∧ (b.map Item.gate).mapM buildItem = .ok ops' ∧
      (circ N ops).U = .ok U ∧ (circ N ops').U = .ok U := by
  obtain ⟨e, hw⟩ := rewrites_op r
  have wf : ∀ {l : List (Instr N)}, (∀ g ∈ l, g.WF) → ∀ it ∈ l.map Item.gate, it.WF := fun h it hit => by
    obtain ⟨g, hg, rfl⟩ := List.mem_map.1 hit
    exact h g hg
  have e' : circuitOp (a.map Item.gate) = circuitOp (b.map Item.gate) := e
  obtain ⟨ops, ops', U, h1, h2, h3, h4, -⟩ := C95_replace [] _ _ [] (by simp) (wf h) (wf (hw.1 h)) (by simp) e'
  simp only [List.nil_append, List.append_nil] at h1 h2
  exact ⟨hw.1 h, ops, ops', U, h1, h2, h3, h4⟩

/-- A controlled Z between two Hadamards is a controlled NOT: three steps. -/
example : Rewrites [Instr.h (1 : Fin 2), .cz 0 1, .h 1] [.cnot 0 1] :=
  .step [.h 1] [.h 1] (.cz_cnot 0 1 (by decide))
    (.step [] [.cnot 0 1, .h 1, .h 1] (.h_h 1) (.step [.cnot 0 1] [] (.h_h 1) (.refl _)))

/-- C95, contraction path: if both circuits consist of operations with a working `TN_contract`, then
`TN_contract_evolution` returns the same tensor for both, on every rank-`N` input. -/
theorem C95_contract {a b : List (Item N)} (ha : ∀ it ∈ a, it.WF) (hb : ∀ it ∈ b, it.WF)
    (ca : ∀ it ∈ a, Contractible it) (cb : ∀ it ∈ b, Contractible it) (e : circuitOp a = circuitOp b) :
    ∃ ops ops', a.mapM buildItem = .ok ops ∧ b.mapM buildItem = .ok ops' ∧
      ∀ T : Tensor ℂ, T.shape = List.replicate N 2 → ∃ T', (circ N ops).TN_contract_evolution T false = .ok T' ∧
        (circ N ops').TN_contract_evolution T false = .ok T' := by
  obtain ⟨ops, ops', U, h1, h2, h3, h4, -⟩ := C95_replace [] a b [] (by simp) ha hb (by simp) e
  simp only [List.nil_append, List.append_nil] at h1 h2
  obtain ⟨o, g1, -, c1, -⟩ := C25_evolution a ha ca
  obtain ⟨o', g2, -, c2, -⟩ := C25_evolution b hb cb
  rw [h1] at g1
  rw [h2] at g2
  cases g1
  cases g2
  refine ⟨ops, ops', h1, h2, fun T hT => ?_⟩
  obtain ⟨T1, e1, r1⟩ := c1 T hT
  obtain ⟨T2, e2, r2⟩ := c2 T hT
  rw [h4, ← h3, r1] at r2
  cases r2
  exact ⟨T1, e1, e2⟩

/-- `rzz` and its circuit of two controlled NOTs and one rotation. -/
example : (∀ it ∈ [Item.gate (.rzz 1 (0 : Fin 2) 1)], Contractible it) ∧
    (∀ it ∈ [Item.gate (.cnot (0 : Fin 2) 1), .gate (.rz 1 1), .gate (.cnot 0 1)], Contractible it) ∧
    circuitOp [Item.gate (.rzz 1 (0 : Fin 2) 1)] =
      circuitOp [Item.gate (.cnot (0 : Fin 2) 1), .gate (.rz 1 1), .gate (.cnot 0 1)] :=
  ⟨by simp [Contractible], by simp [Contractible], rule_op (.rzz_cnot 1 0 1 (by decide))⟩

/-- C95: Hadamards, phase gates and controlled NOTs suffice: every circuit of library gates has a circuit of these
three kinds for which `U()` returns the same tensor, exactly, without a global phase.  On the latter all three evaluation
paths work, also when the former contains gates without a tensor network form (`rxx`, `ryy`, `rzz`, multi-controlled
NOTs), and return what the matrix of the former returns. -/
theorem C95_universal (l : List (Instr N)) (h : ∀ g ∈ l, g.WF) :
    ∃ (l' : List (Instr N)) (ops ops' : List Op) (U : Tensor ℂ), (∀ g ∈ l', g.basic ∧ g.WF) ∧
      (l.map Item.gate).mapM buildItem = .ok ops ∧ (l'.map Item.gate).mapM buildItem = .ok ops' ∧
      (circ N ops).U = .ok U ∧ (circ N ops').U = .ok U ∧
      ∀ {svd : SVDOracle}, ValidSVD svd → 0 < N → ∀ (psi : Tensor ℂ) (v : QState N), IsRow psi v → v ≠ 0 →
        ∃ sv, applyRow (circ N ops).U psi = .ok sv ∧ contractPath (circ N ops') psi = .ok sv ∧
          ∀ s, (∀ A ∈ (mpsPath svd (circ N ops') psi s).2, Lossless A) →
            ∃ s', mpsPath svd (circ N ops') psi s = (.ok sv, s') := by
  obtain ⟨l', hl', e⟩ := compile_gates l h
  have wf : ∀ {l : List (Instr N)}, (∀ g ∈ l, g.WF) → ∀ it ∈ l.map Item.gate, it.WF := fun h it hit => by
    obtain ⟨g, hg, rfl⟩ := List.mem_map.1 hit
    exact h g hg
  have tn : ∀ it ∈ l'.map Item.gate, HasTN it := fun it hit => by
    obtain ⟨g, hg, rfl⟩ := List.mem_map.1 hit
    have := (hl' g hg).1
    cases g <;> simp_all [Instr.basic, HasTN]
  have w' : ∀ it ∈ l'.map Item.gate, it.WF := wf fun g hg => (hl' g hg).2
  have e' : circuitOp (l.map Item.gate) = circuitOp (l'.map Item.gate) := e.symm
  obtain ⟨ops, ops', U, h1, h2, h3, h4, -⟩ := C95_replace [] _ _ [] (by simp) (wf h) w' (by simp) e'
  simp only [List.nil_append, List.append_nil] at h1 h2
  refine ⟨l', ops, ops', U, hl', h1, h2, h3, h4, fun {svd} hv hN psi v hp h0 => ?_⟩
  obtain ⟨o, sv, ho, -, p1, p2, p3⟩ := C61_three_paths hv hN _ w' tn psi v hp h0
  rw [h2] at ho
  cases ho
  exact ⟨sv, by rw [h3, ← h4]; exact p1, p2, p3⟩

/-- A circuit with a NOT controlled by three qubits and an `rxx`. -/
example : ∀ g ∈ [Instr.mcnot [(0 : Fin 4), 2, 3] 1, .rxx 0.3 3 0], g.WF := by
  simp only [List.mem_cons, List.not_mem_nil, or_false, forall_eq_or_imp, forall_eq]
  exact ⟨⟨by simp, by decide⟩, show (3 : Fin 4) ≠ 0 by decide⟩

theorem onQubit_inj (i : Fin N) {g g' : Mat2} (h : onQubit i g = onQubit i g') : g = g' := by
  ext x y
  have := congrFun (congrFun h (Function.update (fun _ => 0) i x)) (Function.update (fun _ => 0) i y)
  unfold onQubit at this
  have hc : ∀ j, j ≠ i → Function.update (fun _ => (0 : Fin 2)) i x j = Function.update (fun _ => (0 : Fin 2)) i y j :=
    fun j hj => by rw [Function.update_of_ne hj, Function.update_of_ne hj]
  rw [if_pos hc, if_pos hc] at this
  simpa using this

theorem rot_eq_iff {P : Mat2} (hP : P ∈ [Spec.X, Spec.Y, Spec.Z]) (α β : ℝ) :
    rot P α = rot P β ↔ ∃ k : ℤ, α = β + 4 * Real.pi * k := by
  have hcs : rot P α = rot P β → Real.cos (α / 2) = Real.cos (β / 2) ∧ Real.sin (α / 2) = Real.sin (β / 2) := by
    intro h
    have h00 := congrFun (congrFun h 0) 0
    have h10 := congrFun (congrFun h 1) 0
    simp only [List.mem_cons, List.not_mem_nil, or_false] at hP
    rcases hP with rfl | rfl | rfl
    · rw [rot_X_eq, rot_X_eq] at h00 h10
      simpa [Complex.ext_iff, ← Complex.ofReal_cos, ← Complex.ofReal_sin, -Complex.ofReal_div, ← Complex.ofReal_ofNat]
        using And.intro h00 h10
    · rw [rot_Y_eq, rot_Y_eq] at h00 h10
      simp only [Matrix.of_apply, Matrix.cons_val', Matrix.cons_val_zero, Matrix.cons_val_one, Matrix.cons_val_fin_one,
        Complex.ofReal_inj] at h00 h10
      exact ⟨h00, h10⟩
    · unfold rot at h00
      simp only [Matrix.sub_apply, Matrix.smul_apply, Matrix.one_apply_eq, Spec.Z, Matrix.of_apply, Matrix.cons_val',
        Matrix.cons_val_zero, Matrix.cons_val_fin_one, smul_eq_mul, mul_one] at h00
      have hr := congrArg Complex.re h00
      have hi := congrArg Complex.im h00
      simp [-Complex.ofReal_cos, -Complex.ofReal_sin] at hr hi
      exact ⟨hr, hi⟩
  constructor
  · intro h
    obtain ⟨hc, hs⟩ := hcs h
    obtain ⟨k, hk⟩ := Real.Angle.angle_eq_iff_two_pi_dvd_sub.1 (Real.Angle.cos_sin_inj hc hs)
    exact ⟨k, by linarith⟩
  · rintro ⟨k, rfl⟩
    have e : (β + 4 * Real.pi * k) / 2 = β / 2 + k * (2 * Real.pi) := by ring
    unfold rot
    rw [e, Real.cos_add_int_mul_two_pi, Real.sin_add_int_mul_two_pi]

/-- C95: how far the periods go: two rotations about the same axis have the same matrix exactly when their angles differ
by a multiple of 4π (not 2π). -/
theorem C95_period (i : Fin N) (α β : ℝ) :
    ∀ g ∈ [fun θ => Instr.rx θ i, fun θ => Instr.ry θ i, fun θ => Instr.rz θ i],
      ∃ ops ops' U U', [Item.gate (g α)].mapM buildItem = .ok ops ∧ [Item.gate (g β)].mapM buildItem = .ok ops' ∧
        (circ N ops).U = .ok U ∧ (circ N ops').U = .ok U' ∧ (U = U' ↔ ∃ k : ℤ, α = β + 4 * Real.pi * k) := by
  have key : ∀ (g : ℝ → Instr N) (P : Mat2), P ∈ [Spec.X, Spec.Y, Spec.Z] → (∀ θ, (g θ).WF) →
      (∀ θ, (g θ).op = onQubit i (rot P θ)) →
      ∃ ops ops' U U', [Item.gate (g α)].mapM buildItem = .ok ops ∧ [Item.gate (g β)].mapM buildItem = .ok ops' ∧
        (circ N ops).U = .ok U ∧ (circ N ops').U = .ok U' ∧ (U = U' ↔ ∃ k : ℤ, α = β + 4 * Real.pi * k) := by
    intro g P hP hw ho
    have hg : ∀ θ, circuitOp [Item.gate (g θ)] = onQubit i (rot P θ) := fun θ => by
      rw [← ho, circuitOp_cons]
      exact one_mul _
    obtain ⟨ops, hops, ⟨U, hU, rU⟩, -⟩ := C13_items N [Item.gate (g α)] (by simp only [List.mem_singleton, forall_eq]; exact hw α)
    obtain ⟨ops', hops', ⟨U', hU', rU'⟩, -⟩ := C13_items N [Item.gate (g β)] (by simp only [List.mem_singleton, forall_eq]; exact hw β)
    rw [hg] at rU rU'
    refine ⟨ops, ops', U, U', hops, hops', hU, hU', ?_⟩
    rw [← rot_eq_iff hP]
    constructor
    · rintro rfl
      refine onQubit_inj i ?_
      ext a b
      rw [← rU.2, ← rU'.2]
    · intro h
      rw [h] at rU
      exact rU.ext rU'
  intro g hg
  simp only [List.mem_cons, List.not_mem_nil, or_false] at hg
  rcases hg with rfl | rfl | rfl
  · exact key (fun θ => .rx θ i) Spec.X (by simp) (fun _ => trivial) fun _ => rfl
  · exact key (fun θ => .ry θ i) Spec.Y (by simp) (fun _ => trivial) fun _ => rfl
  · exact key (fun θ => .rz θ i) Spec.Z (by simp) (fun _ => trivial) fun _ => rfl

/-- A rotation by 2π is not the identity, a rotation by 4π is. -/
example : (¬ ∃ k : ℤ, 2 * Real.pi = 0 + 4 * Real.pi * k) ∧ ∃ k : ℤ, 4 * Real.pi = 0 + 4 * Real.pi * k := by
  refine ⟨?_, 1, by simp⟩
  rintro ⟨k, hk⟩
  have h : (2 * (k : ℝ)) = 1 := by
    have hp := Real.pi_pos
    have : Real.pi * (2 * (k : ℝ) - 1) = 0 := by linarith
    rcases mul_eq_zero.1 this with h | h
    · exact absurd h hp.ne'
    · linarith
  have h' : 2 * k = 1 := by exact_mod_cast h
  omega

end QTN.Props
