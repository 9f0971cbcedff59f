import Verif.SpecTN
import Verif.Lemmas.ContractOps
import Verif.Lemmas.Circ

/-! # `TN_contract` of gates, layers and circuits -/

namespace QTN

open Finset Spec Matrix

variable {N : ℕ}

theorem Spec.ContractsAs.congr {f : Tensor ℂ → Bool → Py (Tensor ℂ)} {M M' : QOp N}
    (h : ContractsAs f M) (e : M = M') : ContractsAs f M' := e ▸ h

theorem Spec.ContractsAs.congrF {f f' : Tensor ℂ → Bool → Py (Tensor ℂ)} {M : QOp N}
    (h : ContractsAs f M) (e : ∀ T b, f' T b = f T b) : ContractsAs f' M := by
  have : f' = f := funext fun T => funext fun b => e T b
  rwa [this]

theorem IsTen_rank {T : Tensor ℂ} {v : QState N} (h : IsTen T v) : T.rank = N := by
  simp [Tensor.rank, h.1]

theorem IsBatch_rank {T : Tensor ℂ} {n : ℕ} {v : Fin n → QState N} (h : IsBatch T n v) :
    T.rank = N + 1 := by
  simp [Tensor.rank, h.1]

theorem wire_ne {c t : Fin N} (h : c ≠ t) : wire c ≠ wire t := by
  intro e; exact h (Fin.ext (by exact_mod_cast e))

/-! ## Gates -/

theorem single_contract {g : Gate} (i : Fin N) {m : Mat2} (hn : g.nqubits = (N : ℤ))
    (hw : g.wires = .int (wire i)) (hm : Represents2 g.matrix m) :
    ContractsAs g.single_TN_contract (onQubit i m) := by
  constructor
  · intro T v hT
    obtain ⟨T', h, r⟩ := contract1_ten i hm hT
    refine ⟨T', ?_, r⟩
    unfold Gate.single_TN_contract
    rw [guard_ok hn hw, hw, hn]
    simpa [Wires.asInt] using h
  · intro T n v hT
    obtain ⟨T', h, r⟩ := contract1_batch i hm hT
    refine ⟨T', ?_, r⟩
    unfold Gate.single_TN_contract
    rw [guard_ok hn hw, hw, hn]
    simpa [Wires.asInt] using h

theorem asList_list (l : List ℤ) : (Wires.list l).asList = .ok l := rfl

theorem pyGet_pair (x y : ℤ) : pyGet [x, y] 0 = .ok x ∧ pyGet [x, y] 1 = .ok y := ⟨rfl, rfl⟩

theorem two_contract {g : Gate} {c t : Fin N} (h : c ≠ t) {M : QOp 2} (hn : g.nqubits = (N : ℤ))
    (hw : g.wires = .list [wire c, wire t]) (hm : Represents g.matrix M) :
    ContractsAs g.two_TN_contract (embed ![c, t] M) := by
  have hne := wire_ne h
  constructor
  · intro T v hT
    obtain ⟨T', h', r⟩ := contract2_ten h hm hT
    refine ⟨T', ?_, r⟩
    unfold Gate.two_TN_contract
    rw [guard_list hn hw, Py.ok_bind, hw, asList_list, Py.ok_bind,
      (pyGet_pair _ _).1, Py.ok_bind, (pyGet_pair _ _).2, Py.ok_bind,
      pyAssert_true hne, Py.ok_bind, if_pos rfl, hn, IsTen_rank hT, pyAssert_true rfl, Py.ok_bind]
    exact h'
  · intro T n v hT
    obtain ⟨T', h', r⟩ := contract2_batch h hm hT
    refine ⟨T', ?_, r⟩
    unfold Gate.two_TN_contract
    rw [guard_list hn hw, Py.ok_bind, hw, asList_list, Py.ok_bind,
      (pyGet_pair _ _).1, Py.ok_bind, (pyGet_pair _ _).2, Py.ok_bind,
      pyAssert_true hne, Py.ok_bind, if_neg (by simp), hn, IsBatch_rank hT, pyAssert_true (by push_cast; rfl), Py.ok_bind]
    exact h'

theorem swapPerm_eq {n : ℕ} {c t : Fin n} (h : c ≠ t) :
    (do let p ← pySet (pyRange (n : ℤ)) (wire c) (wire t); pySet p (wire t) (wire c)) =
      (Except.ok (List.ofFn (fun k => ((Equiv.swap c t k : ℕ) : ℤ))) : Py _) := by
  rw [pyRange_ofFn, pySet_ofFn, Py.ok_bind, pySet_ofFn]
  congr 2
  funext k
  by_cases h1 : k = t
  · subst h1; simp
  · by_cases h2 : k = c
    · subst h2; simp [Function.update_of_ne h1]
    · simp [Function.update_of_ne h1, Function.update_of_ne h2,
        Equiv.swap_apply_of_ne_of_ne h2 h1]

theorem swap_mulVec (p q : Fin N) (v : QState N) (a : Bits N) :
    (Spec.swap p q *ᵥ v) a = v (a ∘ Equiv.swap p q) := by
  have h : ∀ b : Bits N, a = b ∘ Equiv.swap p q ↔ b = a ∘ Equiv.swap p q := by
    intro b
    constructor
    · rintro rfl; funext j; simp
    · rintro rfl; funext j; simp
  simp [Matrix.mulVec, dotProduct, Spec.swap, h]

theorem swap_contract {g : Gate} {c t : Fin N} (h : c ≠ t) (hn : g.nqubits = (N : ℤ))
    (hw : g.wires = .list [wire c, wire t]) :
    ContractsAs g.swap_TN_contract (Spec.swap c t) := by
  have hne := wire_ne h
  constructor
  · intro T v hT
    obtain ⟨T', h', s, e⟩ := Tensor.permute_fn (Equiv.swap c t) (hT.1.trans dims_const) (p := _) rfl
    refine ⟨T', ?_, s.trans dims_const.symm, fun a => ?_⟩
    · unfold Gate.swap_TN_contract
      rw [guard_list hn hw, Py.ok_bind, hw, asList_list, Py.ok_bind,
        (pyGet_pair _ _).1, Py.ok_bind, (pyGet_pair _ _).2, Py.ok_bind,
        pyAssert_true hne, Py.ok_bind, if_pos rfl, hn, IsTen_rank hT, pyAssert_true rfl, Py.ok_bind, ← h']
      have := swapPerm_eq h
      cases h1 : pySet (pyRange (N : ℤ)) (wire c) (wire t) with
      | error e => rw [h1] at this; cases this
      | ok p =>
        rw [h1, Py.ok_bind] at this
        rw [Py.ok_bind, this, Py.ok_bind]
    · rw [swap_mulVec]
      refine (e (nb a) (fun k => nb_lt a k)).trans ?_
      rw [← hT.2]
      rfl
  · intro T n v hT
    have hs : c.succ ≠ t.succ := fun e => h (Fin.succ_injective _ e)
    obtain ⟨T', h', s, e⟩ := Tensor.permute_fn (Equiv.swap c.succ t.succ)
      (hT.1.trans (dims_cons n)) (p := _) rfl
    have hd : (Fin.cons n (fun _ => 2) : Fin (N + 1) → ℕ) ∘ Equiv.swap c.succ t.succ =
        Fin.cons n (fun _ => 2) := by
      funext i
      have h0 : Equiv.swap c.succ t.succ 0 = 0 :=
        Equiv.swap_apply_of_ne_of_ne (Fin.succ_ne_zero _).symm (Fin.succ_ne_zero _).symm
      rw [Function.comp, cons_dims_perm h0]
      refine Fin.cases ?_ (fun i => ?_) i <;> simp
    rw [hd] at s
    refine ⟨T', ?_, s.trans (dims_cons n).symm, fun k a => ?_⟩
    · unfold Gate.swap_TN_contract
      rw [guard_list hn hw, Py.ok_bind, hw, asList_list, Py.ok_bind,
        (pyGet_pair _ _).1, Py.ok_bind, (pyGet_pair _ _).2, Py.ok_bind,
        pyAssert_true hne, Py.ok_bind, if_neg (by simp), hn, IsBatch_rank hT, pyAssert_true (by push_cast; rfl), Py.ok_bind, ← h']
      have := swapPerm_eq hs
      have e1 : wire c.succ = wire c + 1 := by simp [wire]
      have e2 : wire t.succ = wire t + 1 := by simp [wire]
      have e3 : ((N + 1 : ℕ) : ℤ) = (N : ℤ) + 1 := by push_cast; rfl
      rw [e1, e2, e3] at this
      cases h1 : pySet (pyRange ((N : ℤ) + 1)) (wire c + 1) (wire t + 1) with
      | error e => rw [h1] at this; cases this
      | ok p =>
        rw [h1, Py.ok_bind] at this
        rw [Py.ok_bind, this, Py.ok_bind]
    · beta_reduce
      rw [swap_mulVec]
      have hk : ∀ i, (Fin.cons (k : ℕ) (nb a) : Fin (N + 1) → ℕ) i <
          (Fin.cons n (fun _ => 2) : Fin (N + 1) → ℕ) (Equiv.swap c.succ t.succ i) := by
        intro i
        have := congrFun hd i
        rw [Function.comp] at this
        rw [this]
        exact cons_nb_lt k.2 a i
      have hget := e (Fin.cons (k : ℕ) (nb a)) hk
      rw [cons_ofFn] at hget
      rw [hget, ← hT.2, ← cons_ofFn]
      congr 2
      funext i
      refine Fin.cases ?_ (fun i => ?_) i
      · have h0 : Equiv.swap c.succ t.succ 0 = 0 :=
          Equiv.swap_apply_of_ne_of_ne (Fin.succ_ne_zero _).symm (Fin.succ_ne_zero _).symm
        simp [h0]
      · have := (Fin.succ_injective N).swap_apply c t i
        simp [this, nb]

theorem toffoli_contract {g : Gate} {p q r : Fin N} (h1 : p ≠ q) (h2 : p ≠ r) (h3 : q ≠ r)
    {M : QOp 3} (hn : g.nqubits = (N : ℤ)) (hw : g.wires = .list [wire p, wire q, wire r])
    (hm : Represents g.matrix M) :
    ContractsAs g.toffoli_TN_contract (embed ![p, q, r] M) := by
  have g0 : pyGet [wire p, wire q, wire r] 0 = .ok (wire p) := rfl
  have g1 : pyGet [wire p, wire q, wire r] 1 = .ok (wire q) := rfl
  have g2 : pyGet [wire p, wire q, wire r] 2 = .ok (wire r) := rfl
  have hne : wire p ≠ wire r ∧ wire q ≠ wire r ∧ wire p ≠ wire q :=
    ⟨wire_ne h2, wire_ne h3, wire_ne h1⟩
  constructor
  · intro T v hT
    obtain ⟨T', h', r⟩ := contract3_ten h1 h2 h3 hm hT
    refine ⟨T', ?_, r⟩
    unfold Gate.toffoli_TN_contract
    rw [guard_list hn hw, Py.ok_bind, hw, asList_list, Py.ok_bind,
      g0, Py.ok_bind, g1, Py.ok_bind, g2, Py.ok_bind,
      pyAssert_true hne, Py.ok_bind, if_pos rfl, hn, IsTen_rank hT, pyAssert_true rfl, Py.ok_bind]
    exact h'
  · intro T n v hT
    obtain ⟨T', h', r⟩ := contract3_batch h1 h2 h3 hm hT
    refine ⟨T', ?_, r⟩
    unfold Gate.toffoli_TN_contract
    rw [guard_list hn hw, Py.ok_bind, hw, asList_list, Py.ok_bind,
      g0, Py.ok_bind, g1, Py.ok_bind, g2, Py.ok_bind,
      pyAssert_true hne, Py.ok_bind, if_neg (by simp), hn, IsBatch_rank hT, pyAssert_true (by push_cast; rfl), Py.ok_bind]
    exact h'

/-- the gates with a `TN_contract` -/
def Spec.Instr.contractible : Instr N → Prop
  | .mcnot _ _ => False
  | _ => True

theorem embed_two_controlled {c t : Fin N} (h : c ≠ t) (g : Mat2) :
    embed ![c, t] (controlled [0] 1 g) = controlled [c] t g := by
  rw [embed_controlled (inj_two h)]; rfl

theorem cu3_matrix {u : Tensor ℂ} {g : Mat2} (hu : Represents2 u g) :
    ∃ m, two_qubit_control_gate u 2 0 1 = .ok m ∧ Represents (N := 2) m (controlled [0] 1 g) := by
  obtain ⟨m, hm, hr⟩ := two_qubit_control_rep (N := 2) (c := 0) (t := 1) (by decide) hu
  exact ⟨m, by simpa using hm, hr⟩

/-- every gate object with a `TN_contract` contracts to its operator -/
theorem gate_contract (ins : Instr N) (h : ins.WF) (hc : Spec.Instr.contractible ins) :
    ∃ g, build ins = .ok g ∧ ContractsAs g.TN_contract ins.op := by
  cases ins with
  | h i => exact ⟨_, rfl, single_contract i rfl rfl hadamardMat_rep⟩
  | x i => exact ⟨_, rfl, single_contract i rfl rfl pauliXMat_rep⟩
  | y i => exact ⟨_, rfl, single_contract i rfl rfl pauliYMat_rep⟩
  | z i => exact ⟨_, rfl, single_contract i rfl rfl pauliZMat_rep⟩
  | rx θ i => exact ⟨_, rfl, single_contract i rfl rfl (rotMat_rep pauliXMat_rep θ)⟩
  | ry θ i => exact ⟨_, rfl, single_contract i rfl rfl (rotMat_rep pauliYMat_rep θ)⟩
  | rz θ i => exact ⟨_, rfl, single_contract i rfl rfl (rotMat_rep pauliZMat_rep θ)⟩
  | u1 θ i => exact ⟨_, rfl, single_contract i rfl rfl (u1Mat_rep θ)⟩
  | u3 θ φ l i =>
    obtain ⟨u, hu, hr⟩ := u3Mat_rep θ φ l
    refine ⟨⟨.u3, N, .int (wire i), [θ, φ, l], u, noMat⟩, ?_, single_contract i rfl rfl hr⟩
    simp only [build, mkU3, hu, Py.ok_bind]
  | rxx θ p q => exact ⟨_, rfl, (two_contract h rfl rfl (rot2Mat_rep pauliXMat_rep θ)).congr
      (embed_rot2 (inj_two h) _ _ 0 1)⟩
  | ryy θ p q => exact ⟨_, rfl, (two_contract h rfl rfl (rot2Mat_rep pauliYMat_rep θ)).congr
      (embed_rot2 (inj_two h) _ _ 0 1)⟩
  | rzz θ p q => exact ⟨_, rfl, (two_contract h rfl rfl (rot2Mat_rep pauliZMat_rep θ)).congr
      (embed_rot2 (inj_two h) _ _ 0 1)⟩
  | cnot c t => exact ⟨_, rfl, (two_contract h rfl rfl cnotMat_rep).congr
      (embed_two_controlled h _)⟩
  | cz c t => exact ⟨_, rfl, (two_contract h rfl rfl czMat_rep).congr (embed_two_controlled h _)⟩
  | cphase θ c t => exact ⟨_, rfl, (two_contract h rfl rfl
      (M := controlled [0] 1 (Spec.phase θ))
      (by rw [show (mkCphase θ N (.list [wire c, wire t])).matrix = cphaseMatUpd θ from
        (cphaseMat_eq θ).symm]; exact cphaseMatUpd_rep θ)).congr (embed_two_controlled h _)⟩
  | cu3 θ φ l c t =>
    obtain ⟨u, hu, hr⟩ := u3Mat_rep θ φ l
    obtain ⟨m, hm, rm⟩ := cu3_matrix hr
    refine ⟨⟨.cu3, N, .list [wire c, wire t], [θ, φ, l], m, u⟩, ?_,
      (two_contract h rfl rfl rm).congr (embed_two_controlled h _)⟩
    simp only [build, mkCu3, hu, Py.ok_bind, hm]
  | swap p q => exact ⟨_, rfl, swap_contract h rfl rfl⟩
  | toffoli a b t =>
    refine ⟨_, rfl, (toffoli_contract h.1 h.2.1 h.2.2 rfl rfl toffoliMat_rep).congr ?_⟩
    rw [embed_controlled (inj_three h.1 h.2.1 h.2.2)]; rfl
  | mcnot cs t => exact hc.elim

/-! ## Sequences -/

theorem contracts_foldlM {ι : Type} (l : List ι) (f : ι → Tensor ℂ → Bool → Py (Tensor ℂ))
    (g : ι → QOp N) (h : ∀ i ∈ l, ContractsAs (f i) (g i)) :
    ContractsAs (fun T b => l.foldlM (fun T i => f i T b) T) (timeOrdered (l.map g)) := by
  induction l with
  | nil =>
    exact ⟨fun T v hT => ⟨T, rfl, by simpa using hT⟩, fun T n v hT => ⟨T, rfl, by simpa using hT⟩⟩
  | cons i l ih =>
    obtain ⟨f1, f2⟩ := h i (by simp)
    obtain ⟨g1, g2⟩ := ih (fun j hj => h j (by simp [hj]))
    constructor
    · intro T v hT
      obtain ⟨T1, h1, r1⟩ := f1 T v hT
      obtain ⟨T2, h2, r2⟩ := g1 T1 _ r1
      refine ⟨T2, ?_, ?_⟩
      · beta_reduce; rw [List.foldlM_cons, h1]; exact h2
      · rw [List.map_cons, timeOrdered_cons, ← Matrix.mulVec_mulVec]; exact r2
    · intro T n v hT
      obtain ⟨T1, h1, r1⟩ := f2 T n v hT
      obtain ⟨T2, h2, r2⟩ := g2 T1 n _ r1
      refine ⟨T2, ?_, ?_⟩
      · beta_reduce; rw [List.foldlM_cons, h1]; exact h2
      · simp only [List.map_cons, timeOrdered_cons, ← Matrix.mulVec_mulVec]; exact r2

/-! ## Layers -/

theorem timeOrdered_onQubit (ws : List (Fin N)) (hw : ws.Nodup) (F : Fin N → Mat2) :
    timeOrdered (ws.map (fun w => onQubit w (F w))) =
      onEach (fun j => if j ∈ ws then F j else 1) := by
  induction ws with
  | nil => simp [onEach_one]
  | cons w ws ih =>
    obtain ⟨h1, h2⟩ := List.nodup_cons.1 hw
    rw [List.map_cons, timeOrdered_cons, ih h2, ← onEach_update_one, onEach_mul]
    congr 1
    funext j
    by_cases hj : j = w
    · subst hj; simp [h1]
    · simp [hj]

theorem pyGet_ofFn {α : Type} (f : Fin N → α) (i : Fin N) : pyGet (List.ofFn f) (wire i) = .ok (f i) := by
  rw [pyGet_nat (by simp)]; simp

theorem calGates_contract {wm : ℕ → Py (Tensor ℂ)} (ws : List (Fin N)) (hw : ws.Nodup) (m : ℕ → Mat2)
    (h : ∀ i < ws.length, ∃ t, wm i = .ok t ∧ Represents2 t (m i)) :
    ContractsAs (SingleLayer.TN_contract (SingleLayer.calGates N (wires ws) wm) N (wires ws))
      (onEach (fun j => if j ∈ ws then m (ws.idxOf j) else 1)) := by
  obtain ⟨f, hf, hr⟩ := calGates_rep ws hw m h
  have hF := contracts_foldlM (N := N) ws
    (fun w T b => if b = false then Gate.contract1 (f w) T (N : ℤ) (wire w)
      else Gate.contract1 (f w) T ((N : ℤ) + 1) (wire w + 1))
    (fun w => onQubit w (if w ∈ ws then m (ws.idxOf w) else 1))
    (fun w _ => ⟨fun T v hT => contract1_ten w (hr w) hT,
      fun T n v hT => contract1_batch w (hr w) hT⟩)
  rw [timeOrdered_onQubit ws hw] at hF
  have e : (fun j => if j ∈ ws then (if j ∈ ws then m (ws.idxOf j) else 1) else 1) =
      (fun j => if j ∈ ws then m (ws.idxOf j) else 1) := by
    funext j; by_cases hj : j ∈ ws <;> simp [hj]
  rw [e] at hF
  refine ⟨fun T v hT => ?_, fun T n v hT => ?_⟩
  · obtain ⟨T', h', r⟩ := hF.1 T v hT
    refine ⟨T', ?_, r⟩
    rw [← h']
    unfold SingleLayer.TN_contract
    rw [hf, Py.ok_bind, if_pos rfl, List.foldlM_map]
    simp only [pyGet_ofFn, Py.ok_bind, if_true]
  · obtain ⟨T', h', r⟩ := hF.2 T n v hT
    refine ⟨T', ?_, r⟩
    rw [← h']
    unfold SingleLayer.TN_contract
    rw [hf, Py.ok_bind, if_neg (by simp), List.foldlM_map]
    simp only [pyGet_ofFn, Py.ok_bind, Bool.true_eq_false, if_false]

theorem sLayer_contract (l : SLayer) (hn : l.nqubits = N) (ws : List (Fin N)) (hw : ws.Nodup)
    (hl : l.wires = wires ws) (m : ℕ → Mat2)
    (h : ∀ i < ws.length, ∃ t, l.wireMat i = .ok t ∧ Represents2 t (m i)) :
    ContractsAs l.TN_contract (onEach (fun j => if j ∈ ws then m (ws.idxOf j) else 1)) := by
  have := calGates_contract ws hw m h
  rw [← hn, ← hl] at this
  exact this

/-! ## Rings -/

theorem cnotContract_rep {c t : Fin N} (h : c ≠ t) :
    ContractsAs (Ring.cnotContract N (wire c) (wire t)) (controlled [c] t Spec.X) :=
  (two_contract (g := mkCnot N (.list [wire c, wire t])) h rfl rfl cnotMat_rep).congr
    (embed_two_controlled h _)

theorem wires_finRange : wires (List.finRange N) = pyRange (N : ℤ) := by
  rw [pyRange_ofFn]
  apply List.ext_getElem <;> simp

theorem ring_contract (k : RingKind) (hk : k ≠ .ring2) (h2 : 2 ≤ N) :
    ContractsAs (⟨k, N, wires (List.finRange N)⟩ : Ring).TN_contract
      (ringKindOp k (List.finRange N)) := by
  have hlen : (List.finRange N).length = N := by simp
  by_cases hN : N = 2
  · subst hN
    have hc := cnotContract_rep (N := 2) (c := 0) (t := 1) (by decide)
    have hop : ringKindOp k (List.finRange 2) = controlled [0] 1 Spec.X := by
      cases k <;> rfl
    rw [hop]
    have q0 : pyGet (wires (List.finRange 2)) 0 = .ok 0 := rfl
    have q1 : pyGet (wires (List.finRange 2)) 1 = .ok 1 := rfl
    have hf : ∀ T b, (⟨k, (2 : ℕ), wires (List.finRange 2)⟩ : Ring).TN_contract T b =
        Ring.cnotContract 2 0 1 T b := by
      intro T b
      cases k
      · unfold Ring.TN_contract
        dsimp only
        rw [raiseIf_false (by rw [wires_finRange]; simp), Py.ok_bind, if_pos (by norm_num), q0, Py.ok_bind, q1, Py.ok_bind]
      · unfold Ring.TN_contract
        dsimp only
        rw [raiseIf_false (by rw [wires_finRange]; simp), Py.ok_bind, if_pos (by norm_num), q0, Py.ok_bind, q1, Py.ok_bind]
      · exact absurd rfl hk
    have : (⟨k, (2 : ℕ), wires (List.finRange 2)⟩ : Ring).TN_contract = Ring.cnotContract 2 0 1 :=
      funext fun T => funext fun b => hf T b
    rw [this]
    exact hc
  · have hl : (List.finRange N).length ≠ 2 := by simpa using hN
    have hstep : ∀ i ∈ List.range N, ContractsAs (fun T b => do
        let c ← pyGet (wires (List.finRange N)) (i : ℤ)
        let t ← pyGet (wires (List.finRange N)) (((i + 1) % N : ℕ) : ℤ)
        Ring.cnotContract N c t T b) ((fun i : ℕ => if hi : i < N then
          controlled [(⟨i, hi⟩ : Fin N)] ⟨(i + 1) % N, Nat.mod_lt _ (by omega)⟩ Spec.X else 1) i) := by
      intro i hi
      have hi' := List.mem_range.1 hi
      have hm : (i + 1) % N < N := Nat.mod_lt _ (by omega)
      have hne : (⟨i, hi'⟩ : Fin N) ≠ ⟨(i + 1) % N, hm⟩ := by
        intro e
        exact add_mod_ne hi' (d := 1) (by omega) (by omega) (congrArg Fin.val e)
      have := cnotContract_rep hne
      beta_reduce
      rw [dif_pos hi']
      refine this.congrF (fun T b => ?_)
      have e1 : (List.finRange N).get ⟨i, by simpa using hi'⟩ = ⟨i, hi'⟩ := by simp
      have e2 : (List.finRange N).get ⟨(i + 1) % N, by simpa using hm⟩ = ⟨(i + 1) % N, hm⟩ := by simp
      rw [pyGet_wires _ i (by simpa using hi'), Py.ok_bind,
        pyGet_wires _ _ (by simpa using hm), Py.ok_bind, e1, e2]
    have hgates : ringGates 1 (List.finRange N) = (List.range N).map (fun i : ℕ =>
        if hi : i < N then
          controlled [(⟨i, hi⟩ : Fin N)] ⟨(i + 1) % N, Nat.mod_lt _ (by omega)⟩ Spec.X else 1) := by
      rw [ringGates_eq_map _ _ (by simp; omega)]
      simp
    have hNz : ((N : ℕ) : ℤ) ≠ 2 := by omega
    cases k
    · have hF := contracts_foldlM (N := N) _ _ _ hstep
      simp only [ringKindOp, ringOp_of_ne hl, hgates]
      refine ⟨fun T v hT => ?_, fun T n v hT => ?_⟩
      · obtain ⟨T', h', r⟩ := hF.1 T v hT
        refine ⟨T', ?_, r⟩
        rw [← h']
        unfold Ring.TN_contract
        dsimp only
        rw [raiseIf_false (by rw [wires_finRange]; simp), Py.ok_bind, if_neg hNz]
        simp
      · obtain ⟨T', h', r⟩ := hF.2 T n v hT
        refine ⟨T', ?_, r⟩
        rw [← h']
        unfold Ring.TN_contract
        dsimp only
        rw [raiseIf_false (by rw [wires_finRange]; simp), Py.ok_bind, if_neg hNz]
        simp
    · have hF := contracts_foldlM (N := N) (List.range N).reverse _ _
        (fun i hi => hstep i (List.mem_reverse.1 hi))
      simp only [ringKindOp, ringDagOp_of_ne hl, hgates, ← List.map_reverse]
      refine ⟨fun T v hT => ?_, fun T n v hT => ?_⟩
      · obtain ⟨T', h', r⟩ := hF.1 T v hT
        refine ⟨T', ?_, r⟩
        rw [← h']
        unfold Ring.TN_contract
        dsimp only
        rw [raiseIf_false (by rw [wires_finRange]; simp), Py.ok_bind, if_neg hNz]
        simp
      · obtain ⟨T', h', r⟩ := hF.2 T n v hT
        refine ⟨T', ?_, r⟩
        rw [← h']
        unfold Ring.TN_contract
        dsimp only
        rw [raiseIf_false (by rw [wires_finRange]; simp), Py.ok_bind, if_neg hNz]
        simp
    · exact absurd rfl hk

/-! ## Items and circuits -/

/-- the items with a working `TN_contract`: all but multi_control_cnot, ring_of_cnot2,
BasicEntangleLayer, and CNOT rings on wires other than `0, …, N-1` -/
def Spec.Item.contractible : Item N → Prop
  | .gate ins => Spec.Instr.contractible ins
  | .layer _ _ _ | .hlayer _ => True
  | .ring ws | .ringDag ws => ws = List.finRange N
  | .ring2 _ | .basic _ _ _ => False

theorem build_supportTN {ins : Instr N} {g : Gate} (h : build ins = .ok g)
    (hc : Spec.Instr.contractible ins) : g.supportTN = true := by
  cases ins with
  | u3 θ φ l i =>
    obtain ⟨u, hu, -⟩ := u3Mat_rep θ φ l
    simp only [build, mkU3, hu, Py.ok_bind] at h
    cases h; rfl
  | cu3 θ φ l c t =>
    obtain ⟨u, hu, hr⟩ := u3Mat_rep θ φ l
    obtain ⟨m, hm, -⟩ := cu3_matrix hr
    simp only [build, mkCu3, hu, hm, Py.ok_bind] at h
    cases h; rfl
  | mcnot cs t => exact hc.elim
  | _ => cases h; rfl

theorem item_contract (it : Item N) (h : it.WF) (hc : Spec.Item.contractible it) :
    ∃ o, buildItem it = .ok o ∧ o.supportTN = true ∧ ContractsAs o.TN_contract it.op := by
  cases it with
  | gate ins =>
    obtain ⟨g, hg, rg⟩ := gate_contract ins h hc
    refine ⟨.gate g, by simp [buildItem, hg], ?_, rg⟩
    exact build_supportTN hg hc
  | layer k ws p =>
    obtain ⟨hN, hw, hp⟩ := h
    exact ⟨.single ⟨layerCls k, N, wires ws, p⟩, by
      simp only [buildItem]
      rw [mkSLayer_ok hw (by rw [layerCls_arity]; exact hp.symm)]
      rfl, rfl, sLayer_contract _ rfl ws hw rfl (fun i => seqRot k.axes (p.drop (k.axes.length * i)))
        (fun _ hi => wireMat_rep k hi hp)⟩
  | hlayer ws =>
    obtain ⟨hN, hw⟩ := h
    exact ⟨.single ⟨.h, N, wires ws, []⟩, by
      simp only [buildItem]
      rw [mkSLayer_ok hw (by simp [LayerCls.arity])]
      rfl, rfl, sLayer_contract _ rfl ws hw rfl (fun _ => H) (fun _ _ => ⟨_, rfl, hadamardMat_rep⟩)⟩
  | ring ws =>
    obtain ⟨hw, h2⟩ := h
    have hc' : ws = List.finRange N := hc
    subst hc'
    exact ⟨.ring ⟨.ring, N, wires (List.finRange N)⟩, by
      simp only [buildItem]; rw [mkRing_ok hw h2]; rfl, rfl,
      ring_contract .ring (by simp) (by simpa using h2)⟩
  | ringDag ws =>
    obtain ⟨hw, h2⟩ := h
    have hc' : ws = List.finRange N := hc
    subst hc'
    exact ⟨.ring ⟨.dagger, N, wires (List.finRange N)⟩, by
      simp only [buildItem]; rw [mkRing_ok hw h2]; rfl, rfl,
      ring_contract .dagger (by simp) (by simpa using h2)⟩
  | ring2 ws => exact hc.elim
  | basic ws p reps => exact hc.elim

end QTN
