import Verif.Lemmas.Ghz
import Verif.Lemmas.Methods
import Verif.Model.DaggerTest

/-! # Property C82: the script test_operation_dagger.py -/

namespace QTN.Props

open QTN QTN.Spec QTN.DaggerTest Matrix

variable {N : ℕ}

/-! ## The circuits -/

/-- The operations of `c1`. -/
def daggerItems1 (N : ℕ) (p1 p2 : List ℝ) : List (Item N) :=
  let ws := List.finRange N
  [.ring ws, .layer .xyz ws p1, .layer .yzy ws p1, .layer .xzx ws p1, .layer .zx ws p2, .layer .xz ws p2, .hlayer ws]

/-- The first nine operations of `c2`, those on one qubit; `a`, `b` and `z` are the qubits 0, 1 and `N-1`. -/
noncomputable def daggerItems2a (a b z : Fin N) : List (Item N) :=
  [.gate (.h b), .gate (.x a), .gate (.y b), .gate (.z z), .gate (.rx 0.236 a), .gate (.ry 6.263 b),
   .gate (.rz 1.259 z), .gate (.u1 0.98 b), .gate (.u3 0.54 2.14 0.95 a)]

/-- The other operations of `c2`. -/
noncomputable def daggerItems2b (a b z : Fin N) : List (Item N) :=
  [.gate (.rxx 0.48 a b), .gate (.ryy 5.48 a b), .gate (.ryy 2.50 a b), .gate (.cnot b a), .gate (.cz z a),
   .gate (.cphase 0.52 a b), .gate (.cu3 0.21 0.84 2.1 b a)]

theorem makes1 (N : ℕ) (p1 p2 : List ℝ) : List.Forall₂ Makes (calls1 N p1 p2) (daggerItems1 N p1 p2) := by
  unfold calls1 daggerItems1
  simp only [← wires_finRange]
  exact .cons rfl (.cons rfl (.cons rfl (.cons rfl (.cons rfl (.cons rfl (.cons rfl .nil))))))

theorem makes2 (hN : 2 ≤ N) : List.Forall₂ Makes (calls2 N)
    (daggerItems2a (N := N) ⟨0, by omega⟩ ⟨1, by omega⟩ ⟨N - 1, by omega⟩ ++
      daggerItems2b ⟨0, by omega⟩ ⟨1, by omega⟩ ⟨N - 1, by omega⟩) := by
  have e : (N : ℤ) - 1 = wire (⟨N - 1, by omega⟩ : Fin N) := by
    show (N : ℤ) - 1 = ((N - 1 : ℕ) : ℤ)
    omega
  unfold calls2 daggerItems2a daggerItems2b
  rw [e]
  exact .cons rfl (.cons rfl (.cons rfl (.cons rfl (.cons rfl (.cons rfl (.cons rfl (.cons rfl (.cons rfl
    (.cons rfl (.cons rfl (.cons rfl (.cons rfl (.cons rfl (.cons rfl (.cons rfl .nil)))))))))))))))

theorem wf1 (hN : 2 ≤ N) {p1 p2 : List ℝ} (h1 : p1.length = 3 * N) (h2 : p2.length = 2 * N) :
    ∀ it ∈ daggerItems1 N p1 p2, it.WF := by
  have hn := List.nodup_finRange N
  have h3 : ∀ k : LayerKind, k.axes.length = 3 → (Item.layer k (List.finRange N) p1).WF := fun k hk =>
    ⟨by omega, hn, by rw [hk, h1]; simp⟩
  have h4 : ∀ k : LayerKind, k.axes.length = 2 → (Item.layer k (List.finRange N) p2).WF := fun k hk =>
    ⟨by omega, hn, by rw [hk, h2]; simp⟩
  unfold daggerItems1
  simp only [List.forall_mem_cons, List.not_mem_nil, false_imp_iff, implies_true, and_true]
  exact ⟨⟨hn, by simpa using hN⟩, h3 _ rfl, h3 _ rfl, h3 _ rfl, h4 _ rfl, h4 _ rfl, by omega, hn⟩

theorem tn1 (N : ℕ) (p1 p2 : List ℝ) : ∀ it ∈ daggerItems1 N p1 p2, HasTN it := by
  unfold daggerItems1
  simp only [List.forall_mem_cons, List.not_mem_nil, false_imp_iff, implies_true, and_true]
  exact ⟨rfl, trivial, trivial, trivial, trivial, trivial, trivial⟩

theorem wf2a (a b z : Fin N) : ∀ it ∈ daggerItems2a a b z, it.WF ∧ HasTN it ∧ it.decomps = 0 := by
  unfold daggerItems2a
  simp only [List.forall_mem_cons, List.not_mem_nil, false_imp_iff, implies_true, and_true]
  refine ⟨?_, ?_, ?_, ?_, ?_, ?_, ?_, ?_, ?_⟩ <;> exact ⟨trivial, trivial, rfl⟩

theorem wf2b {a b z : Fin N} (h1 : a ≠ b) (h2 : z ≠ a) : ∀ it ∈ daggerItems2b a b z, it.WF := by
  unfold daggerItems2b
  simp only [List.forall_mem_cons, List.not_mem_nil, false_imp_iff, implies_true, and_true]
  exact ⟨h1, h1, h1, h1.symm, h2, h1, h1.symm⟩

/-! ## The first block -/

theorem diagLine_ones (it : Item N) (h : it.WF) (hd : Spec.Item.hasDagger it) {o : Op} (ho : buildItem it = .ok o) :
    diagLine o = .ok (Tensor.ofFn [2 ^ N] (fun _ => 1)) := by
  obtain ⟨o1, it', e1, hw', -, hop, o', ho', hdag⟩ := item_dagger it h hd
  rw [ho] at e1; cases e1
  obtain ⟨a, ea, A, eA, rA⟩ := item_ok it h
  rw [ho] at ea; cases ea
  obtain ⟨b, eb, B, eB, rB⟩ := item_ok it' hw'
  rw [ho'] at eb; cases eb
  obtain ⟨T, eT, rT⟩ := rB.matmul rA
  have hone : it'.op * it.op = 1 := by rw [hop]; exact (item_unitary it h).2
  rw [hone] at rT
  unfold diagLine daggerOf
  rw [hdag, Py.ok_bind]
  show (do let temp ← (← o'.U_expand).matmul (← o.U_expand); DaggerTest.diag temp) = _
  rw [eB, Py.ok_bind, eA, Py.ok_bind, eT, Py.ok_bind]
  unfold DaggerTest.diag
  rw [rT.1]
  dsimp only
  rw [min_self]
  congr 1
  refine Tensor.ext' rfl fun idx hidx => ?_
  have hidx' : inB [2 ^ N] idx = true := hidx
  rw [Tensor.get_ofFn hidx', Tensor.get_ofFn hidx']
  match idx, hidx with
  | [k], hk =>
    obtain ⟨a, rfl⟩ := exists_enc (show k < 2 ^ N by simpa using hk)
    show T.get [enc a, enc a] = 1
    rw [rT.2, Matrix.one_apply_eq]
  | [], hk => simp at hk
  | _ :: _ :: _, hk => simp at hk

theorem diagLines {l : List (Item N)} {ops : List Op} (ho : l.mapM buildItem = .ok ops)
    (h : ∀ it ∈ l, it.WF ∧ Spec.Item.hasDagger it) :
    ops.mapM diagLine = .ok (List.replicate l.length (Tensor.ofFn [2 ^ N] (fun _ => 1))) := by
  have h2 := mapM_built ho
  clear ho
  induction h2 with
  | nil => rfl
  | cons e _ ih =>
    have := h _ (List.mem_cons_self ..)
    rw [List.mapM_cons, diagLine_ones _ this.1 this.2 e, Py.ok_bind,
      ih fun it hit => h it (List.mem_cons_of_mem _ hit), Py.ok_bind]
    rfl

/-- C82, first block: for every number of qubits from 2 on and all parameters, the diagonals that are printed are all
ones, and the parameters printed for the dagger of the `XYZLayer` are those of the layer, negated and in reverse
order on every qubit. -/
theorem C82_diagonals (hN : 2 ≤ N) (p1 p2 : List ℝ) (h1 : p1.length = 3 * N) (h2 : p2.length = 2 * N) :
    ∃ out1 q out2, block1 N p1 p2 = .ok (out1, .vec p1, .vec q, out2) ∧ out1.length = 7 ∧ out2.length = 16 ∧
      (∀ t ∈ out1 ++ out2, t.shape = [2 ^ N] ∧ ∀ k < 2 ^ N, t.get [k] = 1) ∧
      q.length = 3 * N ∧ ∀ i < N, ∀ r < 3, q.getD (3 * i + r) 0 = -p1.getD (3 * i + (2 - r)) 0 := by
  have hw1 := wf1 hN h1 h2
  obtain ⟨ops1, ho1, -⟩ := C13_items N _ hw1
  have hw2 : ∀ it ∈ daggerItems2a (N := N) ⟨0, by omega⟩ ⟨1, by omega⟩ ⟨N - 1, by omega⟩ ++
      daggerItems2b ⟨0, by omega⟩ ⟨1, by omega⟩ ⟨N - 1, by omega⟩, it.WF := by
    intro it hit
    rcases List.mem_append.1 hit with h | h
    · exact (wf2a _ _ _ it h).1
    · exact wf2b (by simp) (by simp; omega) it h
  obtain ⟨ops2, ho2, -⟩ := C13_items N _ hw2
  obtain ⟨q, hq, hql, hqe⟩ := daggerParams_ok ⟨.xyz, N, wires (List.finRange N), p1⟩ 3 (by omega) (by simp [h1])
  have hd1 := diagLines ho1 fun it hit => ⟨hw1 it hit, by
    unfold daggerItems1 at hit
    simp only [List.mem_cons, List.not_mem_nil, or_false] at hit
    rcases hit with rfl | rfl | rfl | rfl | rfl | rfl | rfl <;> trivial⟩
  have hd2 := diagLines ho2 fun it hit => ⟨hw2 it hit, by
    unfold daggerItems2a daggerItems2b at hit
    simp only [List.cons_append, List.nil_append, List.mem_cons, List.not_mem_nil, or_false] at hit
    rcases hit with rfl | rfl | rfl | rfl | rfl | rfl | rfl | rfl | rfl | rfl | rfl | rfl | rfl | rfl | rfl | rfl <;>
      trivial⟩
  have hg : pyGet ops1 1 = .ok (.single ⟨.xyz, N, wires (List.finRange N), p1⟩) := by
    have hf := mapM_built ho1
    unfold daggerItems1 at hf
    cases hf with
    | cons _ hf =>
      cases hf with
      | @cons _ o _ _ e _ =>
        have e' : buildItem (.layer .xyz (List.finRange N) p1) = .ok (.single ⟨.xyz, N, wires (List.finRange N), p1⟩) := by
          show (do .ok (Op.single (← mkSLayer .xyz N (wires (List.finRange N)) p1)) : Py Op) = _
          rw [mkSLayer_ok (List.nodup_finRange N) (by simp [LayerCls.arity, h1]), Py.ok_bind]
        rw [e'] at e
        cases e
        exact pyGet_nat (k := 1) (by simp)
  have hdag : daggerOf (.single ⟨.xyz, N, wires (List.finRange N), p1⟩) =
      .ok (.single ⟨.zyx, N, wires (List.finRange N), q⟩) := by
    unfold daggerOf
    have : (⟨.xyz, N, wires (List.finRange N), p1⟩ : SLayer).operation_dagger =
        .ok ⟨.zyx, N, wires (List.finRange N), q⟩ := by
      unfold SLayer.operation_dagger
      dsimp only
      rw [hq, Py.ok_bind, mkSLayer_ok (List.nodup_finRange N) (by simp [LayerCls.arity, hql, h1])]
    unfold Op.operation_dagger
    dsimp only
    rw [this, Py.ok_bind, Py.ok_bind]
  refine ⟨List.replicate 7 (Tensor.ofFn [2 ^ N] fun _ => 1), q, List.replicate 16 (Tensor.ofFn [2 ^ N] fun _ => 1), ?_,
    rfl, rfl, ?_, hql.trans h1, ?_⟩
  · unfold block1
    rw [methods_ok (makes1 N p1 p2) ho1, Py.ok_bind, circ_gate, hd1, Py.ok_bind, hg, Py.ok_bind, hdag, Py.ok_bind,
      methods_ok (makes2 hN) ho2, Py.ok_bind, circ_gate, hd2, Py.ok_bind]
    rfl
  · intro t ht
    have : t = Tensor.ofFn [2 ^ N] fun _ => 1 := by
      rcases List.mem_append.1 ht with h | h <;> exact List.eq_of_mem_replicate h
    subst this
    exact ⟨rfl, fun k hk => Tensor.get_ofFn (by simpa using hk)⟩
  · intro i hi r hr
    rw [hqe i (by simpa using hi) r hr]
    interval_cases r <;> simp

/-- The script: three qubits. -/
example : ∃ out1 q out2, block1 3 [1, 2, 3, 4, 5, 6, 7, 8, 9] [1, 2, 3, 4, 5, 6] =
    .ok (out1, .vec [1, 2, 3, 4, 5, 6, 7, 8, 9], .vec q, out2) ∧ out1.length = 7 ∧ q.getD 3 0 = -6 := by
  obtain ⟨o1, q, o2, h, hl, -, -, -, hq⟩ := C82_diagonals (N := 3) (by omega) [1, 2, 3, 4, 5, 6, 7, 8, 9]
    [1, 2, 3, 4, 5, 6] rfl rfl
  refine ⟨o1, q, o2, h, hl, ?_⟩
  have := hq 1 (by omega) 0 (by omega)
  simpa using this

/-! ## The second block -/

theorem ip_self (v : QState N) : ip v v = ((norm2 v ^ 2 : ℝ) : ℂ) := by
  unfold ip norm2
  rw [Real.sq_sqrt (by positivity)]
  push_cast
  refine Finset.sum_congr rfl fun a _ => ?_
  rw [Complex.star_def, Complex.conj_mul']

theorem step_near {svd : SVDOracle} (hv : ValidSVD svd) (hN : 0 < N) {psi : Tensor ℂ} {v : QState N}
    (hp : IsRow psi v) (hn : norm2 v = 1) {it : Item N} (h : it.WF) (hc : HasTN it) {o : Op} (ho : buildItem it = .ok o)
    {mps : List (Tensor ℂ)} {k : ℕ} (hm : Near mps v k) (hk : ((k + 2 * it.decomps : ℕ) : ℝ) * cutUnit N < 1)
    (s : List (Tensor ℂ)) :
    ∃ mps' z s', DaggerTest.step svd psi o mps s = (.ok (mps', z), s') ∧ Near mps' v (k + 2 * it.decomps) ∧
      ‖z - 1‖ ≤ ((k + 2 * it.decomps : ℕ) : ℝ) * cutUnit N := by
  obtain ⟨o1, it', o', hb, hw', hc', hop, hb', hdag, hdec⟩ := item_dagger_tn it h hc
  have e1 : o1 = o := by unfold Built at hb; rw [ho] at hb; cases hb; rfl
  subst e1
  obtain ⟨m1, s1, e1, n1⟩ := near_step hv h hc hb hm (by
    rw [hn]; exact lt_of_le_of_lt (cut_mono (by omega)) hk) s
  obtain ⟨m2, s2, e2, n2⟩ := near_step hv hw' hc' hb' n1 (by
    rw [norm2_unitary (item_unitary it h), hn, hdec]; exact lt_of_le_of_lt (cut_mono (by omega)) hk) s1
  rw [hdec, Matrix.mulVec_mulVec, hop, (item_unitary it h).2, Matrix.one_mulVec,
    show k + it.decomps + it.decomps = k + 2 * it.decomps by omega] at n2
  obtain ⟨w, hw, hbd, hcon, hd⟩ := n2
  obtain ⟨p, ep, hpr⟩ := mps2sv_rep hw hN
  obtain ⟨pc, epc, hpc⟩ := row_view_col hp
  obtain ⟨t, et, st, gt⟩ := (row_conj hpr).mulCol hpc
  refine ⟨m2, ip w v, s2, ?_, ⟨w, hw, hbd, hcon, hd⟩, ?_⟩
  · have hdo : daggerOf o1 = .ok o' := by
      unfold daggerOf
      rw [hdag, Py.ok_bind]
    unfold DaggerTest.step
    rw [TNM.bind_ok e1, hdo, TNM.lift_ok_bind, TNM.bind_ok e2, ep, TNM.lift_ok_bind, epc, TNM.lift_ok_bind, et, TNM.lift_ok_bind,
      squeeze11 st, gt]
    rfl
  · have h1 := ip_diff (b := v) (b' := w) (f := v) (f' := v) (contr_norm hw hcon) hn.le
    rw [dist2_self, zero_add, ip_self, hn] at h1
    have h2 : (((1 : ℝ) ^ 2 : ℝ) : ℂ) = 1 := by norm_num
    rw [h2] at h1
    exact h1.trans hd

theorem loop_near {svd : SVDOracle} (hv : ValidSVD svd) (hN : 0 < N) {psi : Tensor ℂ} {v : QState N}
    (hp : IsRow psi v) (hn : norm2 v = 1) (guard : Bool) : ∀ {l : List (Item N)} {ops : List Op},
    List.Forall₂ (fun it o => buildItem it = .ok o) l ops → (∀ it ∈ l, it.WF) → (∀ it ∈ l, HasTN it) →
    ∀ {mps : List (Tensor ℂ)} {k : ℕ}, Near mps v k → ((k + 2 * cuts l : ℕ) : ℝ) * cutUnit N < 1 →
    ∀ (idx : ℕ) (s : List (Tensor ℂ)), ∃ out mps' s',
      (∀ rest, DaggerTest.loop svd psi guard (ops ++ rest) idx mps s =
        (out ++ (DaggerTest.loop svd psi guard rest (idx + l.length) mps' s').1,
          (DaggerTest.loop svd psi guard rest (idx + l.length) mps' s').2)) ∧
      Near mps' v (k + 2 * cuts l) ∧ out.map Prod.fst = List.range' idx l.length ∧
      ∀ p ∈ out, ‖p.2 - 1‖ ≤ ((k + 2 * cuts l : ℕ) : ℝ) * cutUnit N := by
  intro l ops hf
  induction hf with
  | nil =>
    intro _ _ mps k hm _ idx s
    exact ⟨[], mps, s, fun rest => rfl, hm, rfl, by simp⟩
  | @cons it o l ops e _ ih =>
    intro hw hc mps k hm hk idx s
    have hcut : k + 2 * cuts (it :: l) = k + 2 * it.decomps + 2 * cuts l := by rw [cuts_cons]; omega
    rw [hcut] at hk ⊢
    obtain ⟨m1, z, s1, e1, n1, b1⟩ := step_near hv hN hp hn (hw it (by simp)) (hc it (by simp)) e hm
      (lt_of_le_of_lt (cut_mono (by omega)) hk) s
    obtain ⟨out, m2, s2, e2, n2, i2, b2⟩ := ih (fun x hx => hw x (by simp [hx])) (fun x hx => hc x (by simp [hx])) n1 hk
      (idx + 1) s1
    obtain ⟨o1, ho1, hsup, -⟩ := item_mps hv it (hw it (by simp)) (hasTN_iff (hc it (by simp)))
    rw [e] at ho1; cases ho1
    refine ⟨(idx, z) :: out, m2, s2, fun rest => ?_, n2, ?_, ?_⟩
    · rw [List.cons_append, DaggerTest.loop, if_neg (by rw [hsup]; simp), e1]
      dsimp only
      rw [e2, List.length_cons, show idx + 1 + l.length = idx + (l.length + 1) by omega]
      rfl
    · rw [List.map_cons, i2, List.length_cons, List.range'_succ]
    · intro p hp
      rcases List.mem_cons.1 hp with rfl | h
      · exact b1.trans (cut_mono (by omega))
      · exact b2 p h

/-- C82, the loop over the operations of any circuit with tensor-network versions: it prints one number per
operation, with the index of the operation, and every number is within `N - 1` plus twice the number of decompositions
times `1e-8 · √(2 ^ (N / 2))` of 1. -/
theorem C82_loop {svd : SVDOracle} (hv : ValidSVD svd) (hN : 0 < N) (psi : Tensor ℂ) (v : QState N)
    (hp : IsRow psi v) (hn : norm2 v = 1) (guard : Bool) (l : List (Item N)) (h : ∀ it ∈ l, it.WF)
    (hc : ∀ it ∈ l, HasTN it)
    (ha : ((N - 1 + 2 * (l.map Item.decomps).sum : ℕ) : ℝ) * (1e-8 * Real.sqrt (2 ^ (N / 2))) < 1) :
    ∃ ops, l.mapM buildItem = .ok ops ∧ ∀ s, ∃ mps out mps' s' s'',
      StateVec2MPS svd psi N s = (.ok mps, s') ∧
      DaggerTest.loop svd psi guard ops 0 mps s' = (out, .ok mps', s'') ∧
      out.map Prod.fst = List.range l.length ∧
      ∀ p ∈ out, ‖p.2 - 1‖ ≤
        ((N - 1 + 2 * (l.map Item.decomps).sum : ℕ) : ℝ) * (1e-8 * Real.sqrt (2 ^ (N / 2))) := by
  obtain ⟨ops, ho, -⟩ := C13_items N l h
  refine ⟨ops, ho, fun s => ?_⟩
  obtain ⟨m0, s0, e0, n0⟩ := near_start hv hN hp hn.le (by
    rw [hn]; exact lt_of_le_of_lt (cut_mono (b := N - 1 + 2 * cuts l) (by omega)) ha) s
  obtain ⟨out, m1, s1, e1, -, i1, b1⟩ := loop_near hv hN hp hn guard (mapM_built ho) h hc n0 ha 0 s0
  refine ⟨m0, out, m1, s0, s1, e0, ?_, by rw [i1, List.range_eq_range'], b1⟩
  have := e1 []
  rw [List.append_nil] at this
  rw [this, DaggerTest.loop, List.append_nil]

/-- A list of operations (with 2 + 8 · 2 truncations) and a state to which `C82_loop` applies. -/
example : ∃ svd, ValidSVD svd ∧ ∃ (psi : Tensor ℂ) (v : QState 3), IsRow psi v ∧ norm2 v = 1 ∧
    (∀ it ∈ ([.gate (.cnot 0 2), .ring (List.finRange 3)] : List (Item 3)), it.WF ∧ HasTN it) ∧
    ((3 - 1 + 2 * (([.gate (.cnot 0 2), .ring (List.finRange 3)] : List (Item 3)).map Item.decomps).sum : ℕ) : ℝ) *
      (1e-8 * Real.sqrt (2 ^ (3 / 2))) < 1 := by
  obtain ⟨svd, hv⟩ := exists_validSVD
  obtain ⟨psi, v, hp, hn, -⟩ := ghz_row (N := 3) (by omega)
  refine ⟨svd, hv, psi, v, hp, hn, ?_, ?_⟩
  · simp [Item.WF, Instr.WF, HasTN, List.nodup_finRange]
  · have hs : Real.sqrt (2 ^ (3 / 2)) ≤ 1.5 := by
      rw [Real.sqrt_le_left (by norm_num)]; norm_num
    rw [show (3 - 1 + 2 * (([.gate (.cnot 0 2), .ring (List.finRange 3)] : List (Item 3)).map Item.decomps).sum : ℕ) =
      18 from rfl]
    push_cast
    linarith

/-- C82, second block: for every number of qubits from 2 on, every normalised state and all parameters the block
prints the indices 0 to 6 for `c1` and 0 to 8 for `c2`, each with a number close to 1, and then stops with
AttributeError: the next operation, `rxx`, says that it supports tensor networks and has no `TN_operation`. -/
theorem C82_overlaps {svd : SVDOracle} (hv : ValidSVD svd) (hN : 2 ≤ N) (p1 p2 : List ℝ) (h1 : p1.length = 3 * N)
    (h2 : p2.length = 2 * N) (psi : Tensor ℂ) (v : QState N) (hp : IsRow psi v) (hn : norm2 v = 1)
    (ha : (7 * N : ℝ) * (1e-8 * Real.sqrt (2 ^ (N / 2))) < 1) (s : List (Tensor ℂ)) :
    ∃ out, block2 svd N p1 p2 psi s = (out, .error .attributeError) ∧
      out.map Prod.fst = [0, 1, 2, 3, 4, 5, 6, 0, 1, 2, 3, 4, 5, 6, 7, 8] ∧
      ∀ p ∈ out, ‖p.2 - 1‖ ≤ (7 * N : ℝ) * (1e-8 * Real.sqrt (2 ^ (N / 2))) := by
  have hw1 := wf1 hN h1 h2
  obtain ⟨ops1, ho1, -⟩ := C13_items N _ hw1
  obtain ⟨ops2, ho2, -⟩ := C13_items N _ fun it hit => (wf2a (N := N) ⟨0, by omega⟩ ⟨1, by omega⟩ ⟨N - 1, by omega⟩ it hit).1
  obtain ⟨ops3, ho3, -⟩ := C13_items N _ (wf2b (N := N) (a := ⟨0, by omega⟩) (b := ⟨1, by omega⟩) (z := ⟨N - 1, by omega⟩)
    (by simp) (by simp; omega))
  have hcut : N - 1 + 2 * cuts (daggerItems1 N p1 p2) ≤ 7 * N := by
    unfold cuts daggerItems1
    simp only [List.map_cons, List.map_nil, Item.decomps, List.sum_cons, List.sum_nil]
    split_ifs <;> omega
  have hcut2 : cuts (daggerItems2a (N := N) ⟨0, by omega⟩ ⟨1, by omega⟩ ⟨N - 1, by omega⟩) = 0 := rfl
  have ha' : ((7 * N : ℕ) : ℝ) * cutUnit N < 1 := by push_cast; exact ha
  obtain ⟨m0, s0, e0, n0⟩ := near_start hv (by omega) hp hn.le (by
    rw [hn]; exact lt_of_le_of_lt (cut_mono (b := 7 * N) (by omega)) ha') s
  obtain ⟨out1, m1, s1, e1, n1, i1, b1⟩ := loop_near hv (by omega) hp hn false (mapM_built ho1) hw1 (tn1 N p1 p2) n0
    (lt_of_le_of_lt (cut_mono hcut) ha') 0 s0
  obtain ⟨out2, m2, s2, e2, n2, i2, b2⟩ := loop_near hv (by omega) hp hn true (mapM_built ho2)
    (fun it hit => (wf2a _ _ _ it hit).1) (fun it hit => (wf2a _ _ _ it hit).2.1) n1
    (by rw [hcut2]; exact lt_of_le_of_lt (cut_mono hcut) ha') 0 s1
  have hops : (daggerItems2a (N := N) ⟨0, by omega⟩ ⟨1, by omega⟩ ⟨N - 1, by omega⟩ ++
      daggerItems2b ⟨0, by omega⟩ ⟨1, by omega⟩ ⟨N - 1, by omega⟩).mapM buildItem = .ok (ops2 ++ ops3) := by
    rw [List.mapM_append, ho2, Py.ok_bind, ho3, Py.ok_bind]
    rfl
  have hlast : ∀ idx, DaggerTest.loop svd psi true ops3 idx m2 s2 = ([], .error .attributeError, s2) := by
    intro idx
    have hf := mapM_built ho3
    unfold daggerItems2b at hf
    cases hf with
    | cons e _ =>
      cases e
      rw [DaggerTest.loop, if_neg (by simp [Op.supportTN, Gate.supportTN, mkRxx])]
      rfl
  refine ⟨out1 ++ out2, ?_, ?_, ?_⟩
  · unfold block2
    rw [e0]
    dsimp only
    rw [methods_ok (makes1 N p1 p2) ho1]
    dsimp only
    have e1' := e1 []
    rw [List.append_nil, DaggerTest.loop, List.append_nil] at e1'
    rw [circ_gate, e1']
    dsimp only
    rw [methods_ok (makes2 hN) hops]
    dsimp only
    rw [circ_gate, e2, hlast]
    simp
  · rw [List.map_append, i1, i2]; rfl
  · have hb : ∀ p ∈ out1 ++ out2, ‖p.2 - 1‖ ≤ ((7 * N : ℕ) : ℝ) * cutUnit N := by
      intro p hp
      rcases List.mem_append.1 hp with h | h
      · exact (b1 p h).trans (cut_mono hcut)
      · exact (b2 p h).trans (by rw [hcut2]; exact cut_mono hcut)
    intro p hp
    have := hb p hp
    push_cast at this
    exact this

/-- C82, the script itself, three qubits: all printed numbers are within `4e-7` of 1. -/
theorem C82_script {svd : SVDOracle} (hv : ValidSVD svd) (p1 p2 : List ℝ) (h1 : p1.length = 9) (h2 : p2.length = 6)
    (psi : Tensor ℂ) (v : QState 3) (hp : IsRow psi v) (hn : norm2 v = 1) (s : List (Tensor ℂ)) :
    ∃ out, block2 svd 3 p1 p2 psi s = (out, .error .attributeError) ∧ out.length = 16 ∧
      ∀ p ∈ out, ‖p.2 - 1‖ ≤ 4e-7 := by
  have hs : Real.sqrt (2 ^ (3 / 2)) ≤ 1.5 := by
    rw [Real.sqrt_le_left (by norm_num)]; norm_num
  have hb : (7 * (3 : ℕ) : ℝ) * (1e-8 * Real.sqrt (2 ^ (3 / 2))) ≤ 4e-7 := by push_cast; linarith
  obtain ⟨out, e, i, b⟩ := C82_overlaps hv (by omega) p1 p2 h1 h2 psi v hp hn (lt_of_le_of_lt hb (by norm_num)) s
  refine ⟨out, e, ?_, fun p hp => (b p hp).trans hb⟩
  have := congrArg List.length i
  simpa using this

/-- An entangled state and parameters to which `C82_script` applies. -/
example : ∃ svd, ValidSVD svd ∧ ∃ (psi : Tensor ℂ) (v : QState 3), IsRow psi v ∧ norm2 v = 1 ∧
    ∃ out, block2 svd 3 [1, 2, 3, 4, 5, 6, 7, 8, 9] [1, 2, 3, 4, 5, 6] psi [] = (out, .error .attributeError) ∧
      ∀ p ∈ out, ‖p.2 - 1‖ ≤ 4e-7 := by
  obtain ⟨svd, hv⟩ := exists_validSVD
  set psi : Tensor ℂ := Tensor.ofFn [1, 2 ^ 3] (fun idx => if idx = [0, 0] then 3 / 5 else if idx = [0, 7] then 4 / 5 else 0)
    with hpsi
  have hr : IsRow psi (fun a : Bits 3 => psi.get [0, enc a]) := row_of_shape rfl
  have hn : norm2 (fun a : Bits 3 => psi.get [0, enc a]) = 1 := by
    unfold norm2
    rw [← sum_enc (N := 3) (fun k => ‖psi.get [0, k]‖ ^ 2)]
    have : ∀ k < 8, psi.get [0, k] = if k = 0 then 3 / 5 else if k = 7 then 4 / 5 else 0 := by
      intro k hk
      rw [hpsi, Tensor.get_ofFn (by simpa using hk)]
      simp
    rw [show (2 ^ 3 : ℕ) = 8 by norm_num, Finset.sum_congr rfl fun k hk => by rw [this k (Finset.mem_range.1 hk)]]
    simp [Finset.sum_range_succ]
    norm_num
  obtain ⟨out, e, -, b⟩ := C82_script hv [1, 2, 3, 4, 5, 6, 7, 8, 9] [1, 2, 3, 4, 5, 6] rfl rfl psi _ hr hn []
  exact ⟨svd, hv, psi, _, hr, hn, out, e, b⟩

end QTN.Props
