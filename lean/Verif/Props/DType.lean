import Verif.Lemmas.LayoutType
import Verif.Props.Layout

/-! # Properties C70 and C71: data types of states, observables and parameters -/

namespace QTN.Props

open QTN QTN.Spec Matrix

variable {N : ℕ}

/-- A call that returns nothing raises. -/
theorem fails_of_ret {α : Type} {x : Py α} (h : Ret x (fun _ => False)) : Fails x := by
  cases hx : x with
  | error e => exact ⟨e, rfl⟩
  | ok a => exact (h a hx).elim

theorem failsT_of_ret {α : Type} {x : TNM α} (h : RetT x (fun _ => False)) : FailsT x := by
  intro s
  rcases hx : x s with ⟨e | a, s'⟩
  · exact ⟨e, s', rfl⟩
  · exact (h s a s' hx).elim

theorem tn_flagged {it : Item N} (h : HasTN it) : ¬ Unflagged it := by
  intro hu
  cases it with
  | gate ins => cases ins <;> first | exact h | exact hu
  | _ => first | exact h | exact hu

/-! ## C70 -/

/-- C70 (partial: the tensor-network path): a float32 or integer row gives the same result, exceptions
included, as a complex64 row with the same entries.  Missing for the full statement: the matrix path, for
which it is false (`C70_matrix_path_raises`), and double precision, for which it is false
(`C70_returned_types`). -/
theorem C70_real_state_partial {svd : SVDOracle} (hsvd : ValidSVD svd) {lay : Lay} (hl : LayoutOK lay)
    {x : XCircuit} {c : Circuit} (hx : IsTyped x c) (hc : c.TN_check = true)
    (h1 : c.nqubits = 1 → ∀ o ∈ c.gate, OneQubit o) {init M : XT} {e : DT}
    (he : e = .i64 ∨ e = .f32 ∨ e = .c64) (hi : HasType e init) {n : ℕ} (hs : init.val.shape = [1, n])
    (hM : HasType .c64 M) :
    x.cir_expectationX svd lay init M true = c.cir_expectation svd init.val M.val true :=
  sim_eq (sim_expectation_tn hsvd (layoutOK_valid hl) hx h1 (by rcases he with rfl | rfl | rfl <;> rfl)
    (hasType_sees hi) hs (hasType_sees hM) hc)

/-- C70: the matrix path raises RuntimeError for every row that is not complex64. -/
theorem C70_matrix_path_raises (svd : SVDOracle) {lay : Lay} (hl : LayoutOK lay) {x : XCircuit} {c : Circuit}
    (hx : IsTyped x c) {tn : Bool} (hc : c.TN_check = false ∨ tn = false) {init M : XT}
    (hi : HasType init.dt init) (hne : init.dt ≠ .c64) (hs : init.val.shape = [1, 2 ^ c.nqubits]) {k : ℕ}
    (hM : M.val.shape = [k, k]) {u : Tensor ℂ} (hu : c.U = .ok u) (s : List (Tensor ℂ)) :
    x.cir_expectationX svd lay init M tn s = (.error .runtimeError, s) := by
  obtain ⟨hv, ht⟩ := C68_matrix hl hx true
  rw [hu] at hv
  have hn := hx.nqubits
  unfold XCircuit.cir_expectationX
  rw [hs, hM, hn]
  have e0 : pyGet [1, 2 ^ c.nqubits] 0 = .ok 1 := rfl
  have e1 : pyGet [1, 2 ^ c.nqubits] 1 = .ok (2 ^ c.nqubits) := rfl
  have m0 : pyGet [k, k] 0 = .ok k := rfl
  have m1 : pyGet [k, k] 1 = .ok k := rfl
  rw [e0, TNM.lift_ok_bind, raiseIf_false (by simp), TNM.lift_ok_bind, e1, TNM.lift_ok_bind,
    raiseIf_false (by simp), TNM.lift_ok_bind, m0, TNM.lift_ok_bind, m1, TNM.lift_ok_bind,
    raiseIf_false (by simp), TNM.lift_ok_bind, sim_check hx, if_neg (by
      rintro ⟨a, b⟩
      rcases hc with h | h
      · rw [a] at h; cases h
      · rw [b] at h; cases h)]
  cases hU : x.UX lay true with
  | error e => rw [hU] at hv; cases hv
  | ok w =>
    rw [TNM.lift_ok_bind]
    have hcol := view_col (hasType_sees hi) hs
    obtain ⟨v, ev⟩ : ∃ v, init.view [-1, 1] = .ok v := by
      cases hw : init.view [-1, 1] with
      | ok v => exact ⟨v, rfl⟩
      | error e =>
        rw [hw] at hcol
        cases hw' : init.val.view [-1, 1] with
        | error e' =>
          exfalso
          revert hw'
          unfold Tensor.view Tensor.inferShape
          simp [Tensor.numel, hs, Nat.mod_one]
        | ok v => rw [hw'] at hcol; exact hcol.elim
    rw [ev, TNM.lift_ok_bind]
    have hvd : v.dt = init.dt := ret_view init _ v ev
    have : w.matmul lay v = .error .runtimeError := by
      unfold XT.matmul
      rw [raiseIf_true (by rw [(ht w hU).1, hvd]; exact fun h => hne h.symm)]
      rfl
    rw [this, TNM.lift_error_bind]

/-- C70: so the two paths of `cir_expectation` disagree on every real float32 state: for a circuit of valid
operations with tensor-network support one returns `Re ⟨ψ|U† M U|ψ⟩`, the other raises RuntimeError. -/
theorem C70_paths_disagree {svd : SVDOracle} (hsvd : ValidSVD svd) {lay : Lay} (hl : LayoutOK lay) (hN : 2 ≤ N)
    (l : List (Item N)) (h : ∀ it ∈ l, it.WF) (hc : ∀ it ∈ l, HasTN it) (init M : XT)
    (hi : HasType .f32 init) (hM : HasType .c64 M) (v : QState N) (hv : IsRow init.val v) (h0 : v ≠ 0)
    (O : QOp N) (hO : Represents M.val O) :
    ∃ ops, l.mapM buildItem = .ok ops ∧ ∀ x, IsTyped x (circ N ops) → ∀ s,
      (∀ A ∈ (x.cir_expectationX svd lay init M true s).2, Lossless A) →
      (∃ r s', x.cir_expectationX svd lay init M true s = (.ok r, s') ∧
        r = (braket ((circuitOp l)ᴴ * O * circuitOp l) v).re) ∧
      x.cir_expectationX svd lay init M false s = (.error .runtimeError, s) := by
  obtain ⟨ops, hops, H⟩ := C28_paths_agree_partial hsvd (by omega) l h hc init.val M.val v hv h0 O hO
  obtain ⟨ops', hops', hU⟩ := C13_items N l h
  obtain rfl : ops' = ops := by
    rw [hops] at hops'
    cases hops'
    rfl
  refine ⟨ops', hops, fun x hx s hlog => ⟨?_, ?_⟩⟩
  · have htn : (circ N ops').TN_check = true := by
      unfold Circuit.TN_check
      rw [circ_gate, List.all_eq_true]
      intro o ho
      obtain ⟨j, hj, hb⟩ := forall₂_mem (mapM_mem hops).flip ho
      have hb := build_supportTN j o hb
      by_contra hno
      exact tn_flagged (hc j hj) (hb.1 (by simpa using hno))
    have key := C70_real_state_partial hsvd hl hx htn
      (fun e => absurd (circ_nqubits N ops' ▸ e : N = 1) (by omega)) (.inr (.inl rfl)) hi hv.1 hM
    rw [key] at hlog ⊢
    obtain ⟨r, s', h1, -, h2⟩ := H s hlog
    exact ⟨r, s', h1, h2⟩
  · obtain ⟨⟨u, hu, -⟩, -⟩ := hU
    refine C70_matrix_path_raises svd hl hx (.inr rfl) (hi.1 ▸ hi) (by rw [hi.1]; decide) ?_ hO.1 hu s
    rw [circ_nqubits]
    exact hv.1

/-- C70: which types can be combined.  If `cir_expectation` returns a number, then the tensor-network path
had an observable of the complex type belonging to the row; on the matrix path both were complex64.  For any
circuit, any parameters and any layout.  So a real observable is never accepted, and a double-precision row
never together with a complex64 observable. -/
theorem C70_returned_types (svd : SVDOracle) (lay : Lay) (x : XCircuit) (init M : XT) (tn : Bool)
    {s s' : List (Tensor ℂ)} {r : ℝ} (h : x.cir_expectationX svd lay init M tn s = (.ok r, s')) :
    (x.TN_check = true ∧ tn = true → M.dt = init.dt.toComplex) ∧
      (¬ (x.TN_check = true ∧ tn = true) → init.dt = .c64 ∧ M.dt = .c64) := by
  have key : RetT (x.cir_expectationX svd lay init M tn) (fun _ =>
      (x.TN_check = true ∧ tn = true → M.dt = init.dt.toComplex) ∧
        (¬ (x.TN_check = true ∧ tn = true) → init.dt = .c64 ∧ M.dt = .c64)) := by
    unfold XCircuit.cir_expectationX
    refine RetT.skip fun _ _ => RetT.skip fun _ _ => RetT.skip fun _ _ => RetT.skip fun _ _ =>
      RetT.skip fun _ _ => RetT.skip fun _ _ => RetT.skip fun _ _ => ?_
    split
    · rename_i hc
      refine RetT.bindL (ret_view init _) fun v hv => (ret_StateVec2MPS v _).bind fun m hm => ?_
      refine (ret_evolution hm).bind fun m hm => RetT.bindL (ret_MPS2SV hm) fun p hp => ?_
      refine RetT.lift (ret_quad.mono fun _ hq => ⟨fun _ => ?_, fun hn => absurd hc hn⟩)
      rw [← hq, hp, hv]
    · rename_i hc
      have hU : Ret (x.UX lay) (fun u => u.dt = .c64) := by
        unfold XCircuit.UX
        refine Ret.foldlM (P := fun u : XT => u.dt = .c64) (fun m o hm => Ret.skip fun u _ => ?_) _ _ rfl
        rw [if_pos rfl]
        exact (ret_matmul _ _).mono fun v hv => hv.2.trans hm
      refine RetT.bindL hU fun u hu => RetT.bindL (ret_view init _) fun v hv => ?_
      refine RetT.bindL (ret_matmul u v) fun p hp => ?_
      refine RetT.lift (ret_quad.mono fun _ hq => ⟨fun hy => absurd hy hc, fun _ => ?_⟩)
      have hi : init.dt = .c64 := hv.symm.trans (hp.1.symm.trans hu)
      exact ⟨hi, hq.symm.trans (hp.2.trans (hv.trans hi))⟩
  exact key s r s' h

/-- C70: `MatrixProductState` keeps the type of the state (no `+ 0j`), so contracting a real tensor with a
circuit raises as soon as the circuit contains a gate other than SWAP. -/
theorem C70_contraction_raises (lay : Lay) {x : XCircuit} {T : XT} {batch : Bool} (hT : T.dt ≠ .c64)
    (hx : ∀ o ∈ x.gate, TypeSuits o) {o : XOp} (ho : o ∈ x.gate) {g : Gate} (hg : o.op = .gate g)
    (hs : g.cls ≠ .swap) : Fails (x.TN_contract_evolutionX lay T batch) := by
  refine fails_of_ret (ret_contraction_stuck ho fun U hU => ?_)
  unfold XOp.TN_contractX
  rw [hg]
  refine Gate.ret_TN_contract.mono fun v hv => ?_
  have hm : Gate.matTy g.cls o.pd = .c64 := (suits_gate (hx o ho) hg).1
  exact hT (hU.symm.trans ((hv.2 hs).symm.trans hm))

/-- C70: `MatrixProductState` returns a tensor of the type of the state. -/
theorem C70_mps_type (psi : XT) (N : ℕ) {t : XT} (h : MatrixProductStateX psi N = .ok t) : t.dt = psi.dt := by
  have : Ret (MatrixProductStateX psi N) (fun t => t.dt = psi.dt) :=
    Ret.skip fun _ _ => Ret.skip fun _ _ => ret_view _ _
  exact this t h

/-- C70: `Rho2MPS` rejects every real density matrix (`N ≥ 1`), since `S @ V^†` then multiplies a complex and
a real matrix. -/
theorem C70_real_rho_raises (svd : SVDOracle) (lay : Lay) {rho : XT} (hr : rho.dt.isComplex = false) (hN : 0 < N) :
    FailsT (Rho2MPSX svd lay rho N) := by
  refine failsT_of_ret ?_
  unfold Rho2MPSX
  refine RetT.skip fun _ _ => RetT.skip fun _ _ => RetT.bindL (ret_view rho _) fun v hv => ?_
  obtain ⟨k, rfl⟩ := Nat.exists_eq_succ_of_ne_zero hN.ne'
  unfold Rho2MPS_loopX
  refine RetT.bindL (ret_rhoRegroup v _) fun r hr' => (ret_svdTrunc r).bind fun p hp => ?_
  have := hp.1
  rw [hr', hv, hr] at this
  cases this

theorem svdTrunc_real {svd : SVDOracle} (hsvd : ValidSVD svd) (lay : Lay) {A : XT} {m n : ℕ}
    (hA : A.val.shape = [m, n]) (hd : A.dt.isComplex = false) (s : List (Tensor ℂ)) :
    ∃ s', svdTruncX svd lay A s = (.error .runtimeError, s') := by
  unfold svdTruncX
  by_cases hi : A.dt = .i64
  · refine ⟨s, TNM.bind_error ?_ _⟩
    unfold callSvdX
    rw [if_pos hi]
  · have hS := hsvd s A.val m n hA
    have e : callSvdX svd lay A s = (.ok (⟨(svd s A.val).U, A.dt, lay.svdU A⟩, (svd s A.val).S,
        ⟨(svd s A.val).V, A.dt, lay.svdV A⟩), s ++ [A.val]) := by
      unfold callSvdX
      rw [if_neg hi, if_pos (by simp [Tensor.rank, hA])]
    refine ⟨s ++ [A.val], ?_⟩
    rw [TNM.bind_ok e]
    obtain ⟨v, ev, -, -⟩ := transpose_mat hS.shapeV
    have ep : ∃ w, XT.permute ⟨(svd s A.val).V, A.dt, lay.svdV A⟩ [1, 0] = .ok w ∧ w.dt = A.dt := by
      unfold XT.permute
      dsimp only
      rw [ev, Py.ok_bind, show (svd s A.val).V.rank = 2 by simp [Tensor.rank, hS.shapeV]]
      exact ⟨_, rfl, rfl⟩
    obtain ⟨w, ew, hw⟩ := ep
    have hne : A.dt.toReal.toComplex ≠ w.conj.dt := by
      have : w.conj.dt = A.dt := hw
      rw [this]
      revert hd
      cases A.dt <;> simp [DT.isComplex, DT.toReal, DT.toComplex]
    have hm : ∀ S : XT, S.dt = A.dt.toReal.toComplex → S.matmul lay w.conj = .error .runtimeError := fun S hS => by
      unfold XT.matmul
      rw [raiseIf_true (by rw [hS]; exact hne), Py.error_bind]
    dsimp only
    rw [ew, TNM.lift_ok_bind]
    split_ifs with hD
    · have hlen : ((svd s A.val).S.filter (fun s => decide (|s| > cutoff))).length ≤ min m n := by
        rw [← hS.lenS]; exact List.length_filter_le _ _
      generalize ((svd s A.val).S.filter (fun s => decide (|s| > cutoff))).length = D at hD hlen
      by_cases h0 : D = 0
      · rw [raiseIf_true h0, TNM.lift_error_bind]
      · rw [raiseIf_false h0, TNM.lift_ok_bind]
        have e1 : ∃ u, XT.indexSelect1 ⟨(svd s A.val).U, A.dt, lay.svdU A⟩ (List.range D) = .ok u := by
          unfold XT.indexSelect1 Tensor.indexSelect1
          dsimp only
          rw [hS.shapeU]
          dsimp only
          rw [if_pos (by simpa using fun x hx => Nat.lt_of_lt_of_le hx hlen)]
          exact ⟨_, rfl⟩
        have e2 : ∃ u, (XT.fresh (Tensor.ofList ((svd s A.val).S.map Complex.ofReal)).diagMat
            A.dt.toReal.toComplex).indexSelect0 (List.range D) = .ok u ∧ u.dt = A.dt.toReal.toComplex := by
          have hsh : (Tensor.ofList ((svd s A.val).S.map Complex.ofReal)).diagMat.shape =
              [(svd s A.val).S.length, (svd s A.val).S.length] := by
            simp [Tensor.diagMat, Tensor.ofList, Tensor.ofFn]
          unfold XT.indexSelect0 XT.fresh Tensor.indexSelect0
          dsimp only
          rw [hsh]
          dsimp only
          rw [if_pos (by rw [hS.lenS]; simpa using fun x hx => Nat.lt_of_lt_of_le hx hlen)]
          exact ⟨_, rfl, rfl⟩
        obtain ⟨u, eu⟩ := e1
        obtain ⟨S, eS, hSd⟩ := e2
        rw [eu, TNM.lift_ok_bind, eS, TNM.lift_ok_bind, hm S hSd, TNM.lift_error_bind]
    · rw [hm _ rfl, TNM.lift_error_bind]

/-- C70: the exception is RuntimeError for every real or integer matrix of the right size, however it lies in
memory. -/
theorem C70_real_rho_error {svd : SVDOracle} (hsvd : ValidSVD svd) (lay : Lay) {rho : XT} (hN : 0 < N)
    (hs : rho.val.shape = [2 ^ N, 2 ^ N]) (ht : HasType rho.dt rho) (hr : rho.dt.isComplex = false)
    (s : List (Tensor ℂ)) : ∃ s', Rho2MPSX svd lay rho N s = (.error .runtimeError, s') := by
  obtain ⟨a, b, hab⟩ := two_strides (ht.2.trans (by rw [hs]; rfl))
  by_cases hne : a = 2 ^ N * b
  · unfold Rho2MPSX
    rw [raiseIf_false (by simp [Tensor.rank, hs]), TNM.lift_ok_bind, raiseIf_false (by simp [hs]),
      TNM.lift_ok_bind]
    have hv : ∃ v, rho.val.view [1, -1] = .ok v ∧ v.shape = [1, 2 ^ N * 2 ^ N] := by
      have hp : 0 < 2 ^ N * 2 ^ N := by positivity
      unfold Tensor.view Tensor.inferShape
      simp only [Tensor.numel, hs]
      simp [Nat.mod_one]
    obtain ⟨v, hv, hvs⟩ := hv
    have hsim := sim_view (hasType_sees ht) [1, -1] fun w hw => by
      rw [hv] at hw
      cases hw
      rw [hvs, hs, hab]
      exact (row_view_iff (Nat.one_lt_two_pow (by omega))).2 hne
    rw [hv] at hsim
    cases hx : rho.view [1, -1] with
    | error e => rw [hx] at hsim; exact hsim.elim
    | ok x =>
      rw [hx] at hsim
      have hxv : Sees rho.dt x v := hsim
      rw [TNM.lift_ok_bind]
      obtain ⟨k, rfl⟩ := Nat.exists_eq_succ_of_ne_zero hN.ne'
      have hp : 0 < 2 ^ k := by positivity
      obtain ⟨A, eA, sA, -⟩ := rhoRegroup_ok (r := v) (D := 1) (h := 2 ^ k) (w := 2 ^ k) hp hp
        (by rw [hvs, Nat.succ_eq_add_one, pow_succ]; congr 2; ring)
      have hsim2 := sim_rhoRegroup hxv (2 ^ (k + 1))
      rw [show (2 : ℕ) ^ (k + 1) = 2 * 2 ^ k by ring, eA] at hsim2
      unfold Rho2MPS_loopX
      rw [show (2 : ℕ) ^ (k + 1) = 2 * 2 ^ k by ring]
      cases hy : rhoRegroupX x (2 * 2 ^ k) with
      | error e => rw [hy] at hsim2; exact hsim2.elim
      | ok y =>
        rw [hy] at hsim2
        have hyA : SeesD rho.dt y A := hsim2
        rw [TNM.lift_ok_bind]
        obtain ⟨s', e⟩ := svdTrunc_real hsvd lay (A := y) (by rw [hyA.1.1]; exact sA) (by rw [hyA.1.2.1]; exact hr) s
        exact ⟨s', TNM.bind_error e _⟩
  · exact ⟨s, C69_other_layouts_raise svd lay hN hs hab hne s⟩

/-- An integer matrix and its transpose in memory. -/
example : ∃ rho rho' : XT, rho.dt = .i64 ∧ rho'.dt = .f32 ∧ HasType rho.dt rho ∧ HasType rho'.dt rho' ∧
    rho.val.shape = [2 ^ 2, 2 ^ 2] ∧ rho'.val.shape = [2 ^ 2, 2 ^ 2] ∧ rho'.str = [1, 4] ∧
    rho.dt.isComplex = false ∧ rho'.dt.isComplex = false :=
  ⟨⟨Tensor.eye 4, .i64, [4, 1]⟩, ⟨Tensor.eye 4, .f32, [1, 4]⟩, rfl, rfl, ⟨rfl, rfl⟩, ⟨rfl, rfl⟩, rfl, rfl, rfl, rfl, rfl⟩

/-- A real state of three qubits and a circuit for it; a real density matrix. -/
example : ∃ (x : XCircuit) (c : Circuit) (init M rho : XT), IsTyped x c ∧ c.TN_check = true ∧ c.nqubits = 3 ∧
    HasType .f32 init ∧ init.val.shape = [1, 2 ^ 3] ∧ HasType .c64 M ∧ M.val.shape = [8, 8] ∧
    rho.dt.isComplex = false ∧ ∃ o ∈ x.gate, ∃ g, o.op = .gate g ∧ g.cls ≠ .swap := by
  refine ⟨⟨3, [⟨.gate (mkHadamard 3 (.int 0)), .f32⟩, ⟨.gate (mkCnot 3 (.list [0, 2])), .f32⟩]⟩,
    ⟨3, [.gate (mkHadamard 3 (.int 0)), .gate (mkCnot 3 (.list [0, 2]))], fun _ => none, 0⟩,
    ⟨Tensor.ofFn [1, 8] (fun _ => 1), .f32, [8, 1]⟩, ⟨Tensor.eye 8, .c64, [8, 1]⟩,
    XT.fresh (Tensor.eye 4) .f32, ⟨rfl, rfl, ?_⟩, rfl, rfl, ⟨rfl, rfl⟩, rfl, ⟨rfl, rfl⟩, rfl, rfl,
    _, List.mem_cons_self, _, rfl, by decide⟩
  intro o ho
  fin_cases ho <;> exact .inl (.inl rfl)

/-! ## C71 -/

/-- C71 (partial: operations whose matrices stay complex64): the precision in which parameters are given does
not matter.  `x` and `x'` hold the same operations, possibly with parameters of different types.  Missing for
the full statement: float64 parameters of `u1`, `cphase` and layers of rotations, for which it is false
(`C71_double_raises`). -/
theorem C71_precision_partial {svd : SVDOracle} (hsvd : ValidSVD svd) {lay : Lay} (hl : LayoutOK lay)
    {x x' : XCircuit} {c : Circuit} (hx : IsTyped x c) (hx' : IsTyped x' c) :
    (∀ mps, (∀ t ∈ mps, HasType .c64 t) →
      valuesT (List.map XT.val) (x.TN_evolutionX svd lay mps) =
        valuesT (List.map XT.val) (x'.TN_evolutionX svd lay mps)) ∧
    (∀ T batch, HasType .c64 T →
      values (x.TN_contract_evolutionX lay T batch) = values (x'.TN_contract_evolutionX lay T batch)) ∧
    (∀ ltr, values (x.UX lay ltr) = values (x'.UX lay ltr)) ∧
    ((c.nqubits = 1 → ∀ o ∈ c.gate, OneQubit o) → ∀ init M tn n, HasType .c64 init →
      init.val.shape = [1, n] → HasType .c64 M →
      x.cir_expectationX svd lay init M tn = x'.cir_expectationX svd lay init M tn) := by
  refine ⟨fun m hm => ?_, fun T b hT => ?_, fun ltr => ?_, fun h1 i M tn n hi hs hM => ?_⟩
  · rw [C68_evolution hsvd hl hx hm, C68_evolution hsvd hl hx' hm]
  · rw [C68_contraction hl hx hT, C68_contraction hl hx' hT]
  · rw [(C68_matrix hl hx ltr).1, (C68_matrix hl hx' ltr).1]
  · rw [C68_expectation hsvd hl hx h1 hi hs hM tn, C68_expectation hsvd hl hx' h1 hi hs hM tn]

/-- C71 is false in general: a circuit with a `u1` or `cphase` gate or a layer of rotations whose parameters
are a float64 tensor raises on every route, whatever else it contains. -/
theorem C71_double_raises (svd : SVDOracle) (lay : Lay) {x : XCircuit} {o : XOp} (ho : o ∈ x.gate)
    (hd : BecomesDouble o) :
    (∀ ltr, Fails (x.UX lay ltr)) ∧
    (∀ mps, (∀ t ∈ mps, t.dt = .c64) → FailsT (x.TN_evolutionX svd lay mps)) ∧
    (∀ T batch, T.dt = .c64 → Fails (x.TN_contract_evolutionX lay T batch)) ∧
    (∀ init M tn, M.dt = .c64 → FailsT (x.cir_expectationX svd lay init M tn)) := by
  have hU : Ret (o.U_expandX lay) (fun v => v.dt ≠ .c64) := by
    obtain ⟨hpd, hd⟩ := hd
    unfold XOp.U_expandX
    rw [hpd]
    cases h : o.op with
    | gate g =>
      rw [h] at hd
      refine (Gate.ret_typed _ _).mono fun v hv => ?_
      rw [hv]
      rcases hd with hd | hd <;> rw [hd] <;> decide
    | single l =>
      rw [h] at hd
      refine (ret_layer_U hd.1 hd.2).mono fun v hv => ?_
      rw [hv]
      decide
    | ring r => rw [h] at hd; exact hd.elim
    | basic b =>
      rw [h] at hd
      obtain ⟨h0, hp⟩ := hd
      refine Ret.mono (Q := fun _ => False) ?_ fun _ h => h.elim
      unfold Basic.U_expandX
      refine Ret.skip fun _ _ => Ret.skip fun R _ => ?_
      have hmem : 0 ∈ List.range b.reps.toNat := by
        rw [List.mem_range]
        omega
      refine Ret.foldlM_stuck (P := fun _ => True) (fun _ _ _ _ _ => trivial) hmem (fun a _ => ?_) _ trivial
      refine (ret_pyGet (P := fun l => l.cls ≠ .h ∧ l.wires ≠ []) hp _).bind fun l hl => ?_
      refine (ret_layer_U hl.1 hl.2).bind fun u hu => (ret_matmul _ u).bind fun v hv => ?_
      exact absurd (show DT.c64 = DT.c128 from hv.1.trans hu) (by decide)
  have hT : ∀ m, AllT .c64 m → RetT (o.TN_operationX svd lay m) (fun _ => False) := by
    intro m hm
    obtain ⟨hpd, hd⟩ := hd
    unfold XOp.TN_operationX
    rw [hpd]
    cases h : o.op with
    | gate g =>
      rw [h] at hd
      dsimp only
      unfold Gate.TN_operationX
      rcases hd with hd | hd
      · rw [hd]
        refine RetT.lift ((Gate.ret_single hm).mono fun _ h => ?_)
        rw [hd] at h
        exact absurd h.2 (by decide)
      · rw [hd]
        refine (Gate.ret_ctrl hm).mono fun _ h => ?_
        rw [hd] at h
        exact absurd h.2 (by decide)
    | single l =>
      rw [h] at hd
      exact RetT.lift (ret_layer_op_stuck hm (ret_calSingle hd.1) hd.2 (by decide))
    | ring r => rw [h] at hd; exact hd.elim
    | basic b => exact RetT.lift Ret.error
  have hC : ∀ (T : XT) (batch : Bool), T.dt = .c64 → Ret (o.TN_contractX lay T batch) (fun _ => False) := by
    intro T batch hT
    obtain ⟨hpd, hd⟩ := hd
    unfold XOp.TN_contractX
    rw [hpd]
    cases h : o.op with
    | gate g =>
      rw [h] at hd
      refine Gate.ret_TN_contract.mono fun v hv => ?_
      rw [hT] at hv
      rcases hd with hd | hd <;> rw [hd] at hv <;> exact absurd (hv.2 (by decide)) (by decide)
    | single l =>
      rw [h] at hd
      exact ret_layer_contract_stuck (ret_calSingle hd.1) hd.2 (by rw [hT]; decide)
    | ring r => rw [h] at hd; exact hd.elim
    | basic b => exact Ret.error
  refine ⟨fun ltr => fails_of_ret (ret_U_stuck ho hU ltr),
    fun m hm => failsT_of_ret (ret_evolution_stuck hm ho hT),
    fun T batch h => fails_of_ret (ret_contraction_stuck ho fun U hU => hC U batch (hU.trans h)),
    fun init M tn hM => failsT_of_ret ?_⟩
  unfold XCircuit.cir_expectationX
  refine RetT.skip fun _ _ => RetT.skip fun _ _ => RetT.skip fun _ _ => RetT.skip fun _ _ =>
    RetT.skip fun _ _ => RetT.skip fun _ _ => RetT.skip fun _ _ => ?_
  split
  · refine RetT.skip fun v _ => (ret_StateVec2MPS v _).bind fun m hm => ?_
    by_cases hv : v.dt.toComplex = .c64
    · exact (ret_evolution_stuck (d := .c64) (hv ▸ hm) ho hT).bind fun _ h => h.elim
    · refine (ret_evolution hm).bind fun m hm => RetT.bindL (ret_MPS2SV hm) fun p hp => ?_
      exact RetT.lift (ret_quad.mono fun _ hq => hv (hp.symm.trans (hq.trans hM)))
  · exact RetT.bindL (ret_U_stuck ho hU true) fun _ h => h.elim

/-- The same rotations with float32 and with float64 angles, and a phase gate with a float64 angle. -/
example : ∃ (x x' y : XCircuit) (c : Circuit), IsTyped x c ∧ IsTyped x' c ∧ x ≠ x' ∧ c.gate.length = 2 ∧
    ∃ o ∈ y.gate, BecomesDouble o := by
  refine ⟨⟨2, [⟨.gate (mkRx 0.3 2 (.int 0)), .f32⟩, ⟨.gate (mkRz 0.7 2 (.int 1)), .f32⟩]⟩,
    ⟨2, [⟨.gate (mkRx 0.3 2 (.int 0)), .f64⟩, ⟨.gate (mkRz 0.7 2 (.int 1)), .f64⟩]⟩,
    ⟨2, [⟨.gate (mkHadamard 2 (.int 0)), .f32⟩, ⟨.gate (mkU1 0.3 2 (.int 0)), .f64⟩]⟩,
    ⟨2, [.gate (mkRx 0.3 2 (.int 0)), .gate (mkRz 0.7 2 (.int 1))], fun _ => none, 0⟩, ⟨rfl, rfl, ?_⟩,
    ⟨rfl, rfl, ?_⟩, ?_, rfl, ⟨.gate (mkU1 0.3 2 (.int 0)), .f64⟩, by simp, rfl, .inl rfl⟩
  · intro o ho
    fin_cases ho <;> exact .inl (.inl rfl)
  · intro o ho
    fin_cases ho <;> exact .inr ⟨rfl, by decide, by decide⟩
  · intro h
    have := congrArg (fun x : XCircuit => x.gate.map XOp.pd) h
    simp at this

end QTN.Props
