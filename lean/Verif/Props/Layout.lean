import Verif.Lemmas.LayoutCircuit
import Verif.Lemmas.Embedding
import Verif.Props.Expect
import Verif.Props.Contract
import Verif.Props.RhoMps

/-! # Properties C68 and C69: memory layout -/

namespace QTN.Props

open QTN QTN.Spec Matrix

variable {N : ℕ}

/-! ## C68 -/

/-- C68: what `view` returns is a view: element by element in row-major order, the new tensor reads the
memory of the old one (for any strides for which it does not raise). -/
theorem C68_view_reads_same_memory {t v : XT} {s : List ℤ} (ht : t.str.length = t.val.shape.length)
    (h : t.view s = .ok v) (idx : List ℕ) (hi : inB v.val.shape idx = true) :
    memPos v.str idx = memPos t.str (unravel t.val.shape (ravel v.val.shape idx)) ∧
      v.val.get idx = t.val.get (unravel t.val.shape (ravel v.val.shape idx)) := by
  unfold XT.view at h
  obtain ⟨w, hw, h⟩ := bind_ok h
  cases hr : computeStride t.val.shape t.str w.shape with
  | none => rw [hr] at h; cases h
  | some r =>
    rw [hr] at h
    cases h
    have hp := (view_ok hw).1
    have hlt : ravel w.shape idx < t.val.shape.prod := hp ▸ ravel_lt hi
    refine ⟨?_, ?_⟩
    · have := computeStride_addr ht hp hr _ hlt
      rw [addr_ravel (computeStride_length ht hr) hi] at this
      rw [this]
      conv_lhs => rw [← ravel_unravel hlt]
      exact addr_ravel ht (inB_unravel hlt)
    · unfold Tensor.view at hw
      obtain ⟨q, _, hw⟩ := bind_ok hw
      cases hw
      exact Tensor.get_ofFn hi

/-- C68: a contiguous tensor can be viewed in every shape of its size, and the view is contiguous. -/
theorem C68_view_of_contiguous {t : XT} (ht : t.str.length = t.val.shape.length)
    (hc : Contiguous t.val.shape t.str) (s : List ℤ) :
    (∃ e, t.view s = .error e ∧ t.val.view s = .error e) ∨
      ∃ v, t.view s = .ok v ∧ t.val.view s = .ok v.val ∧ Contiguous v.val.shape v.str := by
  have := sim_viewD (d := t.dt) (hasType_seesD ⟨rfl, ht⟩ hc) s
  revert this
  cases h1 : t.view s <;> cases h2 : t.val.view s
  · exact fun h => .inl ⟨_, rfl, congrArg _ h.symm⟩
  · exact fun h => h.elim
  · exact fun h => h.elim
  · exact fun h => .inr ⟨_, rfl, congrArg _ h.1.1.symm, (contiguous_iff h.1.2.2).2 h.2⟩

/-- C68: `cir_expectation` returns the same number, raises the same exception and decomposes the same
matrices as in the model without data types and strides: no `view` and no product raises because of the
layout or the type of a tensor.  For every circuit, every complex64 row and every complex64 observable,
in any layout. -/
theorem C68_expectation {svd : SVDOracle} (hsvd : ValidSVD svd) {lay : Lay} (hl : LayoutOK lay)
    {x : XCircuit} {c : Circuit} (hx : IsTyped x c) (h1 : c.nqubits = 1 → ∀ o ∈ c.gate, OneQubit o)
    {init M : XT} (hi : HasType .c64 init) {n : ℕ} (hs : init.val.shape = [1, n]) (hM : HasType .c64 M)
    (tn : Bool) :
    x.cir_expectationX svd lay init M tn = c.cir_expectation svd init.val M.val tn :=
  sim_eq (sim_expectation hsvd (layoutOK_valid hl) hx h1 (hasType_sees hi) hs (hasType_sees hM) tn)

/-- C68: the same for `TN_evolution` of a list of complex64 tensors. -/
theorem C68_evolution {svd : SVDOracle} (hsvd : ValidSVD svd) {lay : Lay} (hl : LayoutOK lay)
    {x : XCircuit} {c : Circuit} (hx : IsTyped x c) {mps : List XT} (hm : ∀ t ∈ mps, HasType .c64 t) :
    valuesT (List.map XT.val) (x.TN_evolutionX svd lay mps) = c.TN_evolution svd (mps.map XT.val) :=
  sim_valuesT (sim_evolution hsvd (layoutOK_valid hl) hx (hasTypes_sees hm)) fun _ _ h => seesL_vals h

/-- C68: the same for `TN_contract_evolution` of a complex64 tensor, with and without batch dimension. -/
theorem C68_contraction {lay : Lay} (hl : LayoutOK lay) {x : XCircuit} {c : Circuit} (hx : IsTyped x c)
    {T : XT} (hT : HasType .c64 T) (batch : Bool) :
    values (x.TN_contract_evolutionX lay T batch) = c.TN_contract_evolution T.val batch :=
  sim_values (sim_contract_evolution (layoutOK_valid hl) hx (hasType_sees hT) batch) fun _ _ h => h.1

/-- C68: the same for the matrix of the circuit, which is complex64 and contiguous. -/
theorem C68_matrix {lay : Lay} (hl : LayoutOK lay) {x : XCircuit} {c : Circuit} (hx : IsTyped x c)
    (ltr : Bool) :
    values (x.UX lay ltr) = c.U ltr ∧
      ∀ u, x.UX lay ltr = .ok u → u.dt = .c64 ∧ Contiguous u.val.shape u.str := by
  have h := sim_U (layoutOK_valid hl) hx ltr
  refine ⟨sim_values h fun _ _ h => h.1.1, fun u hu => ?_⟩
  rw [hu] at h
  cases hc : c.U ltr with
  | error e => rw [hc] at h; exact h.elim
  | ok v =>
    rw [hc] at h
    exact ⟨h.1.2.1, (contiguous_iff h.1.2.2).2 h.2⟩

/-- C68: the conversions from states to tensors and back do not depend on the layout of their
arguments. -/
theorem C68_conversions {svd : SVDOracle} (hsvd : ValidSVD svd) {lay : Lay} (hl : LayoutOK lay) {t : XT}
    (ht : HasType .c64 t) {mps : List XT} (hm : ∀ t ∈ mps, HasType .c64 t) (N : ℕ) :
    valuesT (List.map XT.val) (StateVec2MPSX svd lay t N) = StateVec2MPS svd t.val N ∧
    values (MatrixProductStateX t N) = MatrixProductState t.val N ∧
    values (MatrixProductDensityOperatorX t N) = MatrixProductDensityOperator t.val N ∧
    values (MPS2StateVec_tensorX lay mps) = MPS2StateVec_tensor (mps.map XT.val) ∧
    values (MPS2RhoX lay mps) = MPS2Rho (mps.map XT.val) ∧
    (mps.length ≠ 1 → values (MPS2StateVecX lay mps) = MPS2StateVec (mps.map XT.val)) := by
  have hv := layoutOK_valid hl
  refine ⟨sim_valuesT (sim_StateVec2MPS hsvd hv (hasType_sees ht) N) fun _ _ h => seesL_vals h,
    sim_values (sim_MatrixProductState (hasType_sees ht) N) fun _ _ h => h.1,
    sim_values (sim_MatrixProductDensityOperator (hasType_sees ht) N) fun _ _ h => h.1,
    sim_values (sim_MPS2StateVec_tensor hv (hasTypes_sees hm)) fun _ _ h => h.1,
    sim_values (sim_MPS2Rho hv (hasTypes_sees hm)) fun _ _ h => h.1, fun h1 => ?_⟩
  exact sim_values (sim_MPS2StateVec hv (hasTypes_sees hm) (by simpa using h1)) fun _ _ h => h.1.1

/-- C68: with C28: for a circuit of valid operations with tensor-network support, both paths of
`cir_expectation` return `Re ⟨ψ|U† M U|ψ⟩` in any layout. -/
theorem C68_energy {svd : SVDOracle} (hsvd : ValidSVD svd) {lay : Lay} (hl : LayoutOK lay) (hN : 2 ≤ N)
    (l : List (Item N)) (h : ∀ it ∈ l, it.WF) (hc : ∀ it ∈ l, HasTN it) (init M : XT)
    (hi : HasType .c64 init) (hM : HasType .c64 M) (v : QState N) (hv : IsRow init.val v) (h0 : v ≠ 0)
    (O : QOp N) (hO : Represents M.val O) :
    ∃ ops, l.mapM buildItem = .ok ops ∧ ∀ x, IsTyped x (circ N ops) → ∀ s,
      (∀ A ∈ (x.cir_expectationX svd lay init M true s).2, Lossless A) →
      ∃ r s', x.cir_expectationX svd lay init M true s = (.ok r, s') ∧
        x.cir_expectationX svd lay init M false s = (.ok r, s) ∧
        r = (braket ((circuitOp l)ᴴ * O * circuitOp l) v).re := by
  obtain ⟨ops, hops, H⟩ := C28_paths_agree_partial hsvd (by omega) l h hc init.val M.val v hv h0 O hO
  refine ⟨ops, hops, fun x hx s hlog => ?_⟩
  have key := fun tn => C68_expectation hsvd hl hx
    (fun e => absurd (circ_nqubits N ops ▸ e : N = 1) (by omega)) hi hv.1 hM tn
  rw [key] at hlog
  rw [key, key]
  exact H s hlog

/-! ### Examples -/

/-- Strides of results as contiguous as possible, except that `torch.svd` returns column-major factors. -/
noncomputable def sampleLay : Lay where
  mm a b := match a.val.matmul b.val with
    | .ok v => contigStr v.shape
    | .error _ => []
  ein a b := match Tensor.einsum_ab_bcd a.val b.val with
    | .ok v => contigStr v.shape
    | .error _ => []
  svdU a := [1, a.val.shape.getD 0 0]
  svdV a := [1, a.val.shape.getD 1 0]
  elem a := contigStr a.val.shape

theorem sampleLay_ok : LayoutOK sampleLay where
  mm a b v h := by
    have e : sampleLay.mm a b = contigStr v.shape := by
      change (match a.val.matmul b.val with
        | .ok v => contigStr v.shape
        | .error _ => []) = _
      rw [h]
    rw [e]
    exact ⟨contigStr_length _, (contiguous_iff (contigStr_length _)).2 (dense_contig _)⟩
  ein a b v h := by
    change (match Tensor.einsum_ab_bcd a.val b.val with
      | .ok v => contigStr v.shape
      | .error _ => []).length = _
    rw [h]
    exact contigStr_length _
  svdU a := rfl
  svdV a := rfl
  elem a := contigStr_length _

/-- Hadamard, a rotation with a double-precision angle, CNOT and SWAP on three qubits; the row is every
third number of a longer one, the observable a transposed matrix. -/
example : ∃ (x : XCircuit) (c : Circuit) (init M : XT), IsTyped x c ∧ c.nqubits = 3 ∧ c.gate.length = 4 ∧
    HasType .c64 init ∧ init.val.shape = [1, 8] ∧ init.str = [24, 3] ∧ HasType .c64 M ∧ M.str = [1, 8] ∧
    LayoutOK sampleLay := by
  refine ⟨⟨3, [⟨.gate (mkHadamard 3 (.int 0)), .f32⟩, ⟨.gate (mkRx 0.3 3 (.int 1)), .f64⟩,
      ⟨.gate (mkCnot 3 (.list [0, 2])), .f32⟩, ⟨.gate (mkSwap 3 (.list [0, 1])), .f32⟩]⟩,
    ⟨3, [.gate (mkHadamard 3 (.int 0)), .gate (mkRx 0.3 3 (.int 1)), .gate (mkCnot 3 (.list [0, 2])),
      .gate (mkSwap 3 (.list [0, 1]))], fun _ => none, 0⟩,
    ⟨Tensor.ofFn [1, 8] (fun _ => 1), .c64, [24, 3]⟩, ⟨Tensor.eye 8, .c64, [1, 8]⟩, ⟨rfl, rfl, ?_⟩, rfl, rfl,
    ⟨rfl, rfl⟩, rfl, rfl, ⟨rfl, rfl⟩, rfl, sampleLay_ok⟩
  intro o ho
  fin_cases ho
  · exact .inl (.inl rfl)
  · exact .inr ⟨rfl, by decide, by decide⟩
  · exact .inl (.inl rfl)
  · exact .inl (.inl rfl)

/-! ## C69 -/

/-- The view of a square matrix as one row exists exactly if the rows lie one after the other. -/
theorem row_view_iff {n a b : ℕ} (hn : 2 ≤ n) :
    (∃ r, computeStride [n, n] [a, b] [1, n * n] = some r) ↔ a = n * b := by
  constructor
  · rintro ⟨r, hr⟩
    by_contra hne
    have hne' : a ≠ 1 * n * b := by simpa using hne
    have h0 : [n, n].prod ≠ 0 := by
      simp
      omega
    unfold computeStride at hr
    rw [if_neg (by simp), if_neg h0] at hr
    change viewLoop b 1 [(n, b), (n, a)] [n * n, 1] [] = some r at hr
    rw [viewLoop, if_pos ⟨by change n ≠ 1; omega, hne'⟩] at hr
    have hch : viewChunk b (1 * n) 1 [n * n, 1] [] = (n * n, [], [n * n * b, b]) := by
      rw [viewChunk, if_pos (Or.inl (by omega)), viewChunk, if_pos (Or.inr rfl), viewChunk]
      simp
    dsimp only at hr
    rw [hch] at hr
    rw [if_neg (by
      dsimp only
      nlinarith)] at hr
    cases hr
  · rintro rfl
    refine computeStride_of_fits rfl (Or.inr ?_)
    have hm : Merges b ([n, n].zip [n * b, b]).reverse :=
      Or.inr ⟨rfl, Or.inr ⟨Nat.mul_comm n b, trivial⟩⟩
    exact Fits.one hm (by simp)

/-- C69 (partial: matrices whose rows lie one after the other in memory, contiguous ones among them):
`Rho2MPS` does not depend on data types and strides.  Missing for the full statement: all other layouts, for
which it is false (`C69_other_layouts_raise`). -/
theorem C69_rho_partial {svd : SVDOracle} (hsvd : ValidSVD svd) {lay : Lay} (hl : LayoutOK lay) {rho : XT}
    {d : DT} (hd : d.isComplex = true) (hr : HasType d rho) (N : ℕ)
    (hc : ∀ a b, rho.str = [a, b] → a = 2 ^ N * b) :
    valuesT (List.map XT.val) (Rho2MPSX svd lay rho N) = Rho2MPS svd rho.val N := by
  refine sim_valuesT (R := SeesL d) ?_ fun _ _ h => seesL_vals h
  unfold Rho2MPSX Rho2MPS
  refine SimT.same _ fun _ h1 => SimT.same _ fun _ h2 => ?_
  have h1 := raiseIf_ok h1
  have h2 := raiseIf_ok h2
  push Not at h1 h2
  obtain ⟨p, q, hs⟩ := two_strides (show rho.val.shape.length = 2 from h1)
  rw [hs] at h2
  obtain ⟨rfl, rfl⟩ : p = 2 ^ N ∧ q = 2 ^ N := h2
  obtain ⟨a, b, hab⟩ := two_strides (hr.2.trans h1)
  have hab' := hc a b hab
  refine SimT.bindL (sim_view (hasType_sees hr) _ fun v hv => ?_) fun v v' hvv =>
    sim_Rho2MPS_loop hsvd (layoutOK_valid hl) hd N hvv
  obtain ⟨hp, q, hq⟩ := view_ok hv
  have e : v.shape = [1, 2 ^ N * 2 ^ N] := by
    have hq' : v.shape = [1, q] := by rw [hq]; rfl
    rw [hq', hs] at hp
    rw [hq']
    have : q = 2 ^ N * 2 ^ N := by simpa using hp
    rw [this]
  rw [e, hs, hab]
  rcases Nat.eq_zero_or_pos N with rfl | hN
  · refine computeStride_of_fits rfl (Or.inr ?_)
    have hm : Merges b ([2 ^ 0, 2 ^ 0].zip [a, b]).reverse := Or.inl ⟨rfl, Or.inl ⟨rfl, trivial⟩⟩
    exact Fits.one hm (by simp)
  · exact (row_view_iff (Nat.one_lt_two_pow (by omega))).2 hab'

/-- C69 is false in general: for every other layout of a `2^N × 2^N` matrix (`N ≥ 1`) `Rho2MPS` raises
RuntimeError, whatever the values. -/
theorem C69_other_layouts_raise (svd : SVDOracle) (lay : Lay) {rho : XT} (hN : 0 < N)
    (hs : rho.val.shape = [2 ^ N, 2 ^ N]) {a b : ℕ} (hab : rho.str = [a, b]) (hne : a ≠ 2 ^ N * b)
    (s : List (Tensor ℂ)) : Rho2MPSX svd lay rho N s = (.error .runtimeError, s) := by
  unfold Rho2MPSX
  rw [raiseIf_false (by simp [Tensor.rank, hs]), TNM.lift_ok_bind, raiseIf_false (by simp [hs]),
    TNM.lift_ok_bind]
  have hv : ∃ v, rho.val.view [1, -1] = .ok v ∧ v.shape = [1, 2 ^ N * 2 ^ N] := by
    have hp : 0 < 2 ^ N * 2 ^ N := by positivity
    unfold Tensor.view Tensor.inferShape
    simp only [Tensor.numel, hs]
    simp [Nat.mod_one]
  obtain ⟨v, hv, hvs⟩ := hv
  have : rho.view [1, -1] = .error .runtimeError := by
    unfold XT.view
    rw [hv, Py.ok_bind, hvs, hs, hab]
    cases hc : computeStride [2 ^ N, 2 ^ N] [a, b] [1, 2 ^ N * 2 ^ N] with
    | none => rfl
    | some r => exact absurd ((row_view_iff (Nat.one_lt_two_pow (by omega))).1 ⟨r, hc⟩) hne
  rw [this, TNM.lift_error_bind]

/-- C69: the transpose of a contiguous density matrix, as `permute` returns it, is rejected, although a copy
of it is accepted. -/
theorem C69_transposed {svd : SVDOracle} (hsvd : ValidSVD svd) {lay : Lay} (hl : LayoutOK lay) (hN : 0 < N)
    (t : Tensor ℂ) (hs : t.shape = [2 ^ N, 2 ^ N]) :
    ∃ r, (XT.fresh t .c64).permute [1, 0] = .ok r ∧
      (∀ s, Rho2MPSX svd lay r N s = (.error .runtimeError, s)) ∧
      valuesT (List.map XT.val) (Rho2MPSX svd lay (XT.fresh r.val .c64) N) = Rho2MPS svd r.val N := by
  obtain ⟨v, hv, hvs, -⟩ := transpose_mat hs
  have hp : 2 ≤ 2 ^ N := Nat.one_lt_two_pow (by omega)
  have hmax : max 1 (2 ^ N) = 2 ^ N := by omega
  refine ⟨⟨v, .c64, [1, 2 ^ N]⟩, ?_, fun s => ?_, ?_⟩
  · unfold XT.permute XT.fresh
    dsimp only
    rw [hv, Py.ok_bind]
    have : [(1 : ℤ), 0].mapM (wrapIdx t.rank) = .ok [1, 0] := by
      rw [show t.rank = 2 by simp [Tensor.rank, hs]]
      rfl
    rw [this, Py.ok_bind]
    have e : contigStr t.shape = [2 ^ N, 1] := by
      rw [hs]
      simp [contigStr, hmax]
    rw [e]
    rfl
  · refine C69_other_layouts_raise svd lay hN hvs rfl ?_ s
    nlinarith
  · refine C69_rho_partial hsvd hl (d := .c64) rfl ⟨rfl, contigStr_length _⟩ N fun a b hab => ?_
    have e : contigStr v.shape = [2 ^ N, 1] := by
      rw [hvs]
      simp [contigStr, hmax]
    rw [show (XT.fresh v DT.c64).str = contigStr v.shape from rfl, e] at hab
    cases hab
    simp

/-- A contiguous matrix, and a transposed one. -/
example : HasType .c64 (XT.fresh (Tensor.eye 4) .c64) ∧
    (∀ a b, (XT.fresh (Tensor.eye 4) .c64).str = [a, b] → a = 2 ^ 2 * b) ∧ (1 : ℕ) ≠ 2 ^ 2 * 4 := by
  refine ⟨⟨rfl, rfl⟩, fun a b h => ?_, by norm_num⟩
  have : [4, 1] = [a, b] := h
  cases this
  rfl

end QTN.Props
