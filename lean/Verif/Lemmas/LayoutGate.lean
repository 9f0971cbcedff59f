import Verif.Lemmas.LayoutTN
import Verif.SpecLayout

/-!
# Gates, layers and circuits on tensors with types and strides
-/

namespace QTN

open Spec

variable {svd : SVDOracle} {lay : Lay} {d : DT}

/-! ## Types -/

theorem matTy_single {pd : DT} (h : SinglePrec pd) (cls : GateCls) : Gate.matTy cls pd = .c64 := by
  rcases h with rfl | rfl <;> cases cls <;> rfl

theorem uTy_single {pd : DT} (h : SinglePrec pd) (cls : GateCls) : Gate.uTy cls pd = .c64 := by
  rcases h with rfl | rfl <;> cases cls <;> rfl

theorem layerTy_single {pd : DT} (h : SinglePrec pd) {P : DT} (hP : P = .i64 ∨ P = .c64) :
    SLayer.layerTy P pd = .c64 := by
  rcases h with rfl | rfl <;> rcases hP with rfl | rfl <;> rfl

/-- Parameters of type `pd` leave the matrices of the gate complex64. -/
def CplxGate (g : Gate) (pd : DT) : Prop := Gate.matTy g.cls pd = .c64 ∧ Gate.uTy g.cls pd = .c64

theorem cplx_single {pd : DT} (h : SinglePrec pd) (g : Gate) : CplxGate g pd :=
  ⟨matTy_single h _, uTy_single h _⟩

theorem cplx_f32 (g : Gate) : CplxGate g .f32 := cplx_single (Or.inl rfl) g

/-- Double-precision parameters change the type of two classes only. -/
theorem cplx_f64 (g : Gate) (h : g.cls ≠ .u1 ∧ g.cls ≠ .cphase) : CplxGate g .f64 := by
  unfold CplxGate
  revert h
  cases g.cls <;> intro h <;> first | exact ⟨rfl, rfl⟩ | exact absurd rfl h.1 | exact absurd rfl h.2

theorem sees_matX (g : Gate) {pd : DT} (h : CplxGate g pd) : SeesD .c64 (g.matX pd) g.matrix := by
  have := sees_fresh g.matrix (Gate.matTy g.cls pd)
  rw [h.1] at this
  unfold Gate.matX
  rwa [h.1]

theorem sim_typed (d : DT) (x : Py (Tensor ℂ)) : SimR (SeesD d) (Gate.typed d x) x := by
  cases x with
  | error e => exact rfl
  | ok v => exact sees_fresh v d

/-! ## Contractions -/

theorem sim_contract1 (hv : lay.Valid) {m T : XT} {m' T' : Tensor ℂ} (hm : Sees d m m')
    (hT : Sees d T T') (n w : ℤ) :
    SimR (Sees d) (Gate.contract1X lay m T n w) (Gate.contract1 m' T' n w) := by
  unfold Gate.contract1X Gate.contract1
  refine SimR.same _ fun p _ => ?_
  refine (sim_permute hT p).bind fun x x' hx => ?_
  refine (sim_unsqueeze hx _).bind fun x x' hx => ?_
  refine (sim_matmul hv hm hx).bind fun x x' hx => ?_
  refine (sim_squeezeDim hx.1 _).bind fun x x' hx => ?_
  exact sim_permute hx p

theorem sim_contract2 (hv : lay.Valid) {m T : XT} {m' T' : Tensor ℂ} (hm : Sees d m m')
    (hT : Sees d T T') (n c t : ℤ) (out : List ℕ → List ℤ) :
    SimR (Sees d) (Gate.contract2X lay m T n c t out) (Gate.contract2 m' T' n c t out) := by
  unfold Gate.contract2X Gate.contract2
  refine SimR.same _ fun p _ => ?_
  refine SimR.same _ fun p _ => ?_
  refine (sim_permute hT _).bind fun x x' hx => ?_
  rw [hx.1]
  refine SimR.same _ fun _ _ => ?_
  refine SimR.same _ fun _ _ => ?_
  refine SimR.same _ fun _ _ => ?_
  refine SimR.same _ fun s _ => ?_
  refine (sim_reshape hx _).bind fun x x' hx => ?_
  refine (sim_matmul hv hm hx).bind fun x x' hx => ?_
  refine (sim_viewD hx _).bind fun x x' hx => ?_
  refine SimR.same _ fun p _ => ?_
  refine SimR.same _ fun p _ => ?_
  exact sim_permute hx.1 _

theorem sim_contract3 (hv : lay.Valid) {m T : XT} {m' T' : Tensor ℂ} (hm : Sees d m m')
    (hT : Sees d T T') (n c1 c2 t : ℤ) (out : List ℕ → List ℤ) :
    SimR (Sees d) (Gate.contract3X lay m T n c1 c2 t out) (Gate.contract3 m' T' n c1 c2 t out) := by
  unfold Gate.contract3X Gate.contract3
  refine SimR.same _ fun p _ => ?_
  refine SimR.same _ fun p _ => ?_
  refine SimR.same _ fun p _ => ?_
  refine (sim_permute hT _).bind fun x x' hx => ?_
  rw [hx.1]
  refine SimR.same _ fun _ _ => ?_
  refine SimR.same _ fun _ _ => ?_
  refine SimR.same _ fun _ _ => ?_
  refine SimR.same _ fun _ _ => ?_
  refine SimR.same _ fun _ _ => ?_
  refine SimR.same _ fun s _ => ?_
  refine (sim_reshape hx _).bind fun x x' hx => ?_
  refine (sim_squeezeDim hx _).bind fun x x' hx => ?_
  refine (sim_matmul hv hm hx).bind fun x x' hx => ?_
  refine (sim_viewD hx _).bind fun x x' hx => ?_
  refine SimR.same _ fun p _ => ?_
  refine SimR.same _ fun p _ => ?_
  refine SimR.same _ fun p _ => ?_
  exact sim_permute hx.1 _

theorem sim_gate_contract (hv : lay.Valid) (g : Gate) {pd : DT} (hp : CplxGate g pd) {T : XT}
    {T' : Tensor ℂ} (hT : Sees .c64 T T') (batch : Bool) :
    SimR (Sees .c64) (g.TN_contractX lay pd T batch) (g.TN_contract T' batch) := by
  have hm := (sees_matX g hp).1
  have h1 : SimR (Sees .c64) (g.single_TN_contractX lay pd T batch) (g.single_TN_contract T' batch) := by
    unfold Gate.single_TN_contractX Gate.single_TN_contract
    refine SimR.same _ fun _ _ => ?_
    refine SimR.same _ fun i _ => ?_
    exact SimR.ite Iff.rfl (fun _ => sim_contract1 hv hm hT _ _) (fun _ => sim_contract1 hv hm hT _ _)
  have h2 : SimR (Sees .c64) (g.two_TN_contractX lay pd T batch) (g.two_TN_contract T' batch) := by
    unfold Gate.two_TN_contractX Gate.two_TN_contract
    rw [hT.1]
    refine SimR.same _ fun _ _ => ?_
    refine SimR.same _ fun w _ => ?_
    refine SimR.same _ fun c _ => ?_
    refine SimR.same _ fun t _ => ?_
    refine SimR.same _ fun _ _ => ?_
    refine SimR.ite Iff.rfl (fun _ => ?_) (fun _ => ?_)
    · exact SimR.same _ fun _ _ => sim_contract2 hv hm hT _ _ _ _
    · exact SimR.same _ fun _ _ => sim_contract2 hv hm hT _ _ _ _
  have h3 : SimR (Sees .c64) (g.swap_TN_contractX T batch) (g.swap_TN_contract T' batch) := by
    unfold Gate.swap_TN_contractX Gate.swap_TN_contract
    rw [hT.1]
    refine SimR.same _ fun _ _ => ?_
    refine SimR.same _ fun w _ => ?_
    refine SimR.same _ fun c _ => ?_
    refine SimR.same _ fun t _ => ?_
    refine SimR.same _ fun _ _ => ?_
    refine SimR.ite Iff.rfl (fun _ => ?_) (fun _ => ?_)
    · refine SimR.same _ fun _ _ => ?_
      refine SimR.same _ fun _ _ => ?_
      exact SimR.same _ fun _ _ => sim_permute hT _
    · refine SimR.same _ fun _ _ => ?_
      refine SimR.same _ fun _ _ => ?_
      exact SimR.same _ fun _ _ => sim_permute hT _
  have h4 : SimR (Sees .c64) (g.toffoli_TN_contractX lay pd T batch)
      (g.toffoli_TN_contract T' batch) := by
    unfold Gate.toffoli_TN_contractX Gate.toffoli_TN_contract
    rw [hT.1]
    refine SimR.same _ fun _ _ => ?_
    refine SimR.same _ fun w _ => ?_
    refine SimR.same _ fun _ _ => ?_
    refine SimR.same _ fun _ _ => ?_
    refine SimR.same _ fun _ _ => ?_
    refine SimR.same _ fun _ _ => ?_
    refine SimR.ite Iff.rfl (fun _ => ?_) (fun _ => ?_)
    · exact SimR.same _ fun _ _ => sim_contract3 hv hm hT _ _ _ _ _
    · exact SimR.same _ fun _ _ => sim_contract3 hv hm hT _ _ _ _ _
  unfold Gate.TN_contractX Gate.TN_contract
  cases g.cls <;> first | exact h1 | exact h2 | exact h3 | exact h4 | exact rfl

/-! ## Two- and three-site updates -/

theorem four_list {l : List ℕ} (h : l.length = 4) : ∃ a b c e, l = [a, b, c, e] := by
  match l, h with
  | [a, b, c, e], _ => exact ⟨a, b, c, e, rfl⟩

theorem five_list {l : List ℕ} (h : l.length = 5) : ∃ a b c e f, l = [a, b, c, e, f] := by
  match l, h with
  | [a, b, c, e, f], _ => exact ⟨a, b, c, e, f, rfl⟩

theorem permute_rank {t v : Tensor ℂ} {p : List ℤ} (h : t.permute p = .ok v) :
    t.shape.length = p.length := by
  unfold Tensor.permute at h
  obtain ⟨_, h1, _⟩ := bind_ok h
  have := raiseIf_ok h1
  push Not at this
  exact this.symm

/-- The permuted product of two sites can be viewed with the two physical dimensions as one. -/
theorem sim_perm4 {a : XT} {b : Tensor ℂ} (h : SeesD d a b) :
    SimR (fun u v => Sees d u v ∧ ∀ w, v.view [(v.shape.getD 0 0 : ℤ), (v.shape.getD 1 0 : ℤ),
        ((v.shape.getD 2 0 * v.shape.getD 3 0 : ℕ) : ℤ), 1] = .ok w →
        ∃ r, computeStride v.shape u.str w.shape = some r)
      (a.permute [2, 3, 0, 1]) (b.permute [2, 3, 0, 1]) := by
  obtain ⟨⟨rfl, hd, hl⟩, hD⟩ := h
  refine simR_val rfl fun v hv => ?_
  obtain ⟨x, y, l, r, hs⟩ := four_list (permute_rank hv)
  rw [hs] at hl
  obtain ⟨sx, sy, sl, sr, ht⟩ := four_list hl
  obtain ⟨q, hq, hvs⟩ := permute_ok hv
  have hr : a.val.rank = 4 := by unfold Tensor.rank; rw [hs]; rfl
  rw [hr] at hq ⊢
  have hq' : ([2, 3, 0, 1] : List ℤ).mapM (wrapIdx 4) = .ok [2, 3, 0, 1] := rfl
  obtain rfl : q = [2, 3, 0, 1] := by
    rw [hq'] at hq
    cases hq
    rfl
  rw [hq', Py.ok_bind]
  rw [hs] at hvs
  have hvs : v.shape = [l, r, x, y] := hvs
  rw [ht]
  refine ⟨⟨rfl, hd, by rw [hvs]; rfl⟩, fun w hw => ?_⟩
  rw [hvs] at hw ⊢
  have hws : w.shape = [l, r, x * y, 1] := view_nat_shape (s := [l, r, x * y, 1]) hw
  rw [hws]
  refine computeStride_of_fits rfl ?_
  rw [hs, ht] at hD
  refine hD.imp (fun h0 => ?_) fun hM => ?_
  · simp only [List.prod_cons, List.prod_nil, mul_one] at h0 ⊢
    rw [← h0]
    ring
  · have e : ([x, y, l, r].zip [sx, sy, sl, sr]).reverse = [(r, sr), (l, sl)] ++ [(y, sy), (x, sx)] := rfl
    rw [e] at hM
    have h2 := (merges_append hM).2
    have hr1 : Merges sr [(r, sr)] := Or.inr ⟨rfl, trivial⟩
    have hl1 : Merges sl [(l, sl)] := Or.inr ⟨rfl, trivial⟩
    have := Fits.block (nb := [1, x * y]) h2 (by simp [mul_comm])
      (Fits.block (nb := [r]) hr1 (by simp) (Fits.one (new := [l]) hl1 (by simp)))
    simpa using this

theorem sim_perm5 {a : XT} {b : Tensor ℂ} (h : SeesD d a b) :
    SimR (fun u v => Sees d u v ∧ ∀ w, v.view [(v.shape.getD 0 0 : ℤ), (v.shape.getD 1 0 : ℤ),
        ((v.shape.getD 2 0 * v.shape.getD 3 0 * v.shape.getD 4 0 : ℕ) : ℤ), 1] = .ok w →
        ∃ r, computeStride v.shape u.str w.shape = some r)
      (a.permute [3, 4, 0, 1, 2]) (b.permute [3, 4, 0, 1, 2]) := by
  obtain ⟨⟨rfl, hd, hl⟩, hD⟩ := h
  refine simR_val rfl fun v hv => ?_
  obtain ⟨x, y, z, l, r, hs⟩ := five_list (permute_rank hv)
  rw [hs] at hl
  obtain ⟨sx, sy, sz, sl, sr, ht⟩ := five_list hl
  obtain ⟨q, hq, hvs⟩ := permute_ok hv
  have hr : a.val.rank = 5 := by unfold Tensor.rank; rw [hs]; rfl
  rw [hr] at hq ⊢
  have hq' : ([3, 4, 0, 1, 2] : List ℤ).mapM (wrapIdx 5) = .ok [3, 4, 0, 1, 2] := rfl
  obtain rfl : q = [3, 4, 0, 1, 2] := by
    rw [hq'] at hq
    cases hq
    rfl
  rw [hq', Py.ok_bind]
  rw [hs] at hvs
  have hvs : v.shape = [l, r, x, y, z] := hvs
  rw [ht]
  refine ⟨⟨rfl, hd, by rw [hvs]; rfl⟩, fun w hw => ?_⟩
  rw [hvs] at hw ⊢
  have hws : w.shape = [l, r, x * y * z, 1] := view_nat_shape (s := [l, r, x * y * z, 1]) hw
  rw [hws]
  refine computeStride_of_fits rfl ?_
  rw [hs, ht] at hD
  refine hD.imp (fun h0 => ?_) fun hM => ?_
  · simp only [List.prod_cons, List.prod_nil, mul_one] at h0 ⊢
    rw [← h0]
    ring
  · have e : ([x, y, z, l, r].zip [sx, sy, sz, sl, sr]).reverse =
        [(r, sr), (l, sl)] ++ [(z, sz), (y, sy), (x, sx)] := rfl
    rw [e] at hM
    have h2 := (merges_append hM).2
    have hr1 : Merges sr [(r, sr)] := Or.inr ⟨rfl, trivial⟩
    have hl1 : Merges sl [(l, sl)] := Or.inr ⟨rfl, trivial⟩
    have := Fits.block (nb := [1, x * y * z]) h2 (by simp; ring)
      (Fits.block (nb := [r]) hr1 (by simp) (Fits.one (new := [l]) hl1 (by simp)))
    simpa using this

theorem sim_mergeTwo (hv : lay.Valid) {A B G : XT} {A' B' G' : Tensor ℂ} (hA : Sees d A A')
    (hB : Sees d B B') (hG : Sees d G G') :
    SimR (Sees d) (Gate.mergeTwoX lay A B G) (Gate.mergeTwo A' B' G') := by
  unfold Gate.mergeTwoX Gate.mergeTwo
  refine (sim_unsqueeze hA _).bind fun x x' hx => ?_
  refine (sim_unsqueeze hB _).bind fun y y' hy => ?_
  refine (sim_matmul hv hx hy).bind fun x x' hx => ?_
  refine (sim_perm4 hx).bind fun x x' hx => ?_
  rw [hx.1.1]
  refine (sim_view hx.1 _ hx.2).bind fun u u' hu => ?_
  refine (sim_matmul hv hG hu).bind fun u u' hu => ?_
  refine (sim_viewD hu _).bind fun u u' hu => ?_
  exact sim_permute hu.1 _

theorem sim_mergeThree (hv : lay.Valid) {A B C G : XT} {A' B' C' G' : Tensor ℂ} (hA : Sees d A A')
    (hB : Sees d B B') (hC : Sees d C C') (hG : Sees d G G') :
    SimR (Sees d) (Gate.mergeThreeX lay A B C G) (Gate.mergeThree A' B' C' G') := by
  unfold Gate.mergeThreeX Gate.mergeThree
  refine (sim_unsqueeze hA _).bind fun x x' hx => ?_
  refine (sim_unsqueeze hx _).bind fun x x' hx => ?_
  refine (sim_unsqueeze hB _).bind fun y y' hy => ?_
  refine (sim_unsqueeze hy _).bind fun y y' hy => ?_
  refine (sim_unsqueeze hC _).bind fun z z' hz => ?_
  refine (sim_unsqueeze hz _).bind fun z z' hz => ?_
  refine (sim_matmul hv hx hy).bind fun x x' hx => ?_
  refine (sim_matmul hv hx.1 hz).bind fun x x' hx => ?_
  refine (sim_perm5 hx).bind fun x x' hx => ?_
  rw [hx.1.1]
  refine (sim_view hx.1 _ hx.2).bind fun u u' hu => ?_
  refine (sim_matmul hv hG hu).bind fun u u' hu => ?_
  refine (sim_viewD hu _).bind fun u u' hu => ?_
  exact sim_permute hu.1 _

theorem sim_applyTwo (hsvd : ValidSVD svd) (hv : lay.Valid) (hd : d.isComplex = true) {G : XT}
    {G' : Tensor ℂ} (hG : Sees d G G') {l : List XT} {m : List (Tensor ℂ)} (h : SeesL d l m) (i : ℤ) :
    SimT (SeesL d) (Gate.applyTwoX svd lay G l i) (Gate.applyTwo svd G' m i) := by
  unfold Gate.applyTwoX Gate.applyTwo
  refine SimT.bindL (SimR.pyGet h _) fun A A' hA => ?_
  refine SimT.bindL (SimR.pyGet h _) fun B B' hB => ?_
  refine SimT.bindL (sim_mergeTwo hv hA hB hG) fun t t' ht => ?_
  refine (sim_decomp2 hsvd hv hd ht).bind ?_
  rintro ⟨a, b⟩ ⟨a', b'⟩ ⟨ha, hb⟩
  refine SimT.bindL (SimR.pySet h _ ha) fun l l' hl => ?_
  exact SimT.lift (SimR.pySet hl _ hb)

theorem sim_applyThree (hsvd : ValidSVD svd) (hv : lay.Valid) (hd : d.isComplex = true) {G : XT}
    {G' : Tensor ℂ} (hG : Sees d G G') {l : List XT} {m : List (Tensor ℂ)} (h : SeesL d l m) (i : ℤ) :
    SimT (SeesL d) (Gate.applyThreeX svd lay G l i) (Gate.applyThree svd G' m i) := by
  unfold Gate.applyThreeX Gate.applyThree
  refine SimT.bindL (SimR.pyGet h _) fun A A' hA => ?_
  refine SimT.bindL (SimR.pyGet h _) fun B B' hB => ?_
  refine SimT.bindL (SimR.pyGet h _) fun C C' hC => ?_
  refine SimT.bindL (sim_mergeThree hv hA hB hC hG) fun t t' ht => ?_
  refine (sim_decomp3 hsvd hv hd ht).bind ?_
  rintro ⟨a, b, c⟩ ⟨a', b', c'⟩ ⟨ha, hb, hc⟩
  refine SimT.bindL (SimR.pySet h _ ha) fun l l' hl => ?_
  refine SimT.bindL (SimR.pySet hl _ hb) fun l l' hl => ?_
  exact SimT.lift (SimR.pySet hl _ hc)

theorem sim_swapTN (hsvd : ValidSVD svd) (hv : lay.Valid) (hd : d.isComplex = true) {G : XT}
    {G' : Tensor ℂ} (hG : Sees d G G') (w : List ℤ) {l : List XT} {m : List (Tensor ℂ)}
    (h : SeesL d l m) : SimT (SeesL d) (Gate.swapTNX svd lay G w l) (Gate.swapTN svd G' w m) := by
  unfold Gate.swapTNX Gate.swapTN
  refine SimT.same _ fun _ _ => ?_
  refine SimT.same _ fun _ _ => ?_
  refine SimT.same _ fun _ _ => ?_
  refine SimT.bind (R := SeesL d)
    (SimT.foldlM (by intro _ _ _ h; exact sim_applyTwo hsvd hv hd hG h _) _ h) fun l l' hl => ?_
  exact SimT.foldlM (by intro _ _ _ h; exact sim_applyTwo hsvd hv hd hG h _) _ hl

theorem sim_swap (hsvd : ValidSVD svd) (hv : lay.Valid) (g : Gate) {l : List XT}
    {m : List (Tensor ℂ)} (h : SeesL .c64 l m) :
    SimT (SeesL .c64) (g.swap_TN_operationX svd lay l) (g.swap_TN_operation svd m) := by
  unfold Gate.swap_TN_operationX Gate.swap_TN_operation
  refine SimT.same _ fun _ _ => ?_
  refine SimT.same _ fun w _ => ?_
  exact sim_swapTN hsvd hv rfl (sees_matX g (cplx_f32 g)).1 w h

theorem sim_swapCall (hsvd : ValidSVD svd) (hv : lay.Valid) (N i j : ℤ) {l : List XT}
    {m : List (Tensor ℂ)} (h : SeesL .c64 l m) :
    SimT (SeesL .c64) (Gate.swapCallX svd lay N i j l) (Gate.swapCall svd N i j m) :=
  sim_swap hsvd hv _ h

theorem sim_cnot (hsvd : ValidSVD svd) (hv : lay.Valid) (g : Gate) {l : List XT}
    {m : List (Tensor ℂ)} (h : SeesL .c64 l m) :
    SimT (SeesL .c64) (g.cnot_TN_operationX svd lay l) (g.cnot_TN_operation svd m) := by
  unfold Gate.cnot_TN_operationX Gate.cnot_TN_operation
  refine SimT.same _ fun _ _ => ?_
  refine SimT.same _ fun w _ => ?_
  refine SimT.same _ fun up _ => ?_
  refine SimT.same _ fun down _ => ?_
  refine SimT.same _ fun w0 _ => ?_
  refine SimT.ite Iff.rfl (fun _ => ?_) (fun _ => ?_)
  · refine SimT.bindL (sim_typed .c64 _) fun G G' hG => ?_
    exact sim_applyTwo hsvd hv rfl hG.1 h _
  · refine SimT.bind (R := SeesL .c64)
      (SimT.foldlM (by intro _ _ _ h; exact sim_swapCall hsvd hv _ _ _ h) _ h) fun l l' hl => ?_
    refine SimT.bindL (sim_typed .c64 _) fun G G' hG => ?_
    refine (sim_applyTwo hsvd hv rfl hG.1 hl _).bind fun l l' hl => ?_
    exact SimT.foldlM (by intro _ _ _ h; exact sim_swapCall hsvd hv _ _ _ h) _ hl

theorem sim_ctrl (hsvd : ValidSVD svd) (hv : lay.Valid) (g : Gate) {pd : DT} (hp : CplxGate g pd)
    (Grev : Py (Tensor ℂ)) {l : List XT} {m : List (Tensor ℂ)} (h : SeesL .c64 l m) :
    SimT (SeesL .c64) (g.ctrl_TN_operationX svd lay pd Grev l) (g.ctrl_TN_operation svd Grev m) := by
  unfold Gate.ctrl_TN_operationX Gate.ctrl_TN_operation
  refine SimT.same _ fun _ _ => ?_
  refine SimT.same _ fun w _ => ?_
  refine SimT.same _ fun _ _ => ?_
  refine SimT.same _ fun up _ => ?_
  refine SimT.same _ fun down _ => ?_
  refine SimT.same _ fun w0 _ => ?_
  refine SimT.bind (R := SeesL .c64)
    (SimT.foldlM (by intro _ _ _ h; exact sim_swapCall hsvd hv _ _ _ h) _ h) fun l l' hl => ?_
  refine SimT.bindL (R := SeesD .c64) ?_ fun G G' hG => ?_
  · refine SimR.ite Iff.rfl (fun _ => ?_) (fun _ => ?_)
    · exact sees_matX g hp
    · rw [hp.2]
      exact sim_typed _ _
  · refine (sim_applyTwo hsvd hv rfl hG.1 hl _).bind fun l l' hl => ?_
    exact SimT.foldlM (by intro _ _ _ h; exact sim_swapCall hsvd hv _ _ _ h) _ hl

theorem sim_toffoli (hsvd : ValidSVD svd) (hv : lay.Valid) (g : Gate) {l : List XT}
    {m : List (Tensor ℂ)} (h : SeesL .c64 l m) :
    SimT (SeesL .c64) (g.toffoli_TN_operationX svd lay l) (g.toffoli_TN_operation svd m) := by
  unfold Gate.toffoli_TN_operationX Gate.toffoli_TN_operation
  refine SimT.same _ fun _ _ => ?_
  refine SimT.same _ fun w _ => ?_
  refine SimT.same _ fun up _ => ?_
  refine SimT.same _ fun mid _ => ?_
  refine SimT.same _ fun down _ => ?_
  refine SimT.bind (R := SeesL .c64)
    (SimT.foldlM (by intro _ _ _ h; exact sim_swapCall hsvd hv _ _ _ h) _ h) fun l l' hl => ?_
  refine SimT.bind (R := SeesL .c64)
    (SimT.foldlM (by intro _ _ _ h; exact sim_swapCall hsvd hv _ _ _ h) _ hl) fun l l' hl => ?_
  refine SimT.same _ fun w2 _ => ?_
  refine SimT.bindL (sim_typed .c64 _) fun G G' hG => ?_
  refine (sim_applyThree hsvd hv rfl hG.1 hl _).bind fun l l' hl => ?_
  refine SimT.bind (R := SeesL .c64)
    (SimT.foldlM (by intro _ _ _ h; exact sim_swapCall hsvd hv _ _ _ h) _ hl) fun l l' hl => ?_
  exact SimT.foldlM (by intro _ _ _ h; exact sim_swapCall hsvd hv _ _ _ h) _ hl

theorem sim_single (hv : lay.Valid) (g : Gate) {pd : DT} (hp : CplxGate g pd) {l : List XT}
    {m : List (Tensor ℂ)} (h : SeesL .c64 l m) :
    SimR (SeesL .c64) (g.single_TN_operationX lay pd l) (g.single_TN_operation m) := by
  unfold Gate.single_TN_operationX Gate.single_TN_operation
  refine SimR.same _ fun _ _ => ?_
  refine SimR.same _ fun i _ => ?_
  refine (SimR.pyGet h _).bind fun t t' ht => ?_
  refine (sim_einsum hv (sees_matX g hp).1 ht).bind fun u u' hu => ?_
  exact SimR.pySet h _ hu

theorem sim_gate (hsvd : ValidSVD svd) (hv : lay.Valid) (g : Gate) {pd : DT} (hp : CplxGate g pd)
    {l : List XT} {m : List (Tensor ℂ)} (h : SeesL .c64 l m) :
    SimT (SeesL .c64) (g.TN_operationX svd lay pd l) (g.TN_operation svd m) := by
  unfold Gate.TN_operationX Gate.TN_operation
  cases g.cls with
  | hadamard | pauliX | pauliY | pauliZ | rx | ry | rz | u1 | u3 => exact SimT.lift (sim_single hv g hp h)
  | rxx | ryy | rzz | mcnot => exact SimT.lift (SimR.error _)
  | cnot => exact sim_cnot hsvd hv g h
  | cz | cphase | cu3 => exact sim_ctrl hsvd hv g hp _ h
  | swap => exact sim_swap hsvd hv g h
  | toffoli => exact sim_toffoli hsvd hv g h

end QTN
