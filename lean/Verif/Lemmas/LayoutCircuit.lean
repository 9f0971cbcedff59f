import Verif.Lemmas.LayoutGate
import Verif.Lemmas.InPlace
import Verif.Lemmas.Decomp

/-!
# Layers and circuits on tensors with types and strides
-/

namespace QTN

open Spec

variable {svd : SVDOracle} {lay : Lay} {d : DT}

/-! ## Lists of gate matrices -/

/-- An entry of `_cal_single_gates`: a real identity or a complex64 matrix. -/
def SeesG (a : XT) (b : Tensor ℂ) : Prop := Sees .f32 a b ∨ Sees .c64 a b

/-- The lists agree, and the entries at the indices in `P` are complex64. -/
def SeesW (P : ℤ → Prop) (l : List XT) (m : List (Tensor ℂ)) : Prop :=
  List.Forall₂ SeesG l m ∧ ∀ w, P w → SimR (Sees .c64) (pyGet l w) (pyGet m w)

theorem seesW_set {P : ℤ → Prop} {l : List XT} {m : List (Tensor ℂ)} (h : SeesW P l m) (i : ℤ)
    {a : XT} {b : Tensor ℂ} (hab : Sees .c64 a b) :
    SimR (SeesW (fun w => P w ∨ w = i)) (pySet l i a) (pySet m i b) := by
  unfold QTN.pySet
  rw [h.1.length_eq]
  refine SimR.same _ fun k hk => ⟨forall₂_set h.1 k (Or.inr hab), fun w hw => ?_⟩
  have hlen := h.1.length_eq
  have hP : w ≠ i → SimR (Sees .c64) (pyGet l w) (pyGet m w) := fun hne =>
    h.2 w (hw.resolve_right hne)
  unfold QTN.pyGet at hP ⊢
  rw [List.length_set, List.length_set, hlen]
  rw [hlen] at hP
  refine SimR.same _ fun j hj => ?_
  rw [List.getElem?_set, List.getElem?_set]
  by_cases hjk : k = j
  · rw [if_pos hjk, if_pos hjk, hlen]
    by_cases hkm : k < m.length
    · rw [if_pos hkm, if_pos hkm]
      exact hab
    · rw [if_neg hkm, if_neg hkm]
      exact rfl
  · rw [if_neg hjk, if_neg hjk]
    have hne : w ≠ i := by
      rintro rfl
      rw [hk] at hj
      cases hj
      exact hjk rfl
    have := hP hne
    rw [hj] at this
    exact this

theorem sim_calGates {f : ℕ → Py XT} {g : ℕ → Py (Tensor ℂ)} (hfg : ∀ i, SimR (SeesD .c64) (f i) (g i))
    (n : ℤ) (wires : List ℤ) :
    SimR (SeesW (fun w => w ∈ wires)) (SingleLayer.calGatesX n wires f) (SingleLayer.calGates n wires g) := by
  unfold SingleLayer.calGatesX SingleLayer.calGates
  have key : ∀ (ws : List (ℤ × ℕ)) (P : ℤ → Prop) (l : List XT) (m : List (Tensor ℂ)), SeesW P l m →
      SimR (SeesW (fun w => P w ∨ w ∈ ws.map Prod.fst))
        (ws.foldlM (fun lst (wi : ℤ × ℕ) => do pySet lst wi.1 (← f wi.2)) l)
        (ws.foldlM (fun lst (wi : ℤ × ℕ) => do pySet lst wi.1 (← g wi.2)) m) := by
    intro ws
    induction ws with
    | nil => exact fun P l m h => ⟨h.1, fun w hw => h.2 w (hw.resolve_right (by simp))⟩
    | cons c ws ih =>
      intro P l m h
      rw [List.foldlM_cons, List.foldlM_cons]
      refine SimR.bind (R := SeesW (fun w => P w ∨ w = c.1)) ?_ fun l' m' h' => ?_
      · exact (hfg c.2).bind fun a b hab => seesW_set h c.1 hab.1
      · refine (ih _ l' m' h').mono fun a b hab => ⟨hab.1, fun w hw => hab.2 w ?_⟩
        rw [List.map_cons, List.mem_cons] at hw
        tauto
  have h0 : SeesW (fun _ => False) (pyRep (XT.fresh (Tensor.eye 2) .f32) n) (pyRep (Tensor.eye 2) n) := by
    refine ⟨?_, fun w hw => hw.elim⟩
    unfold pyRep
    induction n.toNat with
    | zero => exact .nil
    | succ k ih => exact .cons (Or.inl (sees_fresh _ _).1) ih
  refine (key wires.zipIdx _ _ _ h0).mono fun a b hab => ⟨hab.1, fun w hw => hab.2 w (Or.inr ?_)⟩
  rw [List.zipIdx_map_fst]
  exact hw

/-! ## Single-qubit layers -/

theorem seesL_rot {pd P : DT} (hp : SinglePrec pd) (hP : P = .i64 ∨ P = .c64) (M : Tensor ℂ) (x : ℝ) :
    SeesD .c64 (XT.fresh (layerRot M x) (SLayer.layerTy P pd)) (layerRot M x) := by
  rw [layerTy_single hp hP]
  exact sees_fresh _ _

theorem sim_prod3 (hv : lay.Valid) {pd : DT} (hp : SinglePrec pd) (p : List ℝ) (i : ℕ)
    {P1 P2 P3 : Tensor ℂ × DT} (h1 : P1.2 = .i64 ∨ P1.2 = .c64) (h2 : P2.2 = .i64 ∨ P2.2 = .c64)
    (h3 : P3.2 = .i64 ∨ P3.2 = .c64) :
    SimR (SeesD .c64) (SLayer.prod3X lay pd p i P1 P2 P3) (SLayer.prod3 p i P1.1 P2.1 P3.1) := by
  unfold SLayer.prod3X SLayer.prod3
  refine SimR.same _ fun x _ => SimR.same _ fun y _ => SimR.same _ fun z _ => ?_
  refine (sim_matmul hv (seesL_rot hp h3 _ _).1 (seesL_rot hp h2 _ _).1).bind fun a b hab => ?_
  exact sim_matmul hv hab.1 (seesL_rot hp h1 _ _).1

theorem sim_prod2 (hv : lay.Valid) {pd : DT} (hp : SinglePrec pd) (p : List ℝ) (i : ℕ)
    {P1 P2 : Tensor ℂ × DT} (h1 : P1.2 = .i64 ∨ P1.2 = .c64) (h2 : P2.2 = .i64 ∨ P2.2 = .c64) :
    SimR (SeesD .c64) (SLayer.prod2X lay pd p i P1 P2) (SLayer.prod2 p i P1.1 P2.1) := by
  unfold SLayer.prod2X SLayer.prod2
  refine SimR.same _ fun x _ => SimR.same _ fun y _ => ?_
  exact sim_matmul hv (seesL_rot hp h2 _ _).1 (seesL_rot hp h1 _ _).1

/-- Parameters of type `pd` leave the matrices of the layer complex64. -/
def CplxLayer (l : SLayer) (pd : DT) : Prop := SinglePrec pd ∨ l.cls = .h

theorem sim_wireMat (hv : lay.Valid) (l : SLayer) {pd : DT} (hp : CplxLayer l pd) (i : ℕ) :
    SimR (SeesD .c64) (l.wireMatX lay pd i) (l.wireMat i) := by
  unfold SLayer.wireMatX SLayer.wireMat
  unfold CplxLayer at hp
  revert hp
  cases l.cls with
  | xyz | zyx | yzy | xzx =>
    exact fun hp => sim_prod3 hv (hp.resolve_right (by simp)) _ i (by simp) (by simp) (by simp)
  | xz | zx => exact fun hp => sim_prod2 hv (hp.resolve_right (by simp)) _ i (by simp) (by simp)
  | h => exact fun _ => SimR.ok (sees_fresh _ _)

theorem sim_calSingle (hv : lay.Valid) (l : SLayer) {pd : DT} (hp : CplxLayer l pd) :
    SimR (SeesW (fun w => w ∈ l.wires)) (l.calSingleGatesX lay pd) l.calSingleGates :=
  sim_calGates (sim_wireMat hv l hp) _ _

theorem seesG_val {l : List XT} {m : List (Tensor ℂ)} (h : List.Forall₂ SeesG l m) : l.map XT.val = m := by
  induction h with
  | nil => rfl
  | cons h1 _ ih =>
    rw [List.map_cons, ih]
    rcases h1 with h1 | h1 <;> rw [h1.1]

theorem seesG_type {l : List XT} {m : List (Tensor ℂ)} (h : List.Forall₂ SeesG l m) :
    ∀ d : DT, d.toComplex = .c64 → ((l.map XT.dt).foldl DT.promote d).toComplex = .c64 := by
  induction h with
  | nil => exact fun d hd => hd
  | cons h1 _ ih =>
    intro d hd
    rw [List.map_cons, List.foldl_cons]
    refine ih _ ?_
    rcases h1 with h1 | h1 <;> rw [h1.2.1] <;> cases d <;> first | rfl | cases hd

theorem sim_layer_U (hv : lay.Valid) (l : SLayer) {pd : DT} (hp : CplxLayer l pd) :
    SimR (SeesD .c64) (l.U_expandX lay pd) l.U_expand := by
  unfold SLayer.U_expandX SLayer.U_expand
  refine (sim_calSingle hv l hp).bind fun a b hab => ?_
  rw [seesG_val hab.1, seesG_type hab.1 .i64 rfl]
  cases multi_kron b with
  | error e => exact rfl
  | ok v => exact sees_fresh v _

theorem sim_layer_op (hv : lay.Valid) (l : SLayer) {pd : DT} (hp : CplxLayer l pd) {x : List XT}
    {m : List (Tensor ℂ)} (h : SeesL .c64 x m) :
    SimR (SeesL .c64) (l.TN_operationX lay pd x) (l.TN_operation m) := by
  unfold SLayer.TN_operationX SLayer.TN_operation SingleLayer.TN_operationX SingleLayer.TN_operation
  refine (sim_calSingle hv l hp).bind fun a b hab => ?_
  refine SimR.foldlM_mem _ (fun x m q hq hx => ?_) h
  refine (hab.2 q hq).bind fun u u' hu => ?_
  refine (SimR.pyGet hx q).bind fun t t' ht => ?_
  refine (sim_einsum hv hu ht).bind fun r r' hr => ?_
  exact SimR.pySet hx q hr

theorem sim_layer_contract (hv : lay.Valid) (l : SLayer) {pd : DT} (hp : CplxLayer l pd) {T : XT}
    {T' : Tensor ℂ} (hT : Sees .c64 T T') (batch : Bool) :
    SimR (Sees .c64) (l.TN_contractX lay pd T batch) (l.TN_contract T' batch) := by
  unfold SLayer.TN_contractX SLayer.TN_contract SingleLayer.TN_contractX SingleLayer.TN_contract
  refine (sim_calSingle hv l hp).bind fun a b hab => ?_
  refine SimR.ite Iff.rfl (fun _ => ?_) (fun _ => ?_)
  · refine SimR.foldlM_mem _ (fun x m q hq hx => ?_) hT
    exact (hab.2 q hq).bind fun u u' hu => sim_contract1 hv hu hx _ _
  · refine SimR.foldlM_mem _ (fun x m q hq hx => ?_) hT
    exact (hab.2 q hq).bind fun u u' hu => sim_contract1 hv hu hx _ _

/-! ## Rings -/

theorem sim_wrap (hsvd : ValidSVD svd) (hv : lay.Valid) (N L : ℤ) {l : List XT} {m : List (Tensor ℂ)}
    (h : SeesL .c64 l m) :
    SimT (SeesL .c64) (Ring.wrapCnotX svd lay N L l) (Ring.wrapCnot svd N L m) := by
  unfold Ring.wrapCnotX Ring.wrapCnot
  refine SimT.bind (R := SeesL .c64) (SimT.foldlM (fun a b i hab => ?_) _ h) fun l l' hl => ?_
  · refine SimT.ite Iff.rfl (fun _ => ?_) (fun _ => ?_)
    · exact sim_gate hsvd hv _ (cplx_f32 _) hab
    · exact sim_gate hsvd hv _ (cplx_f32 _) hab
  · exact SimT.foldlM (by intro _ _ _ hab; exact sim_gate hsvd hv _ (cplx_f32 _) hab) _ hl

theorem sim_ring (hsvd : ValidSVD svd) (hv : lay.Valid) (r : Ring) {l : List XT}
    {m : List (Tensor ℂ)} (h : SeesL .c64 l m) :
    SimT (SeesL .c64) (r.TN_operationX svd lay l) (r.TN_operation svd m) := by
  unfold Ring.TN_operationX Ring.TN_operation
  dsimp only
  cases r.kind with
  | ring =>
    refine SimT.same _ fun _ _ => ?_
    refine SimT.bind (R := SeesL .c64)
      (SimT.foldlM (by intro _ _ _ hab; exact sim_gate hsvd hv _ (cplx_f32 _) hab) _ h) fun l l' hl => ?_
    refine SimT.ite Iff.rfl (fun _ => SimT.pure hl) (fun _ => sim_wrap hsvd hv _ _ hl)
  | dagger =>
    refine SimT.same _ fun _ _ => ?_
    refine SimT.ite Iff.rfl (fun _ => sim_gate hsvd hv _ (cplx_f32 _) h) (fun _ => ?_)
    refine SimT.bind (R := SeesL .c64) (sim_wrap hsvd hv _ _ h) fun l l' hl => ?_
    exact SimT.foldlM (by intro _ _ _ hab; exact sim_gate hsvd hv _ (cplx_f32 _) hab) _ hl
  | ring2 => exact SimT.lift (SimR.error _)

theorem sim_ring_contract (hv : lay.Valid) (r : Ring) {T : XT} {T' : Tensor ℂ} (hT : Sees .c64 T T')
    (batch : Bool) : SimR (Sees .c64) (r.TN_contractX lay T batch) (r.TN_contract T' batch) := by
  unfold Ring.TN_contractX Ring.TN_contract
  dsimp only
  have step : ∀ (l : List ℕ) , SimR (Sees .c64)
      (l.foldlM (fun T (i : ℕ) => do
        let c ← pyGet r.wires (i : ℤ)
        let t ← pyGet r.wires (((i + 1) % r.wires.length : ℕ) : ℤ)
        Ring.cnotContractX lay r.nqubits c t T batch) T)
      (l.foldlM (fun T (i : ℕ) => do
        let c ← pyGet r.wires (i : ℤ)
        let t ← pyGet r.wires (((i + 1) % r.wires.length : ℕ) : ℤ)
        Ring.cnotContract r.nqubits c t T batch) T') := by
    intro l
    refine SimR.foldlM (fun a b i hab => ?_) l hT
    refine SimR.same _ fun _ _ => SimR.same _ fun _ _ => ?_
    exact sim_gate_contract hv _ (cplx_f32 _) hab batch
  cases r.kind with
  | ring =>
    refine SimR.same _ fun _ _ => ?_
    refine SimR.ite Iff.rfl (fun _ => ?_) (fun _ => step _)
    refine SimR.same _ fun _ _ => SimR.same _ fun _ _ => ?_
    exact sim_gate_contract hv _ (cplx_f32 _) hT batch
  | dagger =>
    refine SimR.same _ fun _ _ => ?_
    refine SimR.ite Iff.rfl (fun _ => ?_) (fun _ => step _)
    refine SimR.same _ fun _ _ => SimR.same _ fun _ _ => ?_
    exact sim_gate_contract hv _ (cplx_f32 _) hT batch
  | ring2 => exact SimR.error _

theorem sim_basic_U (hv : lay.Valid) {pd : DT} (hp : SinglePrec pd) (b : Basic) :
    SimR (SeesD .c64) (b.U_expandX lay pd) b.U_expand := by
  unfold Basic.U_expandX Basic.U_expand
  refine SimR.same _ fun r _ => SimR.same _ fun c _ => ?_
  refine SimR.foldlM (fun x y i hxy => ?_) _ (sees_fresh _ _)
  refine SimR.same _ fun l _ => ?_
  refine (sim_layer_U hv l (Or.inl hp)).bind fun u u' hu => ?_
  refine (sim_matmul hv (sees_fresh _ _).1 hu.1).bind fun a b hab => ?_
  exact sim_matmul hv hab.1 hxy.1

/-! ## Operations -/

theorem suits_gate {o : XOp} (h : TypeSuits o) {g : Gate} (hg : o.op = .gate g) : CplxGate g o.pd := by
  rcases h with h | ⟨h, h'⟩
  · exact cplx_single h g
  · rw [hg] at h'
    rw [h]
    exact cplx_f64 g h'

theorem suits_single {o : XOp} (h : TypeSuits o) {l : SLayer} (hl : o.op = .single l) : CplxLayer l o.pd := by
  rcases h with h | ⟨h, h'⟩
  · exact Or.inl h
  · rw [hl] at h'
    exact Or.inr h'

theorem suits_basic {o : XOp} (h : TypeSuits o) {b : Basic} (hb : o.op = .basic b) : SinglePrec o.pd := by
  rcases h with h | ⟨h, h'⟩
  · exact h
  · rw [hb] at h'
    exact h'.elim

theorem sim_op_U (hv : lay.Valid) (o : XOp) (hp : TypeSuits o) :
    SimR (SeesD .c64) (o.U_expandX lay) o.op.U_expand := by
  unfold XOp.U_expandX Op.U_expand
  cases ho : o.op with
  | gate g =>
    dsimp only
    rw [(suits_gate hp ho).2]
    exact sim_typed _ _
  | single l => exact sim_layer_U hv l (suits_single hp ho)
  | ring r => exact sim_typed _ _
  | basic b => exact sim_basic_U hv (suits_basic hp ho) b

theorem sim_op (hsvd : ValidSVD svd) (hv : lay.Valid) (o : XOp) (hp : TypeSuits o) {l : List XT}
    {m : List (Tensor ℂ)} (h : SeesL .c64 l m) :
    SimT (SeesL .c64) (o.TN_operationX svd lay l) (o.op.TN_operation svd m) := by
  unfold XOp.TN_operationX Op.TN_operation
  cases ho : o.op with
  | gate g => exact sim_gate hsvd hv g (suits_gate hp ho) h
  | single l => exact SimT.lift (sim_layer_op hv l (suits_single hp ho) h)
  | ring r => exact sim_ring hsvd hv r h
  | basic b => exact SimT.lift (SimR.error _)

theorem sim_op_contract (hv : lay.Valid) (o : XOp) (hp : TypeSuits o) {T : XT} {T' : Tensor ℂ}
    (hT : Sees .c64 T T') (batch : Bool) :
    SimR (Sees .c64) (o.TN_contractX lay T batch) (o.op.TN_contract T' batch) := by
  unfold XOp.TN_contractX Op.TN_contract
  cases ho : o.op with
  | gate g => exact sim_gate_contract hv g (suits_gate hp ho) hT batch
  | single l => exact sim_layer_contract hv l (suits_single hp ho) hT batch
  | ring r => exact sim_ring_contract hv r hT batch
  | basic b => exact SimR.error _

/-! ## Circuits -/

theorem foldlM_map_op {α : Type} {M : Type → Type} [Monad M] (f : α → Op → M α) (l : List XOp) (a : α) :
    (l.map XOp.op).foldlM f a = l.foldlM (fun a o => f a o.op) a := by
  induction l generalizing a with
  | nil => rfl
  | cons o l ih =>
    rw [List.map_cons, List.foldlM_cons, List.foldlM_cons]
    congr 1
    funext b
    exact ih b

theorem SimT.foldlM_mem {α β γ : Type} {R : α → β → Prop} {f : α → γ → TNM α} {g : β → γ → TNM β}
    (l : List γ) (hf : ∀ a b, ∀ c ∈ l, R a b → SimT R (f a c) (g b c)) {a : α} {b : β} (h : R a b) :
    SimT R (l.foldlM f a) (l.foldlM g b) := by
  induction l generalizing a b with
  | nil => exact SimT.pure h
  | cons c l ih =>
    rw [List.foldlM_cons, List.foldlM_cons]
    refine (hf a b c (by simp) h).bind fun a' b' h' => ?_
    exact ih (fun a b c' hc' => hf a b c' (List.mem_cons_of_mem _ hc')) h'

theorem sim_U (hv : lay.Valid) {x : XCircuit} {c : Circuit} (h : IsTyped x c) (ltr : Bool) :
    SimR (SeesD .c64) (x.UX lay ltr) (c.U ltr) := by
  unfold XCircuit.UX Circuit.U
  rw [h.gate, foldlM_map_op, h.nqubits]
  refine SimR.foldlM_mem _ (fun a b o ho hab => ?_) (sees_fresh _ _)
  refine (sim_op_U hv o (h.prec o ho)).bind fun u u' hu => ?_
  refine SimR.ite Iff.rfl (fun _ => sim_matmul hv hu.1 hab.1) (fun _ => sim_matmul hv hab.1 hu.1)

theorem sim_evolution (hsvd : ValidSVD svd) (hv : lay.Valid) {x : XCircuit} {c : Circuit}
    (h : IsTyped x c) {l : List XT} {m : List (Tensor ℂ)} (hl : SeesL .c64 l m) :
    SimT (SeesL .c64) (x.TN_evolutionX svd lay l) (c.TN_evolution svd m) := by
  unfold XCircuit.TN_evolutionX Circuit.TN_evolution
  rw [h.gate, foldlM_map_op, h.nqubits, hl.length_eq]
  refine SimT.same _ fun _ _ => ?_
  refine SimT.foldlM_mem _ (fun a b o ho hab => ?_) hl
  refine SimT.ite Iff.rfl (fun _ => sim_op hsvd hv o (h.prec o ho) hab) (fun _ => SimT.lift (SimR.error _))

theorem sim_contract_evolution (hv : lay.Valid) {x : XCircuit} {c : Circuit} (h : IsTyped x c) {T : XT}
    {T' : Tensor ℂ} (hT : Sees .c64 T T') (batch : Bool) :
    SimR (Sees .c64) (x.TN_contract_evolutionX lay T batch) (c.TN_contract_evolution T' batch) := by
  unfold XCircuit.TN_contract_evolutionX Circuit.TN_contract_evolution
  rw [h.gate, foldlM_map_op, h.nqubits, hT.1]
  have step : SimR (Sees .c64)
      (x.gate.foldlM (fun T o =>
        if o.op.supportTN = true then o.TN_contractX lay T batch else .error .valueError) T)
      (x.gate.foldlM (fun T o =>
        if o.op.supportTN = true then o.op.TN_contract T batch else .error .valueError) T') := by
    refine SimR.foldlM_mem _ (fun a b o ho hab => ?_) hT
    exact SimR.ite Iff.rfl (fun _ => sim_op_contract hv o (h.prec o ho) hab batch) (fun _ => SimR.error _)
  cases batch
  · exact SimR.same _ fun _ _ => step
  · exact SimR.same _ fun _ _ => step

theorem sim_check {x : XCircuit} {c : Circuit} (h : IsTyped x c) : x.TN_check = c.TN_check := by
  unfold XCircuit.TN_check Circuit.TN_check
  rw [h.gate, List.all_map]
  rfl

theorem sim_quad (hv : lay.Valid) {p M : XT} {p' M' : Tensor ℂ} (hp : SeesD .c64 p p')
    (hM : Sees .c64 M M') : SimR (fun a b => a = b) (XCircuit.quadFormX lay p M) (Circuit.quadForm p' M') := by
  unfold XCircuit.quadFormX Circuit.quadForm
  refine (sim_viewD hp _).bind fun a a' ha => ?_
  refine (sim_matmul hv (sim_conj ha.1) hM).bind fun l l' hl => ?_
  refine (sim_viewD hp _).bind fun b b' hb => ?_
  refine (sim_matmul hv hl.1 hb.1).bind fun r r' hr => ?_
  have := (sim_squeeze hr.1).1
  rw [this]
  exact rfl

theorem evolution_len {c : Circuit} {m m' s s' : List (Tensor ℂ)}
    (h : c.TN_evolution svd m s = (.ok m', s')) : m'.length = c.nqubits := by
  have hm : m.length = c.nqubits := by
    by_contra hne
    unfold Circuit.TN_evolution at h
    rw [raiseIf_true hne] at h
    cases h
  rcases inPlace_evolution svd c 0 ⟨fun _ => m, 1, c, s⟩ with ⟨m1, s1, h1, hl, _⟩ | ⟨e, m1, s1, h1, hl, _⟩
  · rw [show c.TN_evolution svd m s = (.ok m1, s1) from h1] at h
    cases h
    exact hl.trans hm
  · rw [show c.TN_evolution svd m s = (.error e, s1) from h1] at h
    cases h

theorem SimT.and_post {α β : Type} {R : α → β → Prop} {P : β → Prop} {x : TNM α} {y : TNM β}
    (h : SimT R x y) (hp : ∀ b s s', y s = (.ok b, s') → P b) : SimT (fun a b => R a b ∧ P b) x y := by
  intro s
  refine ⟨(h s).1.and_post fun b hb => hp b s (y s).2 ?_, (h s).2⟩
  rw [← hb]

theorem view_row {a : XT} {b : Tensor ℂ} {e : DT} (h : Sees e a b) {n : ℕ} (hs : b.shape = [1, n]) :
    SimR (Sees e) (a.view [1, -1]) (b.view [1, -1]) := by
  obtain ⟨x, y, hxy⟩ := two_strides (h.2.2.trans (by rw [h.1, hs]; rfl))
  refine sim_view h _ fun v hv => ?_
  obtain ⟨hp, q, hq⟩ := view_ok hv
  have e' : v.shape = [1] ++ [q] := by rw [hq]; simp
  rw [e'] at hp ⊢
  rw [hs] at hp ⊢
  rw [hxy]
  exact stride_split (by simp) (by simpa using hp)

theorem view_col {a : XT} {b : Tensor ℂ} {e : DT} (h : Sees e a b) {n : ℕ} (hs : b.shape = [1, n]) :
    SimR (Sees e) (a.view [-1, 1]) (b.view [-1, 1]) := by
  obtain ⟨x, y, hxy⟩ := two_strides (h.2.2.trans (by rw [h.1, hs]; rfl))
  refine sim_view h _ fun v hv => ?_
  obtain ⟨hp, q, hq⟩ := view_ok hv
  have e' : v.shape = [] ++ [q, 1] := by rw [hq]; simp
  rw [e'] at hp ⊢
  rw [hs] at hp ⊢
  rw [hxy]
  exact stride_split (by simp) (by simpa using hp)

theorem toComplex_self (hd : d.isComplex = true) : d.toComplex = d := by
  cases d <;> first | rfl | cases hd

/-! ## Circuits of one qubit -/

/-- every site is `(k, 1, 1)` -/
def Sites (m : List (Tensor ℂ)) : Prop := ∀ t ∈ m, ∃ k, t.shape = [k, 1, 1]

theorem einsum_one_site {u t v : Tensor ℂ} {k : ℕ} (ht : t.shape = [k, 1, 1])
    (h : Tensor.einsum_ab_bcd u t = .ok v) : ∃ k, v.shape = [k, 1, 1] := by
  unfold Tensor.einsum_ab_bcd at h
  rw [ht] at h
  split at h
  · rename_i a b b' c e hu hs
    cases hs
    split_ifs at h
    cases h
    exact ⟨a, rfl⟩
  · cases h

theorem pyGet_in {α : Type} {l : List α} {i : ℤ} {x : α} (h : pyGet l i = .ok x) : x ∈ l := by
  unfold pyGet at h
  obtain ⟨k, _, h⟩ := bind_ok h
  split at h
  · rename_i y hy
    cases h
    exact List.mem_of_getElem? hy
  · cases h

theorem sites_set {m m' : List (Tensor ℂ)} (hm : Sites m) {i : ℤ} {v : Tensor ℂ}
    (hv : ∃ k, v.shape = [k, 1, 1]) (h : pySet m i v = .ok m') : Sites m' := by
  unfold pySet at h
  obtain ⟨k, _, h⟩ := bind_ok h
  cases h
  intro t ht
  rcases List.mem_or_eq_of_mem_set ht with ht | rfl
  · exact hm t ht
  · exact hv

theorem sites_op {o : Op} (ho : OneQubit o) {m m' s s' : List (Tensor ℂ)} (hm : Sites m)
    (h : o.TN_operation svd m s = (.ok m', s')) : Sites m' := by
  unfold Op.TN_operation at h
  cases o with
  | gate g =>
    have h' : TNM.lift (g.single_TN_operation m) s = (.ok m', s') := by
      dsimp only at h
      unfold Gate.TN_operation at h
      rcases ho with e | e | e | e | e | e | e | e | e <;> rw [e] at h <;> exact h
    have h1 : g.single_TN_operation m = .ok m' := congrArg Prod.fst h'
    unfold Gate.single_TN_operation at h1
    obtain ⟨_, _, h1⟩ := bind_ok h1
    obtain ⟨i, _, h1⟩ := bind_ok h1
    obtain ⟨t, ht, h1⟩ := bind_ok h1
    obtain ⟨v, hv, h1⟩ := bind_ok h1
    obtain ⟨k, hk⟩ := hm t (pyGet_in ht)
    exact sites_set hm (einsum_one_site hk hv) h1
  | single l =>
    have h1 : l.TN_operation m = .ok m' := congrArg Prod.fst h
    unfold SLayer.TN_operation SingleLayer.TN_operation at h1
    obtain ⟨g, _, h2⟩ := bind_ok h1
    clear h ho h1
    revert h2
    generalize l.wires = ws
    induction ws generalizing m with
    | nil =>
      intro h1
      cases h1
      exact hm
    | cons q ws ih =>
      intro h1
      rw [List.foldlM_cons] at h1
      obtain ⟨m1, hm1, h1⟩ := bind_ok h1
      refine ih ?_ h1
      obtain ⟨u, _, hm1⟩ := bind_ok hm1
      obtain ⟨t, ht, hm1⟩ := bind_ok hm1
      obtain ⟨v, hv, hm1⟩ := bind_ok hm1
      obtain ⟨k, hk⟩ := hm t (pyGet_in ht)
      exact sites_set hm (einsum_one_site hk hv) hm1
  | ring r => exact ho.elim
  | basic b => exact ho.elim

theorem tnm_bind_ok {α β : Type} {x : TNM α} {f : α → TNM β} {b : β} {s s' : List (Tensor ℂ)}
    (h : (x >>= f) s = (.ok b, s')) : ∃ a s1, x s = (.ok a, s1) ∧ f a s1 = (.ok b, s') := by
  change TNM.bind' x f s = _ at h
  unfold TNM.bind' at h
  rcases hx : x s with ⟨e | a, s1⟩
  · rw [hx] at h
    cases h
  · rw [hx] at h
    exact ⟨a, s1, rfl, h⟩

theorem sites_evolution {c : Circuit} (hc : ∀ o ∈ c.gate, OneQubit o) {m m' s s' : List (Tensor ℂ)}
    (hm : Sites m) (h : c.TN_evolution svd m s = (.ok m', s')) : Sites m' := by
  unfold Circuit.TN_evolution at h
  obtain ⟨_, s1, hr, h2⟩ := tnm_bind_ok h
  clear h hr
  revert hc h2
  generalize c.gate = l
  intro hc h
  induction l generalizing m s1 with
  | nil =>
    cases h
    exact hm
  | cons o l ih =>
    rw [List.foldlM_cons] at h
    obtain ⟨m1, s2, h1, h2⟩ := tnm_bind_ok h
    refine ih ?_ s2 (fun o ho => hc o (List.mem_cons_of_mem _ ho)) h2
    split_ifs at h1
    · exact sites_op (hc o (by simp)) hm h1
    · cases h1

theorem sites_start {p : Tensor ℂ} {m s s' : List (Tensor ℂ)}
    (h : StateVec2MPS svd p 1 s = (.ok m, s')) : Sites m := by
  unfold StateVec2MPS at h
  obtain ⟨_, s1, h1, h⟩ := tnm_bind_ok h
  obtain ⟨_, s2, h2, h⟩ := tnm_bind_ok h
  have h1 := raiseIf_ok (congrArg Prod.fst h1 : raiseIf _ _ = .ok _)
  have h2 := raiseIf_ok (congrArg Prod.fst h2 : raiseIf _ _ = .ok _)
  push Not at h1 h2
  obtain ⟨a, b, hs⟩ := two_strides (show p.shape.length = 2 from h1)
  rw [hs] at h2
  have ha : a = 1 := h2.1
  have hb : b = 2 * 1 := h2.2
  subst ha hb
  obtain ⟨c, hc, hcs, _⟩ := foldHalves_ok (by omega) hs
  unfold StateVec2MPS_loop at h
  rw [hc] at h
  have h' : (do
      let t ← TNM.lift (c.view [2, -1, (c.shape.getD 1 0 : ℤ)])
      pure [t] : TNM (List (Tensor ℂ))) s2 = (.ok m, s') := h
  obtain ⟨t, s3, h3, h4⟩ := tnm_bind_ok h'
  obtain ⟨hp, q, hq⟩ := view_ok (congrArg Prod.fst h3 : c.view _ = .ok t)
  rw [hcs] at hp hq
  have hq' : t.shape = [2, q, 1] := by rw [hq]; rfl
  rw [hq'] at hp
  have : q = 1 := by simpa using hp
  cases h4
  intro t' ht'
  rw [List.mem_singleton] at ht'
  subst ht'
  exact ⟨2, by rw [hq', this]⟩

theorem MPS2SV_row {m : List (Tensor ℂ)} {v : Tensor ℂ} (h : MPS2StateVec m = .ok v) :
    ∃ n, v.shape = [1, n] := by
  unfold MPS2StateVec at h
  cases m with
  | nil => cases h
  | cons t ts =>
    obtain ⟨c, _, h⟩ := bind_ok h
    obtain ⟨x, _, h⟩ := bind_ok h
    obtain ⟨_, q, hq⟩ := view_ok h
    exact ⟨q, by rw [hq]; rfl⟩

theorem sim_quad_row (hv : lay.Valid) {p M : XT} {p' M' : Tensor ℂ} (hp : Sees .c64 p p') {n : ℕ}
    (hs : p'.shape = [1, n]) (hM : Sees .c64 M M') :
    SimR (fun a b => a = b) (XCircuit.quadFormX lay p M) (Circuit.quadForm p' M') := by
  unfold XCircuit.quadFormX Circuit.quadForm
  refine (view_row hp hs).bind fun a a' ha => ?_
  refine (sim_matmul hv (sim_conj ha) hM).bind fun l l' hl => ?_
  refine (view_col hp hs).bind fun b b' hb => ?_
  refine (sim_matmul hv hl.1 hb).bind fun r r' hr => ?_
  have := (sim_squeeze hr.1).1
  rw [this]
  exact rfl

/-- The contraction of any number of sites. -/
theorem sim_MPS2SV_any (hv : lay.Valid) {l : List XT} {m : List (Tensor ℂ)} (h : SeesL d l m)
    (hm : m.length = 1 → Sites m) : SimR (Sees d) (MPS2StateVecX lay l) (MPS2StateVec m) := by
  by_cases h1 : m.length = 1
  · have hS := hm h1
    cases h with
    | nil => cases h1
    | @cons a b l m hab hl =>
      cases hl with
      | nil =>
        obtain ⟨k, hk⟩ := hS b (by simp)
        exact sim_MPS2StateVec_one hab hk
      | cons _ _ => simp at h1
  · exact (sim_MPS2StateVec hv h h1).mono fun _ _ h => h.1

/-- the tensor-network route of `cir_expectation` -/
theorem sim_expectation_tn (hsvd : ValidSVD svd) (hv : lay.Valid) {x : XCircuit} {c : Circuit}
    (h : IsTyped x c) (hN : c.nqubits = 1 → ∀ o ∈ c.gate, OneQubit o) {e : DT} (he : e.toComplex = .c64) {init M : XT}
    {init' M' : Tensor ℂ} (hi : Sees e init init') {n : ℕ} (hs : init'.shape = [1, n])
    (hM : Sees .c64 M M') (hc : c.TN_check = true) :
    SimT (fun a b => a = b) (x.cir_expectationX svd lay init M true) (c.cir_expectation svd init' M' true) := by
  unfold XCircuit.cir_expectationX Circuit.cir_expectation
  rw [h.nqubits, sim_check h, hi.1, hM.1]
  refine SimT.same _ fun _ _ => SimT.same _ fun _ _ => SimT.same _ fun _ _ => SimT.same _ fun _ _ => ?_
  refine SimT.same _ fun _ _ => SimT.same _ fun _ _ => SimT.same _ fun _ _ => ?_
  refine SimT.ite Iff.rfl (fun _ => ?_) (fun hf => absurd ⟨hc, rfl⟩ hf)
  refine SimT.bindL (view_row hi hs) fun v v' hvv => ?_
  refine ((sim_StateVec2MPS hsvd hv hvv c.nqubits).and_post (P := fun m => c.nqubits = 1 → Sites m)
    fun b s s' hb h1 => sites_start (h1 ▸ hb)).bind fun l l' hl => ?_
  rw [he] at hl
  refine ((sim_evolution hsvd hv h hl.1).and_post (P := fun m => m.length = 1 → Sites m)
    fun b s s' hb h1 => ?_).bind fun m m' hm => ?_
  · have := (evolution_len hb).symm.trans h1
    exact sites_evolution (hN this) (hl.2 this) hb
  refine SimT.bindL ((sim_MPS2SV_any hv hm.1 hm.2).and_post fun b hb => MPS2SV_row hb) fun p p' hp => ?_
  obtain ⟨n, hn⟩ := hp.2
  exact SimT.lift (sim_quad_row hv hp.1 hn hM)

/-- both routes -/
theorem sim_expectation (hsvd : ValidSVD svd) (hv : lay.Valid) {x : XCircuit} {c : Circuit}
    (h : IsTyped x c) (hN : c.nqubits = 1 → ∀ o ∈ c.gate, OneQubit o) {init M : XT} {init' M' : Tensor ℂ} (hi : Sees .c64 init init')
    {n : ℕ} (hs : init'.shape = [1, n]) (hM : Sees .c64 M M') (tn : Bool) :
    SimT (fun a b => a = b) (x.cir_expectationX svd lay init M tn) (c.cir_expectation svd init' M' tn) := by
  by_cases hc : c.TN_check = true ∧ tn = true
  · obtain ⟨hc, rfl⟩ := hc
    exact sim_expectation_tn hsvd hv h hN rfl hi hs hM hc
  unfold XCircuit.cir_expectationX Circuit.cir_expectation
  rw [h.nqubits, sim_check h, hi.1, hM.1]
  refine SimT.same _ fun _ _ => SimT.same _ fun _ _ => SimT.same _ fun _ _ => SimT.same _ fun _ _ => ?_
  refine SimT.same _ fun _ _ => SimT.same _ fun _ _ => SimT.same _ fun _ _ => ?_
  refine SimT.ite Iff.rfl (fun ht => absurd ht hc) (fun _ => ?_)
  refine SimT.bindL (sim_U hv h true) fun u u' hu => ?_
  refine SimT.bindL (view_col hi hs) fun v v' hvv => ?_
  refine SimT.bindL (sim_matmul hv hu.1 hvv) fun p p' hp => ?_
  exact SimT.lift (sim_quad hv hp hM)

/-! ## The specification -/

theorem addr_ravel {shape str idx : List ℕ} (hl : str.length = shape.length) (h : inB shape idx = true) :
    addrOf (shape.zip str).reverse (ravel shape idx) = memPos str idx := by
  have key : ∀ (s t i : List ℕ), t.length = s.length → inB s i = true → ∀ l n,
      addrOf ((s.zip t).reverse ++ l) (n * s.prod + ravel s i) = memPos t i + addrOf l n := by
    intro s
    induction s with
    | nil =>
      intro t i ht hi l n
      cases i with
      | nil => simp [ravel, memPos]
      | cons x i => simp [inB] at hi
    | cons x s ih =>
      intro t i ht hi l n
      cases t with
      | nil => simp at ht
      | cons y t =>
        cases i with
        | nil => simp [inB] at hi
        | cons k i =>
          have hk : k < x ∧ inB s i = true := by simpa [inB] using hi
          have hx : 0 < x := by omega
          rw [List.zip_cons_cons, List.reverse_cons, List.append_assoc, List.singleton_append]
          have e : n * (x :: s).prod + ravel (x :: s) (k :: i) = (n * x + k) * s.prod + ravel s i := by
            rw [List.prod_cons, ravel]
            ring
          rw [e, ih t i (by simpa using ht) hk.2, addrOf]
          have h1 : (n * x + k) % x = k := by
            rw [Nat.mul_comm, Nat.mul_add_mod]
            exact Nat.mod_eq_of_lt hk.1
          have h2 : (n * x + k) / x = n := by
            rw [Nat.mul_comm, Nat.mul_add_div hx, Nat.div_eq_of_lt hk.1, Nat.add_zero]
          dsimp only
          rw [h1, h2]
          simp only [memPos, List.zipWith_cons_cons, List.sum_cons]
          ring
  have := key shape str idx hl h [] 0
  simpa [addrOf] using this

theorem contiguous_iff {shape str : List ℕ} (hl : str.length = shape.length) :
    Contiguous shape str ↔ Dense shape str := by
  constructor
  · intro h
    by_cases h0 : shape.prod = 0
    · exact Or.inl h0
    · refine Or.inr (merges_of_addr ?_ fun n hn => ?_)
      · rw [sizes_zip_reverse hl]
        exact Nat.pos_of_ne_zero h0
      · rw [sizes_zip_reverse hl] at hn
        rw [← ravel_unravel hn, addr_ravel hl (inB_unravel hn), h _ (inB_unravel hn), one_mul]
  · rintro (h | h) idx hi
    · have := ravel_lt hi
      omega
    · rw [← addr_ravel hl hi, merges_addr h _ (by rw [sizes_zip_reverse hl]; exact ravel_lt hi), one_mul]

theorem layoutOK_valid {lay : Lay} (h : LayoutOK lay) : lay.Valid :=
  ⟨fun a b v hv => ⟨(h.mm a b v hv).1, (contiguous_iff (h.mm a b v hv).1).1 (h.mm a b v hv).2⟩,
    h.ein, h.svdU, h.svdV, h.elem⟩

theorem hasType_sees {t : XT} (h : HasType d t) : Sees d t t.val := ⟨rfl, h.1, h.2⟩

theorem hasType_seesD {t : XT} (h : HasType d t) (hc : Contiguous t.val.shape t.str) : SeesD d t t.val :=
  ⟨hasType_sees h, (contiguous_iff h.2).1 hc⟩

theorem hasTypes_sees {l : List XT} (h : ∀ t ∈ l, HasType d t) : SeesL d l (l.map XT.val) := by
  induction l with
  | nil => exact .nil
  | cons t l ih =>
    exact .cons (hasType_sees (h t (by simp))) (ih fun t ht => h t (List.mem_cons_of_mem _ ht))

theorem seesL_vals {l : List XT} {m : List (Tensor ℂ)} (h : SeesL d l m) : l.map XT.val = m := by
  induction h with
  | nil => rfl
  | cons h1 _ ih => rw [List.map_cons, ih, h1.1]

theorem sim_values {R : XT → Tensor ℂ → Prop} {x : Py XT} {y : Py (Tensor ℂ)} (h : SimR R x y)
    (hR : ∀ a b, R a b → a.val = b) : values x = y :=
  SimR.map_eq (h.mono hR)

theorem sim_valuesT {α β : Type} {R : α → β → Prop} {f : α → β} {x : TNM α} {y : TNM β} (h : SimT R x y)
    (hR : ∀ a b, R a b → f a = b) : valuesT f x = y := by
  funext s
  exact Prod.ext (SimR.map_eq ((h s).1.mono hR)) (h s).2

theorem sim_eq {α : Type} {x y : TNM α} (h : SimT (fun a b => a = b) x y) : x = y := by
  funext s
  refine Prod.ext ?_ (h s).2
  have h1 := (h s).1
  revert h1
  cases (x s).1 <;> cases (y s).1
  · exact fun h => congrArg _ h
  · exact fun h => h.elim
  · exact fun h => h.elim
  · exact fun h => congrArg _ h

end QTN
