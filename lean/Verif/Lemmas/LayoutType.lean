import Verif.Lemmas.LayoutCircuit

/-!
# Data types along the evaluation of a circuit

Products of tensors of different types raise, so whatever an operation returns has the type of the
tensors it was given, and then also the matrices of the operation had this type.
-/

namespace QTN

open Spec

variable {α β : Type} {svd : SVDOracle} {lay : Lay} {d : DT}

/-- Whatever the call returns satisfies `P`. -/
def Ret (x : Py α) (P : α → Prop) : Prop := ∀ a, x = .ok a → P a

/-- The same for computations that call the SVD. -/
def RetT (x : TNM α) (P : α → Prop) : Prop := ∀ s a s', x s = (.ok a, s') → P a

theorem Ret.ok {a : α} {P : α → Prop} (h : P a) : Ret (.ok a : Py α) P := by
  intro b hb
  cases hb
  exact h

theorem Ret.error {e : PyErr} {P : α → Prop} : Ret (.error e : Py α) P := by
  intro b hb
  cases hb

theorem Ret.bind {x : Py α} {f : α → Py β} {Q : α → Prop} {P : β → Prop} (h : Ret x Q)
    (hf : ∀ a, Q a → Ret (f a) P) : Ret (x >>= f) P := by
  intro b hb
  obtain ⟨a, ha, hb⟩ := bind_ok hb
  exact hf a (h a ha) b hb

theorem Ret.skip {x : Py α} {f : α → Py β} {P : β → Prop} (hf : ∀ a, x = .ok a → Ret (f a) P) :
    Ret (x >>= f) P := Ret.bind (Q := fun a => x = .ok a) (fun _ h => h) hf

theorem Ret.mono {x : Py α} {Q P : α → Prop} (h : Ret x Q) (hq : ∀ a, Q a → P a) : Ret x P :=
  fun a ha => hq a (h a ha)

theorem Ret.foldlM {P : α → Prop} {f : α → β → Py α} (hf : ∀ a b, P a → Ret (f a b) P) :
    ∀ (l : List β) (a : α), P a → Ret (l.foldlM f a) P
  | [], a, h => Ret.ok h
  | b :: l, a, h => by
    rw [List.foldlM_cons]
    exact (hf a b h).bind fun a' h' => Ret.foldlM hf l a' h'

theorem RetT.pure {a : α} {P : α → Prop} (h : P a) : RetT (pure a : TNM α) P := by
  intro s b s' hb
  cases hb
  exact h

theorem RetT.lift {x : Py α} {P : α → Prop} (h : Ret x P) : RetT (TNM.lift x) P := by
  intro s b s' hb
  exact h b (congrArg Prod.fst hb)

theorem RetT.bind {x : TNM α} {f : α → TNM β} {Q : α → Prop} {P : β → Prop} (h : RetT x Q)
    (hf : ∀ a, Q a → RetT (f a) P) : RetT (x >>= f) P := by
  intro s b s' hb
  obtain ⟨a, s1, ha, hb⟩ := tnm_bind_ok hb
  exact hf a (h s a s1 ha) s1 b s' hb

theorem RetT.bindL {x : Py α} {f : α → TNM β} {Q : α → Prop} {P : β → Prop} (h : Ret x Q)
    (hf : ∀ a, Q a → RetT (f a) P) : RetT ((MonadLift.monadLift x : TNM α) >>= f) P :=
  RetT.bind (RetT.lift h) hf

theorem RetT.skip {x : Py α} {f : α → TNM β} {P : β → Prop} (hf : ∀ a, x = .ok a → RetT (f a) P) :
    RetT ((MonadLift.monadLift x : TNM α) >>= f) P :=
  RetT.bindL (Q := fun a => x = .ok a) (fun _ h => h) hf

theorem RetT.foldlM {P : α → Prop} {f : α → β → TNM α} (hf : ∀ a b, P a → RetT (f a b) P) :
    ∀ (l : List β) (a : α), P a → RetT (l.foldlM f a) P
  | [], a, h => RetT.pure h
  | b :: l, a, h => by
    rw [List.foldlM_cons]
    exact (hf a b h).bind fun a' h' => RetT.foldlM hf l a' h'

theorem RetT.mono {x : TNM α} {Q P : α → Prop} (h : RetT x Q) (hq : ∀ a, Q a → P a) : RetT x P :=
  fun s a s' ha => hq a (h s a s' ha)

/-- If one step of a loop with an invariant never returns, the loop does not return. -/
theorem RetT.foldlM_stuck {P : α → Prop} {f : α → β → TNM α} (hf : ∀ a b, P a → RetT (f a b) P)
    {l : List β} {b : β} (hb : b ∈ l) (hs : ∀ a, P a → RetT (f a b) (fun _ => False)) (a : α) (h : P a) :
    RetT (l.foldlM f a) (fun _ => False) := by
  induction l generalizing a with
  | nil => cases hb
  | cons c l ih =>
    rw [List.foldlM_cons]
    rcases List.mem_cons.1 hb with rfl | hb
    · exact (hs a h).bind fun _ h' => h'.elim
    · exact (hf a c h).bind fun a' h' => ih hb a' h'

theorem Ret.foldlM_stuck {P : α → Prop} {f : α → β → Py α} (hf : ∀ a b, P a → Ret (f a b) P)
    {l : List β} {b : β} (hb : b ∈ l) (hs : ∀ a, P a → Ret (f a b) (fun _ => False)) (a : α) (h : P a) :
    Ret (l.foldlM f a) (fun _ => False) := by
  induction l generalizing a with
  | nil => cases hb
  | cons c l ih =>
    rw [List.foldlM_cons]
    rcases List.mem_cons.1 hb with rfl | hb
    · exact (hs a h).bind fun _ h' => h'.elim
    · exact (hf a c h).bind fun a' h' => ih hb a' h'

/-! ## Single operations -/

theorem ret_view (t : XT) (s : List ℤ) : Ret (t.view s) (fun v => v.dt = t.dt) := by
  unfold XT.view
  refine Ret.skip fun v _ => ?_
  split
  · exact Ret.ok rfl
  · exact Ret.error

theorem ret_reshape (t : XT) (s : List ℤ) : Ret (t.reshape s) (fun v => v.dt = t.dt) := by
  unfold XT.reshape
  refine Ret.skip fun v _ => ?_
  split <;> exact Ret.ok rfl

theorem ret_permute (t : XT) (p : List ℤ) : Ret (t.permute p) (fun v => v.dt = t.dt) :=
  Ret.skip fun _ _ => Ret.skip fun _ _ => Ret.ok rfl

theorem ret_unsqueeze (t : XT) (i : ℤ) : Ret (t.unsqueeze i) (fun v => v.dt = t.dt) :=
  Ret.skip fun _ _ => Ret.skip fun _ _ => Ret.ok rfl

theorem ret_squeezeDim (t : XT) (i : ℤ) : Ret (t.squeezeDim i) (fun v => v.dt = t.dt) :=
  Ret.skip fun _ _ => Ret.skip fun _ _ => Ret.ok rfl

theorem ret_select0 (t : XT) (i : ℤ) : Ret (t.select0 i) (fun v => v.dt = t.dt) :=
  Ret.skip fun _ _ => Ret.ok rfl

theorem ret_indexSelect0 (t : XT) (l : List ℕ) : Ret (t.indexSelect0 l) (fun v => v.dt = t.dt) :=
  Ret.skip fun _ _ => Ret.ok rfl

theorem ret_indexSelect1 (t : XT) (l : List ℕ) : Ret (t.indexSelect1 l) (fun v => v.dt = t.dt) :=
  Ret.skip fun _ _ => Ret.ok rfl

theorem ret_chunk1 (t : XT) (k : ℕ) : Ret (t.chunk1 k) (fun l => ∀ v ∈ l, v.dt = t.dt) :=
  Ret.skip fun _ _ => Ret.ok fun v hv => by
    obtain ⟨_, _, rfl⟩ := List.mem_map.1 hv
    rfl

theorem ret_cat0 {a b : XT} (ha : a.dt = d) (hb : b.dt = d) : Ret (a.cat0 b) (fun v => v.dt = d) :=
  Ret.skip fun _ _ => Ret.ok (by rw [ha, hb]; exact promote_self d)

theorem ret_cat1 {a b : XT} (ha : a.dt = d) (hb : b.dt = d) : Ret (a.cat1 b) (fun v => v.dt = d) :=
  Ret.skip fun _ _ => Ret.ok (by rw [ha, hb]; exact promote_self d)

theorem ret_catList {f : XT → XT → Py XT} (hf : ∀ a b : XT, a.dt = d → b.dt = d → Ret (f a b) (fun v => v.dt = d))
    (l : List XT) (hl : ∀ v ∈ l, v.dt = d) : Ret (XT.catList f l) (fun v => v.dt = d) := by
  cases l with
  | nil => exact Ret.error
  | cons t ts =>
    unfold XT.catList
    have : ∀ (ts : List XT) (a : XT), a.dt = d → (∀ v ∈ ts, v.dt = d) →
        Ret (ts.foldlM f a) (fun v => v.dt = d) := by
      intro ts
      induction ts with
      | nil => exact fun a ha _ => Ret.ok ha
      | cons c cs ih =>
        intro a ha h
        rw [List.foldlM_cons]
        exact (hf a c ha (h c (by simp))).bind fun b hb => ih b hb fun v hv => h v (by simp [hv])
    exact this ts _ (hl t (by simp)) fun v hv => hl v (by simp [hv])

theorem ret_matmul (a b : XT) : Ret (a.matmul lay b) (fun v => a.dt = b.dt ∧ v.dt = b.dt) := by
  unfold XT.matmul
  refine Ret.skip fun _ h => Ret.skip fun _ _ => ?_
  have h := not_not.1 (raiseIf_ok h)
  exact Ret.ok ⟨h, h⟩

theorem ret_einsum (a b : XT) : Ret (XT.einsum_ab_bcd lay a b) (fun v => a.dt = b.dt ∧ v.dt = b.dt) := by
  unfold XT.einsum_ab_bcd
  refine Ret.skip fun _ h => Ret.skip fun _ _ => ?_
  have h := not_not.1 (raiseIf_ok h)
  exact Ret.ok ⟨h, rfl⟩

theorem ret_pyGet {P : α → Prop} {l : List α} (h : ∀ a ∈ l, P a) (i : ℤ) : Ret (pyGet l i) P :=
  fun _ ha => h _ (pyGet_in ha)

theorem ret_pySet {P : α → Prop} {l : List α} (h : ∀ a ∈ l, P a) (i : ℤ) {a : α} (ha : P a) :
    Ret (pySet l i a) (fun l => ∀ a ∈ l, P a) :=
  Ret.skip fun _ _ => Ret.ok fun _ hb => (List.mem_or_eq_of_mem_set hb).elim (h _) fun e => e ▸ ha

/-! ## Decompositions -/

theorem ret_callSvd (A : XT) :
    RetT (callSvdX svd lay A) (fun o => A.dt ≠ .i64 ∧ o.1.dt = A.dt ∧ o.2.2.dt = A.dt) := by
  intro s a s' h
  unfold callSvdX at h
  split at h
  · cases h
  split at h
  · cases h
    exact ⟨by assumption, rfl, rfl⟩
  · cases h

/-- The factors have the type of the matrix, which must be complex. -/
theorem ret_svdTrunc (A : XT) :
    RetT (svdTruncX svd lay A) (fun p => A.dt.isComplex = true ∧ p.1.dt = A.dt ∧ p.2.dt = A.dt) := by
  unfold svdTruncX
  refine (ret_callSvd A).bind fun o ho => ?_
  refine RetT.bindL (ret_permute _ _) fun V hV => ?_
  have hV : V.conj.dt = A.dt := hV.trans ho.2.2
  have key : A.dt.toReal.toComplex = A.dt → A.dt.isComplex = true := by
    have := ho.1
    revert this
    cases A.dt <;> simp [DT.toReal, DT.toComplex, DT.isComplex]
  dsimp only
  split
  · refine RetT.skip fun _ _ => RetT.bindL (ret_indexSelect1 _ _) fun U hU => ?_
    refine RetT.bindL (ret_indexSelect0 _ _) fun S hS => RetT.bindL (ret_matmul _ _) fun r hr => ?_
    exact RetT.pure ⟨key (hS.symm.trans (hr.1.trans hV)), hU.trans ho.2.1, hr.2.trans hV⟩
  · refine RetT.bindL (ret_matmul _ _) fun r hr => ?_
    exact RetT.pure ⟨key (hr.1.trans hV), ho.2.1, hr.2.trans hV⟩

theorem ret_foldHalves (t : XT) : Ret (foldHalvesX t) (fun v => v.dt = t.dt) := by
  unfold foldHalvesX
  refine (ret_chunk1 t 2).bind fun c hc => ?_
  exact (ret_pyGet hc 0).bind fun a ha => (ret_pyGet hc 1).bind fun b hb => ret_cat0 ha hb

theorem ret_select2 (t : XT) (i j : ℤ) : Ret (select2X t i j) (fun v => v.dt = t.dt) :=
  (ret_select0 t i).bind fun a ha => (ret_select0 a j).mono fun _ h => h.trans ha

theorem ret_select3 (t : XT) (i j k : ℤ) : Ret (select3X t i j k) (fun v => v.dt = t.dt) :=
  (ret_select0 t i).bind fun a ha => (ret_select0 a j).bind fun b hb =>
    (ret_select0 b k).mono fun _ h => h.trans (hb.trans ha)

theorem ret_blockMat2 (t : XT) : Ret (blockMat2X t) (fun v => v.dt = t.dt) := by
  unfold blockMat2X
  refine (ret_select2 t 0 0).bind fun a ha => (ret_select2 t 0 1).bind fun b hb => ?_
  refine (ret_cat1 ha hb).bind fun x hx => ?_
  refine (ret_select2 t 1 0).bind fun a ha => (ret_select2 t 1 1).bind fun b hb => ?_
  exact (ret_cat1 ha hb).bind fun y hy => ret_cat0 hx hy

theorem ret_blockMat3 (t : XT) : Ret (blockMat3X t) (fun v => v.dt = t.dt) := by
  unfold blockMat3X
  dsimp only
  have row : ∀ x : ℤ, Ret (do
      XT.catList XT.cat1
        [← select3X t x 0 0, ← select3X t x 0 1, ← select3X t x 1 0, ← select3X t x 1 1])
      (fun v => v.dt = t.dt) := fun x => by
    refine (ret_select3 t x 0 0).bind fun a ha => (ret_select3 t x 0 1).bind fun b hb => ?_
    refine (ret_select3 t x 1 0).bind fun c hc => (ret_select3 t x 1 1).bind fun e he => ?_
    refine ret_catList (fun _ _ h h' => ret_cat1 h h') _ fun v hv => ?_
    simp only [List.mem_cons, List.not_mem_nil, or_false] at hv
    rcases hv with rfl | rfl | rfl | rfl <;> assumption
  exact (row 0).bind fun a ha => (row 1).bind fun b hb => ret_cat0 ha hb

theorem ret_decomp2 (t : XT) :
    RetT (TensorDecompAfterTwoQbitGateX svd lay t) (fun p => p.1.dt = t.dt ∧ p.2.dt = t.dt) := by
  unfold TensorDecompAfterTwoQbitGateX
  refine RetT.bindL (ret_blockMat2 t) fun m hm => (ret_svdTrunc m).bind ?_
  rintro ⟨U, r⟩ ⟨-, hU, hr⟩
  dsimp only at hU hr ⊢
  refine RetT.bindL (ret_view _ _) fun a ha => RetT.bindL (ret_foldHalves r) fun r' hr' => ?_
  refine RetT.bindL (ret_view _ _) fun b hb => RetT.pure ?_
  exact ⟨ha.trans (hU.trans hm), hb.trans (hr'.trans (hr.trans hm))⟩

theorem ret_decomp3 (t : XT) :
    RetT (TensorDecompAfterThreeQbitGateX svd lay t)
      (fun p => p.1.dt = t.dt ∧ p.2.1.dt = t.dt ∧ p.2.2.dt = t.dt) := by
  unfold TensorDecompAfterThreeQbitGateX
  refine RetT.skip fun _ _ => RetT.bindL (ret_blockMat3 t) fun m hm => (ret_svdTrunc m).bind ?_
  rintro ⟨U, r⟩ ⟨-, hU, hr⟩
  dsimp only at hU hr ⊢
  refine RetT.bindL (ret_view _ _) fun a ha => RetT.bindL (ret_foldHalves r) fun r' hr' => ?_
  refine (ret_svdTrunc r').bind ?_
  rintro ⟨U2, r2⟩ ⟨-, hU2, hr2⟩
  dsimp only at hU2 hr2 ⊢
  refine RetT.bindL (ret_view _ _) fun b hb => RetT.bindL (ret_foldHalves r2) fun r2' hr2' => ?_
  refine RetT.bindL (ret_view _ _) fun c hc => RetT.pure ?_
  have h1 := hr'.trans (hr.trans hm)
  exact ⟨ha.trans (hU.trans hm), hb.trans (hU2.trans h1), hc.trans (hr2'.trans (hr2.trans h1))⟩

/-! ## Gates -/

/-- all tensors have type `d` -/
def AllT (d : DT) (l : List XT) : Prop := ∀ t ∈ l, t.dt = d

namespace Gate

theorem ret_mergeTwo {A B G : XT} (hA : A.dt = d) :
    Ret (mergeTwoX lay A B G) (fun v => v.dt = d ∧ G.dt = d) := by
  unfold mergeTwoX
  refine (ret_unsqueeze A 1).bind fun a ha => (ret_unsqueeze B 0).bind fun b hb => ?_
  refine (ret_matmul a b).bind fun p hp => (ret_permute p _).bind fun q hq => ?_
  have hq : q.dt = d := hq.trans (hp.2.trans (hp.1.symm.trans (ha.trans hA)))
  dsimp only
  refine (ret_view q _).bind fun r hr => (ret_matmul G r).bind fun u hu => ?_
  refine (ret_view u _).bind fun v hv => (ret_permute v _).mono fun w hw => ?_
  exact ⟨hw.trans (hv.trans (hu.2.trans (hr.trans hq))), hu.1.trans (hr.trans hq)⟩

theorem ret_mergeThree {A B C G : XT} (hA : A.dt = d) :
    Ret (mergeThreeX lay A B C G) (fun v => v.dt = d ∧ G.dt = d) := by
  unfold mergeThreeX
  refine (ret_unsqueeze A 1).bind fun a ha => (ret_unsqueeze a 1).bind fun a' ha' => ?_
  refine (ret_unsqueeze B 1).bind fun b hb => (ret_unsqueeze b 0).bind fun b' hb' => ?_
  refine (ret_unsqueeze C 0).bind fun c hc => (ret_unsqueeze c 0).bind fun c' hc' => ?_
  refine (ret_matmul a' b').bind fun p hp => (ret_matmul p c').bind fun p' hp' => ?_
  refine (ret_permute p' _).bind fun q hq => ?_
  have hq : q.dt = d := hq.trans (hp'.2.trans (hp'.1.symm.trans (hp.2.trans
    (hp.1.symm.trans (ha'.trans (ha.trans hA))))))
  dsimp only
  refine (ret_view q _).bind fun r hr => (ret_matmul G r).bind fun u hu => ?_
  refine (ret_view u _).bind fun v hv => (ret_permute v _).mono fun w hw => ?_
  exact ⟨hw.trans (hv.trans (hu.2.trans (hr.trans hq))), hu.1.trans (hr.trans hq)⟩

theorem ret_applyTwo {G : XT} {mps : List XT} (h : AllT d mps) (i : ℤ) :
    RetT (applyTwoX svd lay G mps i) (fun m => AllT d m ∧ G.dt = d) := by
  unfold applyTwoX
  refine RetT.bindL (ret_pyGet h i) fun A hA => RetT.skip fun B _ => ?_
  refine RetT.bindL (ret_mergeTwo hA) fun t ht => (ret_decomp2 t).bind ?_
  rintro ⟨a, b⟩ ⟨ha, hb⟩
  dsimp only at ha hb ⊢
  refine RetT.bindL (ret_pySet h i (ha.trans ht.1)) fun m hm => ?_
  exact RetT.lift ((ret_pySet hm _ (hb.trans ht.1)).mono fun _ h => ⟨h, ht.2⟩)

theorem ret_applyThree {G : XT} {mps : List XT} (h : AllT d mps) (i : ℤ) :
    RetT (applyThreeX svd lay G mps i) (fun m => AllT d m ∧ G.dt = d) := by
  unfold applyThreeX
  refine RetT.bindL (ret_pyGet h _) fun A hA => RetT.skip fun B _ => RetT.skip fun C _ => ?_
  refine RetT.bindL (ret_mergeThree hA) fun t ht => (ret_decomp3 t).bind ?_
  rintro ⟨a, b, c⟩ ⟨ha, hb, hc⟩
  dsimp only at ha hb hc ⊢
  refine RetT.bindL (ret_pySet h _ (ha.trans ht.1)) fun m hm => ?_
  refine RetT.bindL (ret_pySet hm _ (hb.trans ht.1)) fun m hm => ?_
  exact RetT.lift ((ret_pySet hm _ (hc.trans ht.1)).mono fun _ h => ⟨h, ht.2⟩)

theorem ret_swapTN {M : XT} {w : List ℤ} {mps : List XT} (h : AllT d mps) :
    RetT (swapTNX svd lay M w mps) (AllT d) := by
  unfold swapTNX
  refine RetT.skip fun _ _ => RetT.skip fun _ _ => RetT.skip fun _ _ => ?_
  refine (RetT.foldlM (fun m i hm => (ret_applyTwo hm i).mono fun _ h => h.1) _ _ h).bind fun m hm => ?_
  exact RetT.foldlM (fun m i hm => (ret_applyTwo hm _).mono fun _ h => h.1) _ _ hm

theorem ret_swap {g : Gate} {mps : List XT} (h : AllT d mps) :
    RetT (swap_TN_operationX svd lay g mps) (AllT d) :=
  RetT.skip fun _ _ => RetT.skip fun _ _ => ret_swapTN h

theorem ret_swapCall (N i j : ℤ) {mps : List XT} (h : AllT d mps) :
    RetT (swapCallX svd lay N i j mps) (AllT d) := ret_swap h

theorem ret_cnot {g : Gate} {mps : List XT} (h : AllT d mps) :
    RetT (cnot_TN_operationX svd lay g mps) (AllT d) := by
  unfold cnot_TN_operationX
  refine RetT.skip fun _ _ => RetT.skip fun _ _ => RetT.skip fun _ _ => RetT.skip fun _ _ =>
    RetT.skip fun _ _ => ?_
  split
  · exact RetT.skip fun _ _ => (ret_applyTwo h _).mono fun _ h => h.1
  · refine (RetT.foldlM (fun m i hm => ret_swapCall _ _ _ hm) _ _ h).bind fun m hm => ?_
    refine RetT.skip fun _ _ => (ret_applyTwo hm _).bind fun m hm => ?_
    exact RetT.foldlM (fun m i hm => ret_swapCall _ _ _ hm) _ _ hm.1

theorem ret_typed (e : DT) (x : Py (Tensor ℂ)) : Ret (typed e x) (fun v => v.dt = e) :=
  Ret.skip fun _ _ => Ret.ok rfl

theorem ret_ctrl {g : Gate} {pd : DT} {Gr : Py (Tensor ℂ)} {mps : List XT} (h : AllT d mps) :
    RetT (ctrl_TN_operationX svd lay g pd Gr mps)
      (fun m => AllT d m ∧ (matTy g.cls pd = d ∨ uTy g.cls pd = d)) := by
  unfold ctrl_TN_operationX
  refine RetT.skip fun _ _ => RetT.skip fun _ _ => RetT.skip fun _ _ => RetT.skip fun _ _ =>
    RetT.skip fun _ _ => RetT.skip fun _ _ => ?_
  refine (RetT.foldlM (fun m i hm => ret_swapCall _ _ _ hm) _ _ h).bind fun m hm => ?_
  refine RetT.bindL (Q := fun G => G.dt = matTy g.cls pd ∨ G.dt = uTy g.cls pd) ?_ fun G hG => ?_
  · split
    · exact Ret.ok (.inl rfl)
    · exact (ret_typed _ _).mono fun _ h => .inr h
  · refine (ret_applyTwo hm _).bind fun m hm => ?_
    refine (RetT.foldlM (fun m i hm => ret_swapCall _ _ _ hm) _ _ hm.1).mono fun _ h => ⟨h, ?_⟩
    exact hG.imp (fun e => e.symm.trans hm.2) (fun e => e.symm.trans hm.2)

theorem ret_toffoli {g : Gate} {mps : List XT} (h : AllT d mps) :
    RetT (toffoli_TN_operationX svd lay g mps) (AllT d) := by
  unfold toffoli_TN_operationX
  refine RetT.skip fun _ _ => RetT.skip fun _ _ => RetT.skip fun _ _ => RetT.skip fun _ _ =>
    RetT.skip fun _ _ => ?_
  refine (RetT.foldlM (fun m i hm => ret_swapCall _ _ _ hm) _ _ h).bind fun m hm => ?_
  refine (RetT.foldlM (fun m i hm => ret_swapCall _ _ _ hm) _ _ hm).bind fun m hm => ?_
  refine RetT.skip fun _ _ => RetT.skip fun _ _ => (ret_applyThree hm _).bind fun m hm => ?_
  refine (RetT.foldlM (fun m i hm => ret_swapCall _ _ _ hm) _ _ hm.1).bind fun m hm => ?_
  exact RetT.foldlM (fun m i hm => ret_swapCall _ _ _ hm) _ _ hm

theorem ret_single {g : Gate} {pd : DT} {mps : List XT} (h : AllT d mps) :
    Ret (single_TN_operationX lay g pd mps) (fun m => AllT d m ∧ matTy g.cls pd = d) := by
  unfold single_TN_operationX
  refine Ret.skip fun _ _ => Ret.skip fun i _ => (ret_pyGet h i).bind fun t ht => ?_
  refine (ret_einsum _ t).bind fun v hv => ?_
  exact (ret_pySet h i (hv.2.trans ht)).mono fun _ h => ⟨h, hv.1.trans ht⟩

/-- Whatever a gate returns has the type of the list it was given. -/
theorem ret_TN_operation {g : Gate} {pd : DT} {mps : List XT} (h : AllT d mps) :
    RetT (g.TN_operationX svd lay pd mps) (AllT d) := by
  unfold TN_operationX
  split
  iterate 9 (· exact RetT.lift ((ret_single h).mono fun _ h => h.1))
  iterate 4 (· exact RetT.lift Ret.error)
  · exact ret_cnot h
  iterate 3 (· exact (ret_ctrl h).mono fun _ h => h.1)
  · exact ret_swap h
  · exact ret_toffoli h

theorem ret_contract1 {m T : XT} (n w : ℤ) :
    Ret (contract1X lay m T n w) (fun v => v.dt = T.dt ∧ m.dt = T.dt) := by
  unfold contract1X
  refine Ret.skip fun p _ => (ret_permute T p).bind fun a ha => (ret_unsqueeze a _).bind fun b hb => ?_
  have hb := hb.trans ha
  refine (ret_matmul m b).bind fun c hc => (ret_squeezeDim c _).bind fun e he => ?_
  exact (ret_permute e p).mono fun v hv => ⟨hv.trans (he.trans (hc.2.trans hb)), hc.1.trans hb⟩

theorem ret_contract2 {m T : XT} (n c t : ℤ) (f : List ℕ → List ℤ) :
    Ret (contract2X lay m T n c t f) (fun v => v.dt = T.dt ∧ m.dt = T.dt) := by
  unfold contract2X
  dsimp only
  refine Ret.skip fun _ _ => Ret.skip fun _ _ => (ret_permute T _).bind fun a ha => ?_
  refine Ret.skip fun _ _ => Ret.skip fun _ _ => Ret.skip fun _ _ => Ret.skip fun _ _ => ?_
  refine (ret_reshape a _).bind fun b hb => ?_
  have hb := hb.trans ha
  refine (ret_matmul m b).bind fun c hc => (ret_view c _).bind fun e he => ?_
  refine Ret.skip fun _ _ => Ret.skip fun _ _ => ?_
  exact (ret_permute e _).mono fun v hv => ⟨hv.trans (he.trans (hc.2.trans hb)), hc.1.trans hb⟩

theorem ret_contract3 {m T : XT} (n c1 c2 t : ℤ) (f : List ℕ → List ℤ) :
    Ret (contract3X lay m T n c1 c2 t f) (fun v => v.dt = T.dt ∧ m.dt = T.dt) := by
  unfold contract3X
  dsimp only
  refine Ret.skip fun _ _ => Ret.skip fun _ _ => Ret.skip fun _ _ => (ret_permute T _).bind fun a ha => ?_
  refine Ret.skip fun _ _ => Ret.skip fun _ _ => Ret.skip fun _ _ => Ret.skip fun _ _ =>
    Ret.skip fun _ _ => Ret.skip fun _ _ => ?_
  refine (ret_reshape a _).bind fun b hb => (ret_squeezeDim b _).bind fun b' hb' => ?_
  have hb := hb'.trans (hb.trans ha)
  refine (ret_matmul m b').bind fun c hc => (ret_view c _).bind fun e he => ?_
  refine Ret.skip fun _ _ => Ret.skip fun _ _ => Ret.skip fun _ _ => ?_
  exact (ret_permute e _).mono fun v hv => ⟨hv.trans (he.trans (hc.2.trans hb)), hc.1.trans hb⟩

/-- What a contraction returns has the type of the tensor, and then so had the matrix of the gate; only
SWAP multiplies nothing. -/
theorem ret_TN_contract {g : Gate} {pd : DT} {T : XT} {batch : Bool} :
    Ret (g.TN_contractX lay pd T batch)
      (fun v => v.dt = T.dt ∧ (g.cls ≠ .swap → matTy g.cls pd = T.dt)) := by
  have one : Ret (g.single_TN_contractX lay pd T batch) (fun v => v.dt = T.dt ∧ matTy g.cls pd = T.dt) := by
    unfold single_TN_contractX
    refine Ret.skip fun _ _ => Ret.skip fun _ _ => ?_
    split <;> exact ret_contract1 _ _
  have two : Ret (g.two_TN_contractX lay pd T batch) (fun v => v.dt = T.dt ∧ matTy g.cls pd = T.dt) := by
    unfold two_TN_contractX
    refine Ret.skip fun _ _ => Ret.skip fun _ _ => Ret.skip fun _ _ => Ret.skip fun _ _ =>
      Ret.skip fun _ _ => ?_
    split <;> exact Ret.skip fun _ _ => ret_contract2 _ _ _ _
  unfold TN_contractX
  split
  iterate 9 (· exact one.mono fun _ h => ⟨h.1, fun _ => h.2⟩)
  iterate 7 (· exact two.mono fun _ h => ⟨h.1, fun _ => h.2⟩)
  · rename_i hc
    rw [hc]
    unfold swap_TN_contractX
    refine Ret.skip fun _ _ => Ret.skip fun _ _ => Ret.skip fun _ _ => Ret.skip fun _ _ =>
      Ret.skip fun _ _ => ?_
    split <;> exact Ret.skip fun _ _ => Ret.skip fun _ _ => Ret.skip fun _ _ =>
      (ret_permute T _).mono fun _ h => ⟨h, fun hn => absurd rfl hn⟩
  · unfold toffoli_TN_contractX
    refine Ret.skip fun _ _ => Ret.skip fun _ _ => Ret.skip fun _ _ => Ret.skip fun _ _ =>
      Ret.skip fun _ _ => Ret.skip fun _ _ => ?_
    split <;> exact Ret.skip fun _ _ => (ret_contract3 _ _ _ _ _).mono fun _ h => ⟨h.1, fun _ => h.2⟩
  · exact Ret.error

end Gate

/-! ## Layers -/

theorem setGet {l l' : List XT} {i : ℤ} {v : XT} (hv : v.dt = d) (h : pySet l i v = .ok l') :
    (∃ x, pyGet l' i = .ok x ∧ x.dt = d) ∧
      ∀ w, (∃ x, pyGet l w = .ok x ∧ x.dt = d) → ∃ x, pyGet l' w = .ok x ∧ x.dt = d := by
  unfold pySet at h
  obtain ⟨k, hk, h⟩ := bind_ok h
  cases h
  have hlt : k < l.length := by
    unfold wrapIdx at hk
    split_ifs at hk
    all_goals
      cases hk
      omega
  constructor
  · refine ⟨v, ?_, hv⟩
    unfold pyGet
    rw [List.length_set, hk, Py.ok_bind, List.getElem?_set, if_pos rfl, if_pos hlt]
  · rintro w ⟨x, hx, hd⟩
    unfold pyGet at hx ⊢
    rw [List.length_set]
    obtain ⟨j, hj, hx⟩ := bind_ok hx
    rw [hj, Py.ok_bind, List.getElem?_set]
    by_cases e : k = j
    · rw [if_pos e, if_pos hlt]
      exact ⟨v, rfl, hv⟩
    · rw [if_neg e]
      exact ⟨x, hx, hd⟩

/-- If the matrices of the wires have type `d`, the entries of the list at the wires do. -/
theorem ret_calGates {N : ℤ} {wires : List ℤ} {f : ℕ → Py XT} (hf : ∀ i, Ret (f i) (fun v => v.dt = d)) :
    Ret (SingleLayer.calGatesX N wires f) (fun l => ∀ w ∈ wires, ∃ x, pyGet l w = .ok x ∧ x.dt = d) := by
  unfold SingleLayer.calGatesX
  have key : ∀ (zs : List (ℤ × ℕ)) (l : List XT),
      Ret (zs.foldlM (fun lst (wi : ℤ × ℕ) => do pySet lst wi.1 (← f wi.2)) l)
        (fun l' => (∀ w, (∃ x, pyGet l w = .ok x ∧ x.dt = d) → ∃ x, pyGet l' w = .ok x ∧ x.dt = d) ∧
          ∀ z ∈ zs, ∃ x, pyGet l' z.1 = .ok x ∧ x.dt = d) := by
    intro zs
    induction zs with
    | nil => exact fun l => Ret.ok ⟨fun _ h => h, by simp⟩
    | cons z zs ih =>
      intro l
      rw [List.foldlM_cons]
      refine Ret.bind (Q := fun l1 => (∃ x, pyGet l1 z.1 = .ok x ∧ x.dt = d) ∧
        ∀ w, (∃ x, pyGet l w = .ok x ∧ x.dt = d) → ∃ x, pyGet l1 w = .ok x ∧ x.dt = d)
        ((hf z.2).bind fun v hv _ h => setGet hv h) fun l1 h1 => (ih l1).mono fun l2 h2 => ?_
      refine ⟨fun w hw => h2.1 w (h1.2 w hw), fun y hy => ?_⟩
      rcases List.mem_cons.1 hy with rfl | hy
      · exact h2.1 _ h1.1
      · exact h2.2 y hy
  refine (key _ _).mono fun l h w hw => ?_
  obtain ⟨i, hi⟩ := List.getElem_of_mem hw
  have : (w, i) ∈ wires.zipIdx := by
    rw [List.mk_mem_zipIdx_iff_getElem?, ← hi.2]
    exact List.getElem?_eq_getElem _
  exact h.2 _ this

theorem ret_layer_op {gates : Py (List XT)} {wires : List ℤ} {mps : List XT} (h : AllT d mps) :
    Ret (SingleLayer.TN_operationX lay gates wires mps) (AllT d) := by
  unfold SingleLayer.TN_operationX
  refine Ret.skip fun lst _ => Ret.foldlM (fun m q hm => ?_) _ _ h
  refine Ret.skip fun g _ => (ret_pyGet hm q).bind fun t ht => (ret_einsum g t).bind fun v hv => ?_
  exact ret_pySet hm q (hv.2.trans ht)

theorem ret_layer_contract {gates : Py (List XT)} {N : ℤ} {wires : List ℤ} {T : XT} {batch : Bool} :
    Ret (SingleLayer.TN_contractX lay gates N wires T batch) (fun v => v.dt = T.dt) := by
  unfold SingleLayer.TN_contractX
  refine Ret.skip fun lst _ => ?_
  split
  · exact Ret.foldlM (P := fun v : XT => v.dt = T.dt)
      (fun m q hm => Ret.skip fun g _ => (Gate.ret_contract1 _ _).mono fun v hv => hv.1.trans hm) _ _ rfl
  · exact Ret.foldlM (P := fun v : XT => v.dt = T.dt)
      (fun m q hm => Ret.skip fun g _ => (Gate.ret_contract1 _ _).mono fun v hv => hv.1.trans hm) _ _ rfl

/-- A layer with a wrong type on at least one wire does not return. -/
theorem ret_layer_op_stuck {gates : Py (List XT)} {wires : List ℤ} {mps : List XT} {e : DT} (h : AllT d mps)
    (hg : Ret gates (fun l => ∀ w ∈ wires, ∃ x, pyGet l w = .ok x ∧ x.dt = e)) (hw : wires ≠ []) (hde : e ≠ d) :
    Ret (SingleLayer.TN_operationX lay gates wires mps) (fun _ => False) := by
  unfold SingleLayer.TN_operationX
  refine hg.bind fun lst hl => ?_
  obtain ⟨w, ws, rfl⟩ := List.exists_cons_of_ne_nil hw
  rw [List.foldlM_cons]
  obtain ⟨x, hx, hxe⟩ := hl w (by simp)
  refine Ret.bind (Q := fun _ => False) ?_ fun _ h => h.elim
  rw [hx, Py.ok_bind]
  refine (ret_pyGet h w).bind fun t ht => (ret_einsum x t).bind fun v hv => ?_
  exact absurd (hxe.symm.trans (hv.1.trans ht)) hde

theorem ret_layer_contract_stuck {gates : Py (List XT)} {N : ℤ} {wires : List ℤ} {T : XT} {batch : Bool} {e : DT}
    (hg : Ret gates (fun l => ∀ w ∈ wires, ∃ x, pyGet l w = .ok x ∧ x.dt = e)) (hw : wires ≠ [])
    (hde : e ≠ T.dt) : Ret (SingleLayer.TN_contractX lay gates N wires T batch) (fun _ => False) := by
  unfold SingleLayer.TN_contractX
  refine hg.bind fun lst hl => ?_
  obtain ⟨w, ws, rfl⟩ := List.exists_cons_of_ne_nil hw
  obtain ⟨x, hx, hxe⟩ := hl w (by simp)
  split
  all_goals
    rw [List.foldlM_cons]
    refine Ret.bind (Q := fun _ => False) ?_ fun _ h => h.elim
    rw [hx, Py.ok_bind]
    exact (Gate.ret_contract1 _ _).mono fun v hv => absurd (hxe.symm.trans hv.2) hde

/-- Double-precision parameters: the matrix of a wire is complex128, or the product raises. -/
theorem ret_wireMat {l : SLayer} (hl : l.cls ≠ .h) (i : ℕ) :
    Ret (l.wireMatX lay .f64 i) (fun v => v.dt = .c128) := by
  have e1 : SLayer.layerTy .i64 .f64 = .c128 := rfl
  have e2 : SLayer.layerTy .c64 .f64 = .c64 := rfl
  have three : ∀ (P1 P2 P3 : Tensor ℂ × DT), P1.2 = .i64 ∨ P2.2 = .i64 → 
      Ret (SLayer.prod3X lay .f64 l.params i P1 P2 P3) (fun v => v.dt = .c128) := by
    intro P1 P2 P3 h
    unfold SLayer.prod3X
    refine Ret.skip fun _ _ => Ret.skip fun _ _ => Ret.skip fun _ _ => ?_
    dsimp only
    refine (ret_matmul _ _).bind fun a ha => (ret_matmul _ _).mono fun v hv => ?_
    rcases h with h | h
    · exact hv.2.trans (by rw [h]; exact e1)
    · exact hv.2.trans (hv.1.symm.trans (ha.2.trans (by rw [h]; exact e1)))
  have two : ∀ (P1 P2 : Tensor ℂ × DT), P1.2 = .i64 → 
      Ret (SLayer.prod2X lay .f64 l.params i P1 P2) (fun v => v.dt = .c128) := by
    intro P1 P2 h
    unfold SLayer.prod2X
    refine Ret.skip fun _ _ => Ret.skip fun _ _ => ?_
    exact (ret_matmul _ _).mono fun v hv => hv.2.trans (by rw [h]; exact e1)
  unfold SLayer.wireMatX
  dsimp only
  split
  · exact three _ _ _ (.inl rfl)
  · exact three _ _ _ (.inl rfl)
  · exact three _ _ _ (.inr rfl)
  · exact three _ _ _ (.inl rfl)
  · exact two _ _ rfl
  · exact two _ _ rfl
  · exact absurd ‹_› hl

theorem ret_calSingle {l : SLayer} (hl : l.cls ≠ .h) :
    Ret (l.calSingleGatesX lay .f64) (fun m => ∀ w ∈ l.wires, ∃ x, pyGet m w = .ok x ∧ x.dt = .c128) :=
  ret_calGates (ret_wireMat hl)

theorem promote_c128 (l : List DT) : ∀ a, a = .c128 ∨ .c128 ∈ l → l.foldl DT.promote a = .c128 := by
  induction l with
  | nil => simp
  | cons b l ih =>
    intro a h
    rw [List.foldl_cons]
    refine ih _ ?_
    rcases h with rfl | h
    · left; cases b <;> rfl
    · rcases List.mem_cons.1 h with rfl | h
      · left; cases a <;> rfl
      · exact .inr h

theorem ret_layer_U {l : SLayer} (hl : l.cls ≠ .h) (hw : l.wires ≠ []) :
    Ret (l.U_expandX lay .f64) (fun v => v.dt = .c128) := by
  unfold SLayer.U_expandX
  refine (ret_calSingle hl).bind fun m hm => Ret.skip fun v _ => Ret.ok ?_
  obtain ⟨w, hw⟩ := List.exists_mem_of_ne_nil _ hw
  obtain ⟨x, hx, hd⟩ := hm w hw
  have : (m.map XT.dt).foldl DT.promote .i64 = .c128 :=
    promote_c128 _ _ (.inr (List.mem_map.2 ⟨x, pyGet_in hx, hd⟩))
  change DT.toComplex _ = _
  rw [this]
  rfl

/-! ## Rings -/

namespace Ring

theorem ret_wrap {N L : ℤ} {mps : List XT} (h : AllT d mps) :
    RetT (wrapCnotX svd lay N L mps) (AllT d) := by
  unfold wrapCnotX
  refine (RetT.foldlM (fun m i hm => ?_) _ _ h).bind fun m hm => ?_
  · split
    · exact Gate.ret_TN_operation hm
    · exact Gate.ret_TN_operation hm
  · exact RetT.foldlM (fun m i hm => Gate.ret_TN_operation hm) _ _ hm

theorem ret_op {r : Ring} {mps : List XT} (h : AllT d mps) : RetT (r.TN_operationX svd lay mps) (AllT d) := by
  unfold Ring.TN_operationX
  dsimp only
  cases r.kind
  · refine RetT.skip fun _ _ => ?_
    refine (RetT.foldlM (fun m i hm => Gate.ret_TN_operation hm) _ _ h).bind fun m hm => ?_
    split
    · exact RetT.pure hm
    · exact ret_wrap hm
  · refine RetT.skip fun _ _ => ?_
    split
    · exact Gate.ret_TN_operation h
    · refine (ret_wrap h).bind fun m hm => ?_
      exact RetT.foldlM (fun m i hm => Gate.ret_TN_operation hm) _ _ hm
  · exact RetT.lift Ret.error

theorem ret_contract {r : Ring} {T : XT} {batch : Bool} :
    Ret (r.TN_contractX lay T batch) (fun v => v.dt = T.dt) := by
  unfold Ring.TN_contractX
  dsimp only
  have call : ∀ (N a b : ℤ) (U : XT), U.dt = T.dt →
      Ret (cnotContractX lay N a b U batch) (fun v => v.dt = T.dt) := fun N a b U hU =>
    Gate.ret_TN_contract.mono fun _ h => h.1.trans hU
  cases r.kind
  · refine Ret.skip fun _ _ => ?_
    split
    · exact Ret.skip fun _ _ => Ret.skip fun _ _ => call _ _ _ _ rfl
    · exact Ret.foldlM (P := fun v : XT => v.dt = T.dt)
        (fun m i hm => Ret.skip fun _ _ => Ret.skip fun _ _ => call _ _ _ _ hm) _ _ rfl
  · refine Ret.skip fun _ _ => ?_
    split
    · exact Ret.skip fun _ _ => Ret.skip fun _ _ => call _ _ _ _ rfl
    · exact Ret.foldlM (P := fun v : XT => v.dt = T.dt)
        (fun m i hm => Ret.skip fun _ _ => Ret.skip fun _ _ => call _ _ _ _ hm) _ _ rfl
  · exact Ret.error

end Ring

/-! ## Circuits -/

theorem ret_op {o : XOp} {mps : List XT} (h : AllT d mps) : RetT (o.TN_operationX svd lay mps) (AllT d) := by
  unfold XOp.TN_operationX
  cases o.op with
  | gate g => exact Gate.ret_TN_operation h
  | single l => exact RetT.lift (ret_layer_op h)
  | ring r => exact Ring.ret_op h
  | basic b => exact RetT.lift Ret.error

theorem ret_op_contract {o : XOp} {T : XT} {batch : Bool} :
    Ret (o.TN_contractX lay T batch) (fun v => v.dt = T.dt) := by
  unfold XOp.TN_contractX
  cases o.op with
  | gate g => exact Gate.ret_TN_contract.mono fun _ h => h.1
  | single l => exact ret_layer_contract
  | ring r => exact Ring.ret_contract
  | basic b => exact Ret.error

theorem ret_evolution {x : XCircuit} {mps : List XT} (h : AllT d mps) :
    RetT (x.TN_evolutionX svd lay mps) (AllT d) := by
  unfold XCircuit.TN_evolutionX
  refine RetT.skip fun _ _ => RetT.foldlM (fun m o hm => ?_) _ _ h
  split
  · exact ret_op hm
  · exact RetT.lift Ret.error

theorem ret_evolution_stuck {x : XCircuit} {mps : List XT} (h : AllT d mps) {o : XOp} (ho : o ∈ x.gate)
    (hs : ∀ m, AllT d m → RetT (o.TN_operationX svd lay m) (fun _ => False)) :
    RetT (x.TN_evolutionX svd lay mps) (fun _ => False) := by
  unfold XCircuit.TN_evolutionX
  refine RetT.skip fun _ _ => RetT.foldlM_stuck (P := AllT d) (fun m o hm => ?_) ho (fun m hm => ?_) _ h
  · split
    · exact ret_op hm
    · exact RetT.lift Ret.error
  · split
    · exact hs m hm
    · exact RetT.lift Ret.error

theorem ret_contraction {x : XCircuit} {T : XT} {batch : Bool} :
    Ret (x.TN_contract_evolutionX lay T batch) (fun v => v.dt = T.dt) := by
  unfold XCircuit.TN_contract_evolutionX
  have : Ret (x.gate.foldlM (fun T o =>
      if o.op.supportTN = true then o.TN_contractX lay T batch else .error .valueError) T)
      (fun v => v.dt = T.dt) := by
    refine Ret.foldlM (P := fun v : XT => v.dt = T.dt) (fun m o hm => ?_) _ _ rfl
    split
    · exact ret_op_contract.mono fun _ h => h.trans hm
    · exact Ret.error
  split <;> exact Ret.skip fun _ _ => this

theorem ret_contraction_stuck {x : XCircuit} {T : XT} {batch : Bool} {o : XOp} (ho : o ∈ x.gate)
    (hs : ∀ U : XT, U.dt = T.dt → Ret (o.TN_contractX lay U batch) (fun _ => False)) :
    Ret (x.TN_contract_evolutionX lay T batch) (fun _ => False) := by
  unfold XCircuit.TN_contract_evolutionX
  have : Ret (x.gate.foldlM (fun T o =>
      if o.op.supportTN = true then o.TN_contractX lay T batch else .error .valueError) T)
      (fun _ => False) := by
    refine Ret.foldlM_stuck (P := fun v : XT => v.dt = T.dt) (fun m o hm => ?_) ho (fun m hm => ?_) _ rfl
    · split
      · exact ret_op_contract.mono fun _ h => h.trans hm
      · exact Ret.error
    · split
      · exact hs m hm
      · exact Ret.error
  split <;> exact Ret.skip fun _ _ => this

/-- A circuit with an operation whose matrix is not complex64 has no matrix. -/
theorem ret_U_stuck {x : XCircuit} {o : XOp} (ho : o ∈ x.gate)
    (hs : Ret (o.U_expandX lay) (fun v => v.dt ≠ .c64)) (ltr : Bool) :
    Ret (x.UX lay ltr) (fun _ => False) := by
  unfold XCircuit.UX
  refine Ret.foldlM_stuck (P := fun v : XT => v.dt = .c64) (fun m o hm => ?_) ho (fun m hm => ?_) _ rfl
  · refine Ret.skip fun u _ => ?_
    split
    · exact (ret_matmul _ _).mono fun v hv => hv.2.trans hm
    · exact (ret_matmul _ _).mono fun v hv => hv.2.trans (hv.1.symm.trans hm)
  · refine hs.bind fun u hu => ?_
    split
    · exact (ret_matmul _ _).mono fun v hv => hu (hv.1.trans hm)
    · exact (ret_matmul _ _).mono fun v hv => hu (hv.1.symm.trans hm)

theorem ret_loop (k : ℕ) {c : XT} (h : c.dt = d) : RetT (StateVec2MPS_loopX svd lay k c) (AllT d) := by
  induction k generalizing c with
  | zero => exact RetT.pure (by simp [AllT])
  | succ k ih =>
    unfold StateVec2MPS_loopX
    refine RetT.bindL (ret_foldHalves c) fun c' hc => ?_
    split
    · refine RetT.bindL (ret_view _ _) fun t ht => RetT.pure ?_
      intro u hu
      rw [List.mem_singleton.1 hu]
      exact ht.trans (hc.trans h)
    · refine (ret_svdTrunc c').bind ?_
      rintro ⟨U, r⟩ ⟨-, hU, hr⟩
      dsimp only at hU hr ⊢
      refine RetT.bindL (ret_view _ _) fun t ht => (ih (hr.trans (hc.trans h))).bind fun l hl => RetT.pure ?_
      intro u hu
      rcases List.mem_cons.1 hu with rfl | hu
      · exact ht.trans (hU.trans (hc.trans h))
      · exact hl u hu

theorem ret_StateVec2MPS (psi : XT) (N : ℕ) :
    RetT (StateVec2MPSX svd lay psi N) (AllT psi.dt.toComplex) := by
  unfold StateVec2MPSX
  exact RetT.skip fun _ _ => RetT.skip fun _ _ => ret_loop N rfl

theorem ret_MPS2SV {mps : List XT} (h : AllT d mps) : Ret (MPS2StateVecX lay mps) (fun v => v.dt = d) := by
  unfold MPS2StateVecX
  cases mps with
  | nil => exact Ret.error
  | cons t ts =>
    dsimp only
    refine (Ret.foldlM (P := fun v : XT => v.dt = d) (fun c u hc => ?_) ts t (h t (by simp))).bind fun c hc => ?_
    · unfold MPS2SV_stepX
      refine (ret_unsqueeze c 1).bind fun a ha => (ret_unsqueeze u 0).bind fun b hb => ?_
      refine (ret_matmul a b).bind fun e he => Ret.skip fun _ _ => Ret.skip fun _ _ => ?_
      exact (ret_view e _).mono fun v hv => hv.trans (he.2.trans (he.1.symm.trans (ha.trans hc)))
    · refine (ret_view c _).bind fun a ha => (ret_view a _).mono fun v hv => hv.trans (ha.trans hc)

theorem ret_quad {psi M : XT} : Ret (XCircuit.quadFormX lay psi M) (fun _ => psi.dt = M.dt) := by
  unfold XCircuit.quadFormX
  refine (ret_view psi _).bind fun a ha => (ret_matmul _ M).bind fun b hb => ?_
  exact Ret.skip fun _ _ => Ret.skip fun _ _ => Ret.ok (ha.symm.trans hb.1)

theorem ret_rhoRegroup (r : XT) (k : ℕ) : Ret (rhoRegroupX r k) (fun v => v.dt = r.dt) := by
  unfold rhoRegroupX
  refine (ret_chunk1 r 2).bind fun c hc => ?_
  refine (ret_catList (fun _ _ h h' => ret_cat0 h h') c hc).bind fun m hm => ?_
  dsimp only
  have part : ∀ j : ℕ, Ret (do
      let blks ← (m.rowSlice (j * (m.val.shape.getD 0 0 / 2))
        (m.val.shape.getD 0 0 / 2 + j * (m.val.shape.getD 0 0 / 2))).chunk1 k
      (← XT.catList XT.cat1 ((blks.zipIdx.filter (fun p => p.2 % 2 = 0)).map Prod.fst)).cat0
        (← XT.catList XT.cat1 ((blks.zipIdx.filter (fun p => ¬ p.2 % 2 = 0)).map Prod.fst)))
      (fun v => v.dt = r.dt) := fun j => by
    refine (ret_chunk1 _ k).bind fun b hb => ?_
    have hb' : ∀ v ∈ b, v.dt = r.dt := fun v hv => (hb v hv).trans hm
    have sub : ∀ p : XT × ℕ → Bool, ∀ v ∈ (b.zipIdx.filter p).map Prod.fst, v.dt = r.dt := by
      intro p v hv
      obtain ⟨⟨y, i⟩, hy, rfl⟩ := List.mem_map.1 hv
      exact hb' _ (List.fst_mem_of_mem_zipIdx (List.mem_filter.1 hy).1)
    refine (ret_catList (fun _ _ h h' => ret_cat1 h h') _ (sub _)).bind fun e he => ?_
    exact (ret_catList (fun _ _ h h' => ret_cat1 h h') _ (sub _)).bind fun o ho => ret_cat0 he ho
  exact (part 0).bind fun a ha => (part 1).bind fun b hb => ret_cat0 ha hb

end QTN
