import Verif.Lemmas.LayoutSim

/-!
# The functions of `qtensornetwork.py` on tensors with types and strides
-/

namespace QTN

open Spec

variable {svd : SVDOracle} {lay : Lay} {d : DT}

theorem complex_toReal (hd : d.isComplex = true) : d.toReal.toComplex = d := by
  cases d <;> first | rfl | cases hd

theorem complex_ne_i64 (hd : d.isComplex = true) : d ≠ .i64 := by
  rintro rfl
  cases hd

theorem sim_callSvd (hsvd : ValidSVD svd) (hv : lay.Valid) (hd : d.isComplex = true) {a : XT}
    {b : Tensor ℂ} (h : Sees d a b) :
    SimT (fun o o' => Sees d o.1 o'.U ∧ o'.U.shape.length = 2 ∧ o.2.1 = o'.S ∧ Sees d o.2.2 o'.V)
      (callSvdX svd lay a) (callSvd svd b) := by
  obtain ⟨rfl, ha, hl⟩ := h
  intro s
  unfold callSvdX callSvd
  rw [if_neg (by rw [ha]; exact complex_ne_i64 hd)]
  by_cases hr : a.val.rank = 2
  · rw [if_pos hr, if_pos hr]
    obtain ⟨m, n, hs⟩ := two_strides hr
    have hS := hsvd s a.val m n hs
    exact ⟨⟨⟨rfl, ha, by rw [hv.svdU, hS.shapeU]; rfl⟩, by rw [hS.shapeU]; rfl, rfl,
      rfl, ha, by rw [hv.svdV, hS.shapeV]; rfl⟩, rfl⟩
  · rw [if_neg hr, if_neg hr]
    exact ⟨rfl, rfl⟩

theorem indexSelect1_len {t v : Tensor ℂ} {l : List ℕ} (h : t.indexSelect1 l = .ok v) :
    v.shape.length = t.shape.length := by
  unfold Tensor.indexSelect1 at h
  split at h
  · rename_i hs
    split_ifs at h
    cases h
    rw [hs]
    rfl
  · cases h

/-- What is known of the two factors of a decomposition. -/
def SeesF (d : DT) (p : XT × XT) (q : Tensor ℂ × Tensor ℂ) : Prop :=
  (Sees d p.1 q.1 ∧ q.1.shape.length = 2) ∧ SeesD d p.2 q.2

theorem SimR.and_post {α β : Type} {R : α → β → Prop} {P : β → Prop} {x : Py α} {y : Py β}
    (h : SimR R x y) (hp : ∀ b, y = .ok b → P b) : SimR (fun a b => R a b ∧ P b) x y := by
  cases x <;> cases y
  · exact h
  · exact h
  · exact h
  · exact ⟨h, hp _ rfl⟩

theorem sim_svdTrunc (hsvd : ValidSVD svd) (hv : lay.Valid) (hd : d.isComplex = true) {a : XT}
    {b : Tensor ℂ} (h : Sees d a b) :
    SimT (SeesF d) (svdTruncX svd lay a) (svdTrunc svd b) := by
  unfold svdTruncX svdTrunc
  refine (sim_callSvd hsvd hv hd h).bind ?_
  rintro ⟨U, S, V⟩ ⟨U', S', V'⟩ ⟨hU, hU2, hS, hV⟩
  dsimp only at hU hU2 hS hV ⊢
  subst hS
  refine SimT.bindL (sim_permute hV _) fun W W' hW => ?_
  have hSm : ∀ v : Tensor ℂ, SeesD d (XT.fresh v a.dt.toReal.toComplex) v := fun v => by
    have := sees_fresh v d
    rwa [h.2.1, complex_toReal hd]
  refine SimT.ite Iff.rfl (fun _ => ?_) (fun _ => ?_)
  · refine SimT.same _ fun _ _ => ?_
    refine SimT.bindL ((sim_indexSelect1 hU _).and_post fun v hv => (indexSelect1_len hv).trans hU2)
      fun U1 U1' hU1 => ?_
    refine SimT.bindL (sim_indexSelect0 (hSm _).1 _) fun S1 S1' hS1 => ?_
    refine SimT.bindL (sim_matmul hv hS1.1 (sim_conj hW)) fun r r' hr => ?_
    exact SimT.pure ⟨⟨hU1.1.1, hU1.2⟩, hr⟩
  · refine SimT.bindL (sim_matmul hv (hSm _).1 (sim_conj hW)) fun r r' hr => ?_
    exact SimT.pure ⟨⟨hU, hU2⟩, hr⟩

theorem sim_foldHalves {a : XT} {b : Tensor ℂ} (h : Sees d a b) :
    SimR (SeesD d) (foldHalvesX a) (foldHalves b) := by
  unfold foldHalvesX foldHalves
  refine (sim_chunk1 h 2).bind fun c c' hc => ?_
  refine (SimR.pyGet hc 0).bind fun x x' hx => ?_
  refine (SimR.pyGet hc 1).bind fun y y' hy => ?_
  exact sim_cat0 hx hy

/-- The view of the first factor. -/
theorem sim_viewU {a : XT} {b : Tensor ℂ} (h : Sees d a b) (h2 : b.shape.length = 2) :
    SimR (Sees d) (a.view [2, -1, (a.val.shape.getD 1 0 : ℤ)]) (b.view [2, -1, (b.shape.getD 1 0 : ℤ)]) := by
  rw [h.1]
  obtain ⟨m, n, hs⟩ := two_strides h2
  have := sim_view2 h hs
  rw [hs]
  exact this

theorem sim_viewU2 {a : XT} {b : Tensor ℂ} (h : Sees d a b) (h2 : b.shape.length = 2) :
    SimR (Sees d) (a.view [2, 2, -1, (a.val.shape.getD 1 0 : ℤ)])
      (b.view [2, 2, -1, (b.shape.getD 1 0 : ℤ)]) := by
  rw [h.1]
  obtain ⟨m, n, hs⟩ := two_strides h2
  have := sim_view22 h hs
  rw [hs]
  exact this

theorem sim_viewR {a : XT} {b : Tensor ℂ} (h : SeesD d a b) :
    SimR (SeesD d) (a.view [2, -1, (a.val.shape.getD 1 0 : ℤ)])
      (b.view [2, -1, (b.shape.getD 1 0 : ℤ)]) := by
  rw [h.1.1]
  exact sim_viewD h _

theorem sim_StateVec2MPS_loop (hsvd : ValidSVD svd) (hv : lay.Valid) (hd : d.isComplex = true)
    (k : ℕ) {a : XT} {b : Tensor ℂ} (h : Sees d a b) :
    SimT (SeesL d) (StateVec2MPS_loopX svd lay k a) (StateVec2MPS_loop svd k b) := by
  induction k generalizing a b with
  | zero => exact SimT.pure .nil
  | succ k ih =>
    unfold StateVec2MPS_loopX StateVec2MPS_loop
    refine SimT.bindL (sim_foldHalves h) fun c c' hc => ?_
    by_cases hk : k = 0
    · rw [if_pos hk, if_pos hk]
      refine SimT.bindL (sim_viewR hc) fun t t' ht => ?_
      exact SimT.pure (.cons ht.1 .nil)
    · rw [if_neg hk, if_neg hk]
      refine (sim_svdTrunc hsvd hv hd hc.1).bind ?_
      rintro ⟨U, r⟩ ⟨U', r'⟩ ⟨⟨hU, hU2⟩, hr⟩
      refine SimT.bindL (sim_viewU hU hU2) fun t t' ht => ?_
      refine (ih hr.1).bind fun l l' hl => ?_
      exact SimT.pure (.cons ht hl)

theorem sim_StateVec2MPS (hsvd : ValidSVD svd) (hv : lay.Valid) {a : XT} {b : Tensor ℂ}
    {e : DT} (h : Sees e a b) (N : ℕ) :
    SimT (SeesL e.toComplex) (StateVec2MPSX svd lay a N) (StateVec2MPS svd b N) := by
  unfold StateVec2MPSX StateVec2MPS
  obtain ⟨rfl, he, hl⟩ := h
  refine SimT.same _ fun _ _ => ?_
  refine SimT.same _ fun _ _ => ?_
  refine sim_StateVec2MPS_loop hsvd hv (by cases e <;> rfl) N ⟨rfl, ?_, hv.elem a⟩
  rw [← he]
  rfl

theorem sim_MPS2SV_step (hv : lay.Valid) {a t : XT} {b t' : Tensor ℂ} (h : Sees d a b)
    (ht : Sees d t t') : SimR (SeesD d) (MPS2SV_stepX lay a t) (MPS2SV_step b t') := by
  unfold MPS2SV_stepX MPS2SV_step
  refine (sim_unsqueeze h 1).bind fun x x' hx => ?_
  refine (sim_unsqueeze ht 0).bind fun y y' hy => ?_
  refine (sim_matmul hv hx hy).bind fun c c' hc => ?_
  rw [hc.1.1]
  refine SimR.same _ fun s2 _ => ?_
  refine SimR.same _ fun s3 _ => ?_
  exact sim_viewD hc _

theorem sim_MPS2StateVec (hv : lay.Valid) {l : List XT} {m : List (Tensor ℂ)} (h : SeesL d l m)
    (hm : m.length ≠ 1) : SimR (SeesD d) (MPS2StateVecX lay l) (MPS2StateVec m) := by
  cases h with
  | nil => exact rfl
  | cons h1 h2 =>
    cases h2 with
    | nil => exact absurd rfl hm
    | cons h2 h3 =>
      unfold MPS2StateVecX MPS2StateVec
      dsimp only
      rw [List.foldlM_cons, List.foldlM_cons]
      refine SimR.bind (R := SeesD d) ?_ fun c c' hc => ?_
      · refine (sim_MPS2SV_step hv h1 h2).bind fun c c' hc => ?_
        exact SimR.foldlM₂ (Q := Sees d) (R := SeesD d)
          (fun _ _ _ _ h1 h2 => sim_MPS2SV_step hv h1.1 h2) h3 hc
      · refine (sim_viewD hc _).bind fun x x' hx => ?_
        exact sim_viewD hx _

/-- The list of a single site `(k, 1, 1)`. -/
theorem sim_MPS2StateVec_one {a : XT} {b : Tensor ℂ} (h : Sees d a b) {k : ℕ}
    (hs : b.shape = [k, 1, 1]) : SimR (Sees d) (MPS2StateVecX lay [a]) (MPS2StateVec [b]) := by
  have hl := h.2.2
  rw [h.1, hs] at hl
  have hD : ∃ x y z, a.str = [x, y, z] := by
    match a.str, hl with
    | [x, y, z], _ => exact ⟨x, y, z, rfl⟩
  obtain ⟨x, y, z, hx⟩ := hD
  change SimR _ ((a.view [-1]) >>= fun c => c.view [1, -1]) ((b.view [-1]) >>= fun c => c.view [1, -1])
  refine SimR.bind (R := fun u v => Sees d u v ∧ ∃ q, v.shape = [q]) ?_ fun u u' hu => ?_
  · refine (sim_view h _ fun v hv => ?_).and_post fun v hv => ?_
    · obtain ⟨hp, q, hq⟩ := view_ok hv
      rw [hs, hx]
      refine computeStride_of_fits rfl (Or.inr ?_)
      have hm : Merges x ([k, 1, 1].zip [x, y, z]).reverse :=
        Or.inl ⟨rfl, Or.inl ⟨rfl, Or.inr ⟨rfl, trivial⟩⟩⟩
      refine Fits.one hm ?_
      rw [List.prod_reverse, hp, hs, sizes_zip_reverse (by rfl)]
    · obtain ⟨_, q, hq⟩ := view_ok hv
      exact ⟨q, by rw [hq]; rfl⟩
  · obtain ⟨hu1, q, hq⟩ := hu
    refine sim_view hu1 _ fun v hv => ?_
    obtain ⟨hp, p, hp'⟩ := view_ok hv
    have hl := hu1.2.2
    rw [hu1.1, hq] at hl
    have : ∃ w, u.str = [w] := by
      match u.str, hl with
      | [w], _ => exact ⟨w, rfl⟩
    obtain ⟨w, hw⟩ := this
    rw [hq, hw]
    refine computeStride_of_fits rfl (Or.inr ?_)
    have hm : Merges w ([q].zip [w]).reverse := Or.inr ⟨rfl, trivial⟩
    refine Fits.one hm ?_
    rw [List.prod_reverse, hp, hq, sizes_zip_reverse (by rfl)]

theorem sim_MPS2StateVec_tensor (hv : lay.Valid) {l : List XT} {m : List (Tensor ℂ)}
    (h : SeesL d l m) : SimR (Sees d) (MPS2StateVec_tensorX lay l) (MPS2StateVec_tensor m) := by
  have hlen := h.length_eq
  cases h with
  | nil => exact rfl
  | @cons a b l m h1 h2 =>
    unfold MPS2StateVec_tensorX MPS2StateVec_tensor
    refine SimR.bind (R := Sees d) ?_ fun c c' hc => ?_
    · have hz : ∀ n, List.Forall₂ (fun p q => Sees d p.1 q.1 ∧ p.2 = q.2) (l.zipIdx n) (m.zipIdx n) := by
        induction h2 with
        | nil => exact fun n => .nil
        | cons h1 _ ih =>
          exact fun n => .cons ⟨h1, rfl⟩ (ih (by simpa using hlen) (n + 1))
      refine SimR.foldlM₂ (R := Sees d) ?_ (hz 1) h1
      rintro x y ⟨p, i⟩ ⟨q, j⟩ hx ⟨hp, hi⟩
      dsimp only at hp hi ⊢
      subst hi
      refine (sim_unsqueeze hx _).bind fun u u' hu => ?_
      refine (sim_unsqueeze hp _).bind fun w w' hw => ?_
      exact (sim_matmul hv hu hw).mono fun _ _ h => h.1
    · have hq := sim_squeeze hc
      dsimp only
      rw [hq.1, hlen]
      exact SimR.same _ fun _ _ => hq

theorem sim_select2 {a : XT} {b : Tensor ℂ} (h : Sees d a b) (i j : ℤ) :
    SimR (Sees d) (select2X a i j) (select2 b i j) := by
  unfold select2X select2
  exact (sim_select0 h i).bind fun x x' hx => sim_select0 hx j

theorem sim_blockMat2 {a : XT} {b : Tensor ℂ} (h : Sees d a b) :
    SimR (SeesD d) (blockMat2X a) (blockMat2 b) := by
  unfold blockMat2X blockMat2
  refine (sim_select2 h 0 0).bind fun x x' hx => ?_
  refine (sim_select2 h 0 1).bind fun y y' hy => ?_
  refine (sim_cat1 hx hy).bind fun p p' hp => ?_
  refine (sim_select2 h 1 0).bind fun x x' hx => ?_
  refine (sim_select2 h 1 1).bind fun y y' hy => ?_
  refine (sim_cat1 hx hy).bind fun q q' hq => ?_
  exact sim_cat0 hp.1 hq.1

theorem sim_decomp2 (hsvd : ValidSVD svd) (hv : lay.Valid) (hd : d.isComplex = true) {a : XT}
    {b : Tensor ℂ} (h : Sees d a b) :
    SimT (fun p q => Sees d p.1 q.1 ∧ Sees d p.2 q.2) (TensorDecompAfterTwoQbitGateX svd lay a)
      (TensorDecompAfterTwoQbitGate svd b) := by
  unfold TensorDecompAfterTwoQbitGateX TensorDecompAfterTwoQbitGate
  refine SimT.bindL (sim_blockMat2 h) fun m m' hm => ?_
  refine (sim_svdTrunc hsvd hv hd hm.1).bind ?_
  rintro ⟨U, r⟩ ⟨U', r'⟩ ⟨⟨hU, hU2⟩, hr⟩
  refine SimT.bindL (sim_viewU hU hU2) fun t t' ht => ?_
  refine SimT.bindL (sim_foldHalves hr.1) fun c c' hc => ?_
  refine SimT.bindL (sim_viewR hc) fun u u' hu => ?_
  exact SimT.pure ⟨ht, hu.1⟩

theorem sim_select3 {a : XT} {b : Tensor ℂ} (h : Sees d a b) (i j k : ℤ) :
    SimR (Sees d) (select3X a i j k) (select3 b i j k) := by
  unfold select3X select3
  refine (sim_select0 h i).bind fun x x' hx => ?_
  exact (sim_select0 hx j).bind fun x x' hx => sim_select0 hx k

theorem sim_blockMat3 {a : XT} {b : Tensor ℂ} (h : Sees d a b) :
    SimR (SeesD d) (blockMat3X a) (blockMat3 b) := by
  unfold blockMat3X blockMat3
  have row : ∀ x : ℤ, SimR (SeesD d)
      (do
        XT.catList XT.cat1 [← select3X a x 0 0, ← select3X a x 0 1, ← select3X a x 1 0, ← select3X a x 1 1])
      (do
        Tensor.catList Tensor.cat1 [← select3 b x 0 0, ← select3 b x 0 1, ← select3 b x 1 0, ← select3 b x 1 1]) := by
    intro x
    refine (sim_select3 h x 0 0).bind fun p p' hp => ?_
    refine (sim_select3 h x 0 1).bind fun q q' hq => ?_
    refine (sim_select3 h x 1 0).bind fun r r' hr => ?_
    refine (sim_select3 h x 1 1).bind fun s s' hs => ?_
    exact sim_catList (fun _ _ _ _ h h' => sim_cat1 h h') (.cons hp (.cons hq (.cons hr (.cons hs .nil))))
  refine (row 0).bind fun p p' hp => ?_
  refine (row 1).bind fun q q' hq => ?_
  exact sim_cat0 hp.1 hq.1

theorem sim_decomp3 (hsvd : ValidSVD svd) (hv : lay.Valid) (hd : d.isComplex = true) {a : XT}
    {b : Tensor ℂ} (h : Sees d a b) :
    SimT (fun p q => Sees d p.1 q.1 ∧ Sees d p.2.1 q.2.1 ∧ Sees d p.2.2 q.2.2)
      (TensorDecompAfterThreeQbitGateX svd lay a) (TensorDecompAfterThreeQbitGate svd b) := by
  unfold TensorDecompAfterThreeQbitGateX TensorDecompAfterThreeQbitGate
  rw [h.1]
  refine SimT.same _ fun _ _ => ?_
  refine SimT.bindL (sim_blockMat3 h) fun m m' hm => ?_
  refine (sim_svdTrunc hsvd hv hd hm.1).bind ?_
  rintro ⟨U, r⟩ ⟨U', r'⟩ ⟨⟨hU, hU2⟩, hr⟩
  refine SimT.bindL (sim_viewU hU hU2) fun t t' ht => ?_
  refine SimT.bindL (sim_foldHalves hr.1) fun c c' hc => ?_
  refine (sim_svdTrunc hsvd hv hd hc.1).bind ?_
  rintro ⟨U, r⟩ ⟨U', r'⟩ ⟨⟨hU, hU2⟩, hr⟩
  refine SimT.bindL (sim_viewU hU hU2) fun u u' hu => ?_
  refine SimT.bindL (sim_foldHalves hr.1) fun c c' hc => ?_
  refine SimT.bindL (sim_viewR hc) fun w w' hw => ?_
  exact SimT.pure ⟨ht, hu, hw.1⟩

/-! ## Density matrices -/

theorem sim_filter {l : List XT} {m : List (Tensor ℂ)} (h : SeesL d l m) (P : ℕ → Bool) :
    ∀ n, SeesL d (((l.zipIdx n).filter (fun p => P p.2)).map Prod.fst)
      (((m.zipIdx n).filter (fun p => P p.2)).map Prod.fst) := by
  induction h with
  | nil => exact fun n => .nil
  | @cons a b l m h1 _ ih =>
    intro n
    by_cases hP : P n = true
    · simp only [List.zipIdx_cons, List.filter_cons, hP, if_true, List.map_cons]
      exact .cons h1 (ih (n + 1))
    · simp only [List.zipIdx_cons, List.filter_cons, hP]
      exact ih (n + 1)

theorem cat0_len {a b v : Tensor ℂ} (h : a.cat0 b = .ok v) : v.shape.length = 2 := by
  unfold Tensor.cat0 at h
  split at h
  · split_ifs at h
    cases h
    rfl
  · cases h

theorem chunk_len {t : Tensor ℂ} {k : ℕ} {l : List (Tensor ℂ)} (h : t.chunk1 k = .ok l) :
    ∀ v ∈ l, v.shape.length = 2 := by
  unfold Tensor.chunk1 at h
  split at h
  · split_ifs at h with h1
    dsimp only at h
    split_ifs at h with h2
    · cases h
      intro v hv
      rw [List.eq_of_mem_replicate hv]
      rfl
    · cases h
      intro v hv
      obtain ⟨c, _, rfl⟩ := List.mem_map.1 hv
      rfl
  · cases h

theorem catList_len {l : List (Tensor ℂ)} (hl : ∀ v ∈ l, v.shape.length = 2) {v : Tensor ℂ}
    (h : Tensor.catList Tensor.cat0 l = .ok v) : v.shape.length = 2 := by
  cases l with
  | nil => cases h
  | cons t ts =>
    unfold Tensor.catList at h
    dsimp only at h
    have ht := hl t (by simp)
    clear hl
    induction ts generalizing t with
    | nil =>
      cases h
      exact ht
    | cons u ts ih =>
      rw [List.foldlM_cons] at h
      obtain ⟨w, hw, h⟩ := bind_ok h
      exact ih w h (cat0_len hw)

theorem sim_rhoRegroup {a : XT} {b : Tensor ℂ} (h : Sees d a b) (k : ℕ) :
    SimR (SeesD d) (rhoRegroupX a k) (rhoRegroup b k) := by
  unfold rhoRegroupX rhoRegroup
  refine ((sim_chunk1 h 2).and_post fun l hl => chunk_len hl).bind fun c c' hc => ?_
  refine ((sim_catList (fun _ _ _ _ h h' => sim_cat0 h h') hc.1).and_post
    fun v hv => catList_len hc.2 hv).bind fun r r' hr => ?_
  dsimp only
  rw [hr.1.1.1]
  have part : ∀ j : ℕ, SimR (SeesD d)
      (do
        let blks ← (r.rowSlice (j * (r'.shape.getD 0 0 / 2))
          (r'.shape.getD 0 0 / 2 + j * (r'.shape.getD 0 0 / 2))).chunk1 k
        (← XT.catList XT.cat1 ((blks.zipIdx.filter (fun p => p.2 % 2 = 0)).map Prod.fst)).cat0
          (← XT.catList XT.cat1 ((blks.zipIdx.filter (fun p => ¬ p.2 % 2 = 0)).map Prod.fst)))
      (do
        let blks ← (r'.rowSlice (j * (r'.shape.getD 0 0 / 2))
          (r'.shape.getD 0 0 / 2 + j * (r'.shape.getD 0 0 / 2))).chunk1 k
        (← Tensor.catList Tensor.cat1 ((blks.zipIdx.filter (fun p => p.2 % 2 = 0)).map Prod.fst)).cat0
          (← Tensor.catList Tensor.cat1 ((blks.zipIdx.filter (fun p => ¬ p.2 % 2 = 0)).map Prod.fst))) := by
    intro j
    refine (sim_chunk1 (sim_rowSlice hr.1.1 hr.2 _ _) k).bind fun x x' hx => ?_
    refine (sim_catList (fun _ _ _ _ h h' => sim_cat1 h h')
      (sim_filter hx (fun n => decide (n % 2 = 0)) 0)).bind fun p p' hp => ?_
    refine (sim_catList (fun _ _ _ _ h h' => sim_cat1 h h')
      (sim_filter hx (fun n => decide (¬ n % 2 = 0)) 0)).bind fun q q' hq => ?_
    exact sim_cat0 hp.1 hq.1
  refine (part 0).bind fun p p' hp => ?_
  refine (part 1).bind fun q q' hq => ?_
  exact sim_cat0 hp.1 hq.1

theorem sim_Rho2MPS_loop (hsvd : ValidSVD svd) (hv : lay.Valid) (hd : d.isComplex = true)
    (k : ℕ) {a : XT} {b : Tensor ℂ} (h : Sees d a b) :
    SimT (SeesL d) (Rho2MPS_loopX svd lay k a) (Rho2MPS_loop svd k b) := by
  induction k generalizing a b with
  | zero => exact SimT.pure .nil
  | succ k ih =>
    unfold Rho2MPS_loopX Rho2MPS_loop
    refine SimT.bindL (sim_rhoRegroup h _) fun c c' hc => ?_
    refine (sim_svdTrunc hsvd hv hd hc.1).bind ?_
    rintro ⟨U, r⟩ ⟨U', r'⟩ ⟨⟨hU, hU2⟩, hr⟩
    refine SimT.bindL (sim_viewU2 hU hU2) fun t t' ht => ?_
    refine (ih hr.1).bind fun l l' hl => ?_
    exact SimT.pure (.cons ht hl)

theorem sim_MPS2Rho_step (hv : lay.Valid) {a t : XT} {b t' : Tensor ℂ} (h : Sees d a b)
    (ht : Sees d t t') : SimR (Sees d) (MPS2Rho_stepX lay a t) (MPS2Rho_step b t') := by
  unfold MPS2Rho_stepX MPS2Rho_step
  refine (sim_unsqueeze h 1).bind fun x x' hx => ?_
  refine (sim_unsqueeze hx 3).bind fun x x' hx => ?_
  refine (sim_unsqueeze ht 0).bind fun y y' hy => ?_
  refine (sim_unsqueeze hy 2).bind fun y y' hy => ?_
  refine (sim_matmul hv hx hy).bind fun c c' hc => ?_
  rw [hc.1.1]
  refine SimR.same _ fun s0 _ => ?_
  refine SimR.same _ fun s1 _ => ?_
  refine SimR.same _ fun s2 _ => ?_
  refine SimR.same _ fun s3 _ => ?_
  refine SimR.same _ fun s4 _ => ?_
  refine SimR.same _ fun s5 _ => ?_
  exact (sim_viewD hc _).mono fun _ _ h => h.1

theorem sim_MPS2Rho (hv : lay.Valid) {l : List XT} {m : List (Tensor ℂ)}
    (h : SeesL d l m) : SimR (Sees d) (MPS2RhoX lay l) (MPS2Rho m) := by
  cases h with
  | nil => exact rfl
  | cons h1 h2 =>
    unfold MPS2RhoX MPS2Rho
    refine (SimR.foldlM₂ (Q := Sees d) (R := Sees d)
      (fun _ _ _ _ h1 h2 => sim_MPS2Rho_step hv h1 h2) h2 h1).bind fun c c' hc => ?_
    have hq := sim_squeeze hc
    dsimp only
    rw [hq.1]
    refine SimR.same _ fun tr _ => ?_
    exact ⟨rfl, hq.2.1, by rw [hv.elem, hq.1]; rfl⟩

theorem prod_twos (N : ℕ) : (List.replicate N 2).prod = 2 ^ N := by simp

theorem view_nat_shape {t v : Tensor ℂ} {s : List ℕ} (h : t.view (s.map (fun k : ℕ => (k : ℤ))) = .ok v) :
    v.shape = s := by
  obtain ⟨_, q, hq⟩ := view_ok h
  rw [hq, List.map_map]
  conv_rhs => rw [← List.map_id s]
  refine List.map_congr_left fun x _ => ?_
  simp [show ¬ ((x : ℤ) = -1) by omega]

theorem sim_MatrixProductState {a : XT} {b : Tensor ℂ} (h : Sees d a b) (N : ℕ) :
    SimR (Sees d) (MatrixProductStateX a N) (MatrixProductState b N) := by
  unfold MatrixProductStateX MatrixProductState
  rw [h.1]
  refine SimR.same _ fun _ h1 => ?_
  refine SimR.same _ fun _ h2 => ?_
  have h1 := raiseIf_ok h1
  have h2 := raiseIf_ok h2
  push Not at h1 h2
  obtain ⟨m, n, hs⟩ := two_strides h1
  obtain ⟨x, y, hxy⟩ := two_strides (h.2.2.trans (by rw [h.1, hs]; rfl))
  rw [hs] at h2
  obtain ⟨rfl, rfl⟩ : m = 1 ∧ n = 2 ^ N := by simpa using h2
  refine sim_view h _ fun v hv => ?_
  have e : List.replicate N (2 : ℤ) = (List.replicate N 2).map (fun k : ℕ => (k : ℤ)) := by simp
  rw [e] at hv
  rw [view_nat_shape hv, hs, hxy]
  exact stride_split (A := []) rfl (prod_twos N)

theorem sim_MatrixProductDensityOperator {a : XT} {b : Tensor ℂ} (h : Sees d a b) (N : ℕ) :
    SimR (Sees d) (MatrixProductDensityOperatorX a N) (MatrixProductDensityOperator b N) := by
  unfold MatrixProductDensityOperatorX MatrixProductDensityOperator
  rw [h.1]
  refine SimR.same _ fun _ h1 => ?_
  refine SimR.same _ fun _ h2 => ?_
  have h1 := raiseIf_ok h1
  have h2 := raiseIf_ok h2
  push Not at h1 h2
  obtain ⟨m, n, hs⟩ := two_strides h1
  obtain ⟨x, y, hxy⟩ := two_strides (h.2.2.trans (by rw [h.1, hs]; rfl))
  rw [hs] at h2
  obtain ⟨rfl, rfl⟩ : m = 2 ^ N ∧ n = 2 ^ N := by simpa using h2
  refine (sim_view h _ fun v hv => ?_).bind fun t t' ht => ?_
  · have e : List.replicate (2 * N) (2 : ℤ) =
        (List.replicate N 2 ++ List.replicate N 2).map (fun k : ℕ => (k : ℤ)) := by
      rw [← List.replicate_add]
      simp [two_mul]
    rw [e] at hv
    rw [view_nat_shape hv, hs, hxy]
    exact stride_split (prod_twos N) (prod_twos N)
  · rw [ht.1]
    exact SimR.same _ fun _ _ => ht

end QTN
