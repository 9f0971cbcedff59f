import Verif.Lemmas.Stride
import Verif.Model.LayoutOps
import Verif.SpecTN

/-!
# Running a routine with data types and strides beside the same routine without them
-/

namespace QTN

/-- Both computations raise the same exception, or both return and the results are related. -/
def SimR {α β : Type} (R : α → β → Prop) : Py α → Py β → Prop
  | .error e, .error e' => e = e'
  | .ok a, .ok b => R a b
  | _, _ => False

/-- The same for computations that call the SVD, which must be called with the same matrices. -/
def SimT {α β : Type} (R : α → β → Prop) (x : TNM α) (y : TNM β) : Prop :=
  ∀ s, SimR R (x s).1 (y s).1 ∧ (x s).2 = (y s).2

theorem SimR.mono {α β : Type} {R S : α → β → Prop} {x : Py α} {y : Py β} (h : SimR R x y)
    (hs : ∀ a b, R a b → S a b) : SimR S x y := by
  cases x <;> cases y
  · exact h
  · exact h
  · exact h
  · exact hs _ _ h

theorem SimR.bind {α β γ δ : Type} {R : α → β → Prop} {S : γ → δ → Prop} {x : Py α} {y : Py β}
    {f : α → Py γ} {g : β → Py δ} (h : SimR R x y) (hf : ∀ a b, R a b → SimR S (f a) (g b)) :
    SimR S (x >>= f) (y >>= g) := by
  cases x <;> cases y
  · exact h
  · exact h.elim
  · exact h.elim
  · exact hf _ _ h

theorem SimR.refl {α : Type} (x : Py α) : SimR (fun a b => a = b ∧ x = .ok a) x x := by
  cases x
  · exact rfl
  · exact ⟨rfl, rfl⟩

theorem SimR.same {α γ δ : Type} {S : γ → δ → Prop} (x : Py α) {f : α → Py γ} {g : α → Py δ}
    (hf : ∀ a, x = .ok a → SimR S (f a) (g a)) : SimR S (x >>= f) (x >>= g) := by
  cases x with
  | error e => exact rfl
  | ok a => exact hf a rfl

theorem SimR.ok {α β : Type} {R : α → β → Prop} {a : α} {b : β} (h : R a b) :
    SimR R (.ok a) (.ok b) := h

theorem SimR.error {α β : Type} {R : α → β → Prop} (e : PyErr) :
    SimR R (.error e : Py α) (.error e : Py β) := rfl

theorem SimR.map_eq {α β : Type} {φ : α → β} {x : Py α} {y : Py β}
    (h : SimR (fun a b => φ a = b) x y) : x.map φ = y := by
  cases x <;> cases y
  · exact congrArg _ h
  · exact h.elim
  · exact h.elim
  · exact congrArg _ h

theorem SimT.mono {α β : Type} {R S : α → β → Prop} {x : TNM α} {y : TNM β} (h : SimT R x y)
    (hs : ∀ a b, R a b → S a b) : SimT S x y := fun s => ⟨(h s).1.mono hs, (h s).2⟩

theorem SimT.bind {α β γ δ : Type} {R : α → β → Prop} {S : γ → δ → Prop} {x : TNM α} {y : TNM β}
    {f : α → TNM γ} {g : β → TNM δ} (h : SimT R x y) (hf : ∀ a b, R a b → SimT S (f a) (g b)) :
    SimT S (x >>= f) (y >>= g) := by
  intro s
  change SimR S (TNM.bind' x f s).1 (TNM.bind' y g s).1 ∧ (TNM.bind' x f s).2 = (TNM.bind' y g s).2
  obtain ⟨h1, h2⟩ := h s
  unfold TNM.bind'
  rcases hx : x s with ⟨a, s1⟩
  rcases hy : y s with ⟨b, s2⟩
  rw [hx, hy] at h1 h2
  cases a <;> cases b
  · exact ⟨h1, h2⟩
  · exact h1.elim
  · exact h1.elim
  · dsimp only at h2
    subst h2
    exact hf _ _ h1 _

theorem SimT.lift {α β : Type} {R : α → β → Prop} {x : Py α} {y : Py β} (h : SimR R x y) :
    SimT R (TNM.lift x) (TNM.lift y) := fun _ => ⟨h, rfl⟩

theorem SimT.pure {α β : Type} {R : α → β → Prop} {a : α} {b : β} (h : R a b) :
    SimT R (Pure.pure a) (Pure.pure b) := fun _ => ⟨h, rfl⟩

/-- a step without SVD -/
theorem SimT.bindL {α β γ δ : Type} {R : α → β → Prop} {S : γ → δ → Prop} {x : Py α} {y : Py β}
    {f : α → TNM γ} {g : β → TNM δ} (h : SimR R x y) (hf : ∀ a b, R a b → SimT S (f a) (g b)) :
    SimT S (TNM.lift x >>= f) (TNM.lift y >>= g) := (SimT.lift h).bind hf

/-- the same step without SVD on both sides -/
theorem SimT.same {α γ δ : Type} {S : γ → δ → Prop} (x : Py α) {f : α → TNM γ} {g : α → TNM δ}
    (hf : ∀ a, x = .ok a → SimT S (f a) (g a)) : SimT S (TNM.lift x >>= f) (TNM.lift x >>= g) := by
  refine (SimT.lift (SimR.refl x)).bind ?_
  rintro a b ⟨rfl, h⟩
  exact hf a h

theorem SimT.ite {α β : Type} {R : α → β → Prop} {p q : Prop} [Decidable p] [Decidable q]
    (hpq : p ↔ q) {x x' : TNM α} {y y' : TNM β} (h : q → SimT R x y) (h' : ¬ q → SimT R x' y') :
    SimT R (if p then x else x') (if q then y else y') := by
  by_cases hq : q
  · rw [if_pos (hpq.2 hq), if_pos hq]
    exact h hq
  · rw [if_neg (fun hp => hq (hpq.1 hp)), if_neg hq]
    exact h' hq

theorem SimR.ite {α β : Type} {R : α → β → Prop} {p q : Prop} [Decidable p] [Decidable q]
    (hpq : p ↔ q) {x x' : Py α} {y y' : Py β} (h : q → SimR R x y) (h' : ¬ q → SimR R x' y') :
    SimR R (if p then x else x') (if q then y else y') := by
  by_cases hq : q
  · rw [if_pos (hpq.2 hq), if_pos hq]
    exact h hq
  · rw [if_neg (fun hp => hq (hpq.1 hp)), if_neg hq]
    exact h' hq

theorem SimR.foldlM {α β γ : Type} {R : α → β → Prop} {f : α → γ → Py α} {g : β → γ → Py β}
    (hf : ∀ a b c, R a b → SimR R (f a c) (g b c)) (l : List γ) {a : α} {b : β} (h : R a b) :
    SimR R (l.foldlM f a) (l.foldlM g b) := by
  induction l generalizing a b with
  | nil => exact h
  | cons c l ih =>
    rw [List.foldlM_cons, List.foldlM_cons]
    exact (hf a b c h).bind fun a' b' h' => ih h'

theorem SimR.foldlM_mem {α β γ : Type} {R : α → β → Prop} {f : α → γ → Py α} {g : β → γ → Py β}
    (l : List γ) (hf : ∀ a b, ∀ c ∈ l, R a b → SimR R (f a c) (g b c)) {a : α} {b : β} (h : R a b) :
    SimR R (l.foldlM f a) (l.foldlM g b) := by
  induction l generalizing a b with
  | nil => exact h
  | cons c l ih =>
    rw [List.foldlM_cons, List.foldlM_cons]
    exact (hf a b c (by simp) h).bind fun a' b' h' =>
      ih (fun a b c hc => hf a b c (by simp [hc])) h'

theorem SimR.foldlM₂ {α β γ δ : Type} {R : α → β → Prop} {Q : γ → δ → Prop} {f : α → γ → Py α}
    {g : β → δ → Py β} (hf : ∀ a b c d, R a b → Q c d → SimR R (f a c) (g b d)) {l : List γ}
    {m : List δ} (hl : List.Forall₂ Q l m) {a : α} {b : β} (h : R a b) :
    SimR R (l.foldlM f a) (m.foldlM g b) := by
  induction hl generalizing a b with
  | nil => exact h
  | cons hc _ ih =>
    rw [List.foldlM_cons, List.foldlM_cons]
    exact (hf a b _ _ h hc).bind fun a' b' h' => ih h'

theorem tnm_foldlM_nil {α γ : Type} (f : α → γ → TNM α) (a : α) :
    ([] : List γ).foldlM f a = Pure.pure a := rfl

theorem SimT.foldlM {α β γ : Type} {R : α → β → Prop} {f : α → γ → TNM α} {g : β → γ → TNM β}
    (hf : ∀ a b c, R a b → SimT R (f a c) (g b c)) (l : List γ) {a : α} {b : β} (h : R a b) :
    SimT R (l.foldlM f a) (l.foldlM g b) := by
  induction l generalizing a b with
  | nil => exact SimT.pure h
  | cons c l ih =>
    rw [List.foldlM_cons, List.foldlM_cons]
    exact (hf a b c h).bind fun a' b' h' => ih h'

theorem SimT.foldlM₂ {α β γ δ : Type} {R : α → β → Prop} {Q : γ → δ → Prop} {f : α → γ → TNM α}
    {g : β → δ → TNM β} (hf : ∀ a b c d, R a b → Q c d → SimT R (f a c) (g b d)) {l : List γ}
    {m : List δ} (hl : List.Forall₂ Q l m) {a : α} {b : β} (h : R a b) :
    SimT R (l.foldlM f a) (m.foldlM g b) := by
  induction hl generalizing a b with
  | nil => exact SimT.pure h
  | cons hc _ ih =>
    rw [List.foldlM_cons, List.foldlM_cons]
    exact (hf a b _ _ h hc).bind fun a' b' h' => ih h'

theorem SimR.pyGet {α β : Type} {R : α → β → Prop} {l : List α} {m : List β}
    (h : List.Forall₂ R l m) (i : ℤ) : SimR R (pyGet l i) (pyGet m i) := by
  unfold QTN.pyGet
  rw [h.length_eq]
  refine SimR.same _ fun k _ => ?_
  by_cases hk : k < m.length
  · have hk' : k < l.length := by rw [h.length_eq]; exact hk
    rw [List.getElem?_eq_getElem hk, List.getElem?_eq_getElem hk']
    exact List.Forall₂.get h hk' hk
  · have hk' : l.length ≤ k := by rw [h.length_eq]; omega
    rw [List.getElem?_eq_none hk', List.getElem?_eq_none (by omega)]
    exact rfl

theorem forall₂_set {α β : Type} {R : α → β → Prop} {l : List α} {m : List β}
    (h : List.Forall₂ R l m) (k : ℕ) {a : α} {b : β} (hab : R a b) :
    List.Forall₂ R (l.set k a) (m.set k b) := by
  induction h generalizing k with
  | nil => exact .nil
  | cons h1 h2 ih =>
    cases k with
    | zero => exact .cons hab h2
    | succ k => exact .cons h1 (ih k)

theorem SimR.pySet {α β : Type} {R : α → β → Prop} {l : List α} {m : List β}
    (h : List.Forall₂ R l m) (i : ℤ) {a : α} {b : β} (hab : R a b) :
    SimR (List.Forall₂ R) (pySet l i a) (pySet m i b) := by
  unfold QTN.pySet
  rw [h.length_eq]
  exact SimR.same _ fun k _ => forall₂_set h k hab

/-! ## Tensors -/

/-- The tensor `a` has type `d`, as many strides as dimensions, and the value `b`. -/
def Sees (d : DT) (a : XT) (b : Tensor ℂ) : Prop :=
  a.val = b ∧ a.dt = d ∧ a.str.length = a.val.shape.length

/-- … and it is contiguous up to dimensions of size one. -/
def SeesD (d : DT) (a : XT) (b : Tensor ℂ) : Prop := Sees d a b ∧ Dense a.val.shape a.str

/-- lists of tensors -/
def SeesL (d : DT) : List XT → List (Tensor ℂ) → Prop := List.Forall₂ (Sees d)

/-- The routines that do not document the strides of their results return one stride per dimension, and
matrix products are contiguous up to dimensions of size one. -/
structure Lay.Valid (lay : Lay) : Prop where
  mm : ∀ a b v, a.val.matmul b.val = .ok v →
    (lay.mm a b).length = v.shape.length ∧ Dense v.shape (lay.mm a b)
  ein : ∀ a b v, Tensor.einsum_ab_bcd a.val b.val = .ok v → (lay.ein a b).length = v.shape.length
  svdU : ∀ a, (lay.svdU a).length = 2
  svdV : ∀ a, (lay.svdV a).length = 2
  elem : ∀ a, (lay.elem a).length = a.val.shape.length

theorem sees_fresh (v : Tensor ℂ) (d : DT) : SeesD d (XT.fresh v d) v :=
  ⟨⟨rfl, rfl, contigStr_length _⟩, dense_contig _⟩

theorem Sees.shape {d : DT} {a : XT} {b : Tensor ℂ} (h : Sees d a b) : a.val.shape = b.shape := by
  rw [h.1]

/-- A step whose value is that of the plain step. -/
theorem simR_val {R : XT → Tensor ℂ → Prop} {x : Py XT} {y : Py (Tensor ℂ)} {f : Tensor ℂ → Py XT}
    (hx : x = y >>= f) (hf : ∀ v, y = .ok v → SimR R (f v) (.ok v)) : SimR R x y := by
  subst hx
  cases y with
  | error e => exact rfl
  | ok v => exact hf v rfl

theorem mapM_len {α β : Type} (f : α → Py β) : ∀ (l : List α) (m : List β), l.mapM f = .ok m →
    m.length = l.length := by
  intro l
  induction l with
  | nil =>
    intro m h
    cases h
    rfl
  | cons a l ih =>
    intro m h
    rw [List.mapM_cons] at h
    cases ha : f a with
    | error e => rw [ha] at h; cases h
    | ok b =>
      cases hl : l.mapM f with
      | error e => rw [ha, hl] at h; cases h
      | ok m' =>
        rw [ha, hl] at h
        cases h
        simp [ih m' hl]

theorem bind_ok {α β : Type} {x : Py α} {f : α → Py β} {b : β} (h : (x >>= f) = .ok b) :
    ∃ a, x = .ok a ∧ f a = .ok b := by
  cases x with
  | error e => cases h
  | ok a => exact ⟨a, rfl, h⟩

theorem raiseIf_ok {c : Prop} [Decidable c] {e : PyErr} {u : Unit} (h : raiseIf c e = .ok u) : ¬ c := by
  intro hc
  rw [raiseIf_true hc] at h
  cases h

/-- What a successful permutation has done. -/
theorem permute_ok {t v : Tensor ℂ} {p : List ℤ} (h : t.permute p = .ok v) :
    ∃ q, p.mapM (wrapIdx t.rank) = .ok q ∧ v.shape = q.map (fun k => t.shape.getD k 0) := by
  unfold Tensor.permute at h
  obtain ⟨_, _, h⟩ := bind_ok h
  obtain ⟨q, hq, h⟩ := bind_ok h
  obtain ⟨_, _, h⟩ := bind_ok h
  cases h
  exact ⟨q, hq, rfl⟩

theorem sim_permute {d : DT} {a : XT} {b : Tensor ℂ} (h : Sees d a b) (p : List ℤ) :
    SimR (Sees d) (a.permute p) (b.permute p) := by
  obtain ⟨rfl, hd, hl⟩ := h
  refine simR_val rfl fun v hv => ?_
  obtain ⟨q, hq, hs⟩ := permute_ok hv
  rw [hq, Py.ok_bind]
  refine ⟨rfl, hd, ?_⟩
  rw [List.length_map, hs, List.length_map]

theorem sim_unsqueeze {d : DT} {a : XT} {b : Tensor ℂ} (h : Sees d a b) (k : ℤ) :
    SimR (Sees d) (a.unsqueeze k) (b.unsqueeze k) := by
  obtain ⟨rfl, hd, hl⟩ := h
  refine simR_val rfl fun v hv => ?_
  unfold Tensor.unsqueeze at hv
  obtain ⟨j, hj, hv⟩ := bind_ok hv
  cases hv
  rw [hj, Py.ok_bind]
  refine ⟨rfl, hd, ?_⟩
  simp only [Tensor.ofFn, List.length_insertIdx, hl]

theorem sim_squeezeDim {d : DT} {a : XT} {b : Tensor ℂ} (h : Sees d a b) (k : ℤ) :
    SimR (Sees d) (a.squeezeDim k) (b.squeezeDim k) := by
  obtain ⟨rfl, hd, hl⟩ := h
  refine simR_val rfl fun v hv => ?_
  unfold Tensor.squeezeDim at hv
  obtain ⟨j, hj, hv⟩ := bind_ok hv
  rw [hj, Py.ok_bind]
  split_ifs at hv with h1
  · cases hv
    refine ⟨rfl, hd, ?_⟩
    rw [if_pos h1]
    simp only [Tensor.ofFn, List.length_eraseIdx, hl]
  · cases hv
    exact ⟨rfl, hd, by rw [if_neg h1]; exact hl⟩

theorem sim_squeeze {d : DT} {a : XT} {b : Tensor ℂ} (h : Sees d a b) :
    Sees d a.squeeze b.squeeze := by
  obtain ⟨rfl, hd, hl⟩ := h
  refine ⟨rfl, hd, ?_⟩
  have : ∀ (s t : List ℕ), t.length = s.length →
      (((s.zip t).filter (fun p => decide (p.1 ≠ 1))).map Prod.snd).length =
        (s.filter (· ≠ 1)).length := by
    intro s
    induction s with
    | nil => intro t _; rfl
    | cons x s ih =>
      intro t ht
      cases t with
      | nil => simp at ht
      | cons y t =>
        have := ih t (by simpa using ht)
        by_cases hx : x = 1
        · simpa [hx] using this
        · simpa [hx] using this
  exact this _ _ hl

theorem sim_conj {d : DT} {a : XT} {b : Tensor ℂ} (h : Sees d a b) : Sees d a.conj b.conj := by
  obtain ⟨rfl, hd, hl⟩ := h
  exact ⟨rfl, hd, hl⟩

theorem sim_conjD {d : DT} {a : XT} {b : Tensor ℂ} (h : SeesD d a b) : SeesD d a.conj b.conj :=
  ⟨sim_conj h.1, h.2⟩

theorem sim_select0 {d : DT} {a : XT} {b : Tensor ℂ} (h : Sees d a b) (i : ℤ) :
    SimR (Sees d) (a.select0 i) (b.select0 i) := by
  obtain ⟨rfl, hd, hl⟩ := h
  refine simR_val rfl fun v hv => ?_
  unfold Tensor.select0 at hv
  split at hv
  · cases hv
  · rename_i s0 ds hs
    obtain ⟨j, hj, hv⟩ := bind_ok hv
    cases hv
    refine ⟨rfl, hd, ?_⟩
    rw [hs] at hl
    simp [Tensor.ofFn, hl]

theorem sim_indexSelect0 {d : DT} {a : XT} {b : Tensor ℂ} (h : Sees d a b) (l : List ℕ) :
    SimR (SeesD d) (a.indexSelect0 l) (b.indexSelect0 l) := by
  obtain ⟨rfl, hd, hl⟩ := h
  refine simR_val rfl fun v hv => ?_
  exact hd ▸ sees_fresh v a.dt

theorem sim_indexSelect1 {d : DT} {a : XT} {b : Tensor ℂ} (h : Sees d a b) (l : List ℕ) :
    SimR (SeesD d) (a.indexSelect1 l) (b.indexSelect1 l) := by
  obtain ⟨rfl, hd, hl⟩ := h
  refine simR_val rfl fun v hv => ?_
  exact hd ▸ sees_fresh v a.dt

theorem promote_self (d : DT) : d.promote d = d := by cases d <;> rfl

theorem sim_cat0 {d : DT} {a a' : XT} {b b' : Tensor ℂ} (h : Sees d a b) (h' : Sees d a' b') :
    SimR (SeesD d) (a.cat0 a') (b.cat0 b') := by
  obtain ⟨rfl, hd, hl⟩ := h
  obtain ⟨rfl, hd', hl'⟩ := h'
  refine simR_val rfl fun v hv => ?_
  rw [hd, hd', promote_self]
  exact sees_fresh v d

theorem sim_cat1 {d : DT} {a a' : XT} {b b' : Tensor ℂ} (h : Sees d a b) (h' : Sees d a' b') :
    SimR (SeesD d) (a.cat1 a') (b.cat1 b') := by
  obtain ⟨rfl, hd, hl⟩ := h
  obtain ⟨rfl, hd', hl'⟩ := h'
  refine simR_val rfl fun v hv => ?_
  rw [hd, hd', promote_self]
  exact sees_fresh v d

theorem sim_catList {d : DT} {f : XT → XT → Py XT} {g : Tensor ℂ → Tensor ℂ → Py (Tensor ℂ)}
    (hf : ∀ a b a' b', Sees d a b → Sees d a' b' → SimR (SeesD d) (f a a') (g b b')) {l : List XT}
    {m : List (Tensor ℂ)} (h : SeesL d l m) :
    SimR (SeesD d) (XT.catList f l) (Tensor.catList g m) := by
  cases h with
  | nil => exact rfl
  | @cons a b l m h1 h2 =>
    unfold XT.catList Tensor.catList
    refine SimR.foldlM₂ (Q := Sees d) (R := SeesD d) (fun a b c d h1 h2 => hf _ _ _ _ h1.1 h2) h2 ?_
    obtain ⟨rfl, rfl, _⟩ := h1
    exact sees_fresh _ _

theorem sim_chunk1 {d : DT} {a : XT} {b : Tensor ℂ} (h : Sees d a b) (k : ℕ) :
    SimR (SeesL d) (a.chunk1 k) (b.chunk1 k) := by
  obtain ⟨rfl, hd, hl⟩ := h
  unfold XT.chunk1
  cases hv : a.val.chunk1 k with
  | error e => exact rfl
  | ok l =>
    rw [Py.ok_bind]
    have hs : ∀ v ∈ l, v.shape.length = a.val.shape.length := by
      unfold Tensor.chunk1 at hv
      split at hv
      · rename_i x n hs
        rw [hs]
        split_ifs at hv with h1
        dsimp only at hv
        split_ifs at hv with h2
        · cases hv
          intro v hv
          rw [List.eq_of_mem_replicate hv]
          rfl
        · cases hv
          intro v hv
          obtain ⟨c, _, rfl⟩ := List.mem_map.1 hv
          rfl
      · cases hv
    clear hv
    change List.Forall₂ (Sees d) _ _
    induction l with
    | nil => exact .nil
    | cons v l ih =>
      refine .cons ⟨rfl, hd, ?_⟩ (ih fun v hv => hs v (by simp [hv]))
      dsimp only
      rw [hl, hs v (by simp)]

theorem sim_rowSlice {d : DT} {a : XT} {b : Tensor ℂ} (h : Sees d a b) (hr : b.shape.length = 2)
    (lo hi : ℕ) : Sees d (a.rowSlice lo hi) (b.rowSlice lo hi) := by
  obtain ⟨rfl, hd, hl⟩ := h
  exact ⟨rfl, hd, hl.trans hr⟩

theorem sim_matmul {lay : Lay} (hv : lay.Valid) {d : DT} {a a' : XT} {b b' : Tensor ℂ}
    (h : Sees d a b) (h' : Sees d a' b') : SimR (SeesD d) (a.matmul lay a') (b.matmul b') := by
  obtain ⟨rfl, hd, hl⟩ := h
  obtain ⟨rfl, hd', hl'⟩ := h'
  unfold XT.matmul
  rw [raiseIf_false (by rw [hd, hd']; simp), Py.ok_bind]
  refine simR_val rfl fun v h => ?_
  obtain ⟨h1, h2⟩ := hv.mm _ _ _ h
  exact ⟨⟨rfl, hd, h1⟩, h2⟩

theorem sim_einsum {lay : Lay} (hv : lay.Valid) {d : DT} {a a' : XT} {b b' : Tensor ℂ}
    (h : Sees d a b) (h' : Sees d a' b') :
    SimR (Sees d) (XT.einsum_ab_bcd lay a a') (Tensor.einsum_ab_bcd b b') := by
  obtain ⟨rfl, hd, hl⟩ := h
  obtain ⟨rfl, hd', hl'⟩ := h'
  unfold XT.einsum_ab_bcd
  rw [raiseIf_false (by rw [hd, hd']; simp), Py.ok_bind]
  refine simR_val rfl fun v h => ?_
  exact ⟨rfl, hd', hv.ein _ _ _ h⟩

/-! ## Views -/

theorem inferShape_ok {n : ℕ} {s : List ℤ} {r : List ℕ} (h : Tensor.inferShape n s = .ok r) :
    r.prod = n ∧ ∃ q, r = s.map (fun d => if d = -1 then q else d.toNat) := by
  unfold Tensor.inferShape at h
  have key : ∀ (q : ℕ) (s : List ℤ), (s.map (fun d => if d = -1 then q else d.toNat)).prod =
      q ^ s.count (-1) * ((s.filter (· ≠ -1)).map Int.toNat).prod := by
    intro q s
    induction s with
    | nil => simp
    | cons x s ih =>
      by_cases hx : x = -1
      · subst hx
        simp [ih, pow_succ]
        ring
      · simp [hx, ih]
        ring
  dsimp only at h
  by_cases h1 : ((s.filter (· ≠ -1)).any (· < 0)) = true
  · rw [if_pos h1] at h
    cases h
  rw [if_neg h1] at h
  split at h
  · rename_i hc
    split_ifs at h with h2
    cases h
    have e : s.map Int.toNat = s.map (fun d => if d = -1 then 0 else d.toNat) := by
      refine List.map_congr_left fun x hx => ?_
      rw [if_neg]
      rintro rfl
      exact (List.count_eq_zero.1 hc) hx
    refine ⟨?_, 0, e⟩
    rw [e, key, hc, ← h2]
    simp
  · rename_i hc
    split_ifs at h with h2 h3
    cases h
    refine ⟨?_, _, rfl⟩
    rw [key, hc, pow_one]
    exact Nat.div_mul_cancel (Nat.dvd_of_mod_eq_zero h3)
  · cases h

theorem view_ok {t v : Tensor ℂ} {s : List ℤ} (h : t.view s = .ok v) :
    v.shape.prod = t.shape.prod ∧ ∃ q, v.shape = s.map (fun d => if d = -1 then q else d.toNat) := by
  unfold Tensor.view at h
  obtain ⟨r, hr, h⟩ := bind_ok h
  cases h
  exact inferShape_ok hr

theorem sim_view {d : DT} {a : XT} {b : Tensor ℂ} (h : Sees d a b) (s : List ℤ)
    (hc : ∀ v, b.view s = .ok v → ∃ r, computeStride b.shape a.str v.shape = some r) :
    SimR (Sees d) (a.view s) (b.view s) := by
  obtain ⟨rfl, hd, hl⟩ := h
  refine simR_val rfl fun v hv => ?_
  obtain ⟨r, hr⟩ := hc v hv
  rw [hr]
  exact ⟨rfl, hd, computeStride_length hl hr⟩

theorem sim_viewD {d : DT} {a : XT} {b : Tensor ℂ} (h : SeesD d a b) (s : List ℤ) :
    SimR (SeesD d) (a.view s) (b.view s) := by
  obtain ⟨⟨rfl, hd, hl⟩, hD⟩ := h
  refine simR_val rfl fun v hv => ?_
  obtain ⟨hp, _⟩ := view_ok hv
  obtain ⟨r, hr⟩ := stride_dense hl hD hp
  rw [hr]
  exact ⟨⟨rfl, hd, computeStride_length hl hr⟩, computeStride_dense hl hD hp hr⟩

theorem sim_reshape {d : DT} {a : XT} {b : Tensor ℂ} (h : Sees d a b) (s : List ℤ) :
    SimR (Sees d) (a.reshape s) (b.view s) := by
  obtain ⟨rfl, hd, hl⟩ := h
  refine simR_val rfl fun v hv => ?_
  cases hr : computeStride a.val.shape a.str v.shape with
  | none =>
    exact hd ▸ (sees_fresh v a.dt).1
  | some r => exact ⟨rfl, hd, computeStride_length hl hr⟩

theorem two_strides {l : List ℕ} (h : l.length = 2) : ∃ x y, l = [x, y] := by
  match l, h with
  | [x, y], _ => exact ⟨x, y, rfl⟩

/-- `U.view(2, -1, U.shape[1])` of a matrix, whatever its strides. -/
theorem sim_view2 {d : DT} {a : XT} {b : Tensor ℂ} (h : Sees d a b) {m n : ℕ} (hs : b.shape = [m, n]) :
    SimR (Sees d) (a.view [2, -1, (n : ℤ)]) (b.view [2, -1, (n : ℤ)]) := by
  refine sim_view h _ fun v hv => ?_
  obtain ⟨hp, q, hq⟩ := view_ok hv
  obtain ⟨x, y, hxy⟩ := two_strides (h.2.2.trans (by rw [h.1, hs]; rfl))
  have e : v.shape = [2, q] ++ [n] := by
    rw [hq]
    simp [show ¬ ((n : ℤ) = -1) by omega]
  rw [e] at hp ⊢
  rw [hs, hxy]
  rw [hs] at hp
  by_cases hn : n = 0
  · subst hn
    exact computeStride_of_fits rfl (Or.inl (by simp))
  · refine stride_split ?_ (by simp)
    have : 2 * q * n = m * n := by simpa [mul_assoc] using hp
    simpa using Nat.eq_of_mul_eq_mul_right (Nat.pos_of_ne_zero hn) this

/-- `U.view(2, 2, -1, U.shape[1])` of a matrix. -/
theorem sim_view22 {d : DT} {a : XT} {b : Tensor ℂ} (h : Sees d a b) {m n : ℕ} (hs : b.shape = [m, n]) :
    SimR (Sees d) (a.view [2, 2, -1, (n : ℤ)]) (b.view [2, 2, -1, (n : ℤ)]) := by
  refine sim_view h _ fun v hv => ?_
  obtain ⟨hp, q, hq⟩ := view_ok hv
  obtain ⟨x, y, hxy⟩ := two_strides (h.2.2.trans (by rw [h.1, hs]; rfl))
  have e : v.shape = [2, 2, q] ++ [n] := by
    rw [hq]
    simp [show ¬ ((n : ℤ) = -1) by omega]
  rw [e] at hp ⊢
  rw [hs, hxy]
  rw [hs] at hp
  by_cases hn : n = 0
  · subst hn
    exact computeStride_of_fits rfl (Or.inl (by simp))
  · refine stride_split ?_ (by simp)
    have : 2 * (2 * q) * n = m * n := by simpa [mul_assoc] using hp
    simpa using Nat.eq_of_mul_eq_mul_right (Nat.pos_of_ne_zero hn) this

end QTN
