import Verif.Model.Layout
import Mathlib.Algebra.BigOperators.Group.List.Basic
import Mathlib.Tactic.Ring
import Mathlib.Tactic.Linarith

/-!
# When `computeStride` succeeds
-/

namespace QTN

/-- Dimensions (size and stride, last one first) that continue a chunk whose next stride is `x`. -/
def Merges : ℕ → List (ℕ × ℕ) → Prop
  | _, [] => True
  | x, d :: l => (d.1 = 1 ∧ Merges x l) ∨ (d.2 = x ∧ Merges (x * d.1) l)

/-- product of the sizes -/
def sizes (l : List (ℕ × ℕ)) : ℕ := (l.map Prod.fst).prod

@[simp] theorem sizes_nil : sizes [] = 1 := rfl
@[simp] theorem sizes_cons (d : ℕ × ℕ) (l : List (ℕ × ℕ)) : sizes (d :: l) = d.1 * sizes l := by
  simp [sizes]
@[simp] theorem sizes_append (l m : List (ℕ × ℕ)) : sizes (l ++ m) = sizes l * sizes m := by
  simp [sizes]

theorem merges_append {x : ℕ} {l m : List (ℕ × ℕ)} (h : Merges x (l ++ m)) :
    Merges x l ∧ Merges (x * sizes l) m := by
  induction l generalizing x with
  | nil => simpa [Merges] using h
  | cons d l ih =>
    rcases h with ⟨h1, h2⟩ | ⟨h1, h2⟩
    · obtain ⟨a, b⟩ := ih h2
      refine ⟨Or.inl ⟨h1, a⟩, ?_⟩
      simpa [h1] using b
    · obtain ⟨a, b⟩ := ih h2
      refine ⟨Or.inr ⟨h1, a⟩, ?_⟩
      simpa [mul_assoc] using b

/-- The new dimensions are those of the old blocks: every block of old dimensions that continue each
other is covered by new dimensions with the same number of elements (all lists last one first). -/
inductive Fits : List (ℕ × ℕ) → List ℕ → Prop
  | nil : Fits [] []
  | block {x : ℕ} {b : List (ℕ × ℕ)} {nb : List ℕ} {old : List (ℕ × ℕ)} {new : List ℕ} :
      Merges x b → nb.prod = sizes b → Fits old new → Fits (b ++ old) (nb ++ new)

theorem Fits.prod {old : List (ℕ × ℕ)} {new : List ℕ} (h : Fits old new) : new.prod = sizes old := by
  induction h with
  | nil => rfl
  | block _ h1 _ ih => simp [h1, ih]

theorem Fits.drop {old : List (ℕ × ℕ)} {new : List ℕ} (h : Fits old new) :
    Fits old (new.dropWhile (fun n => decide (n = 1))) := by
  induction h with
  | nil => exact .nil
  | @block x b nb old new h1 h2 h3 ih =>
    by_cases hn : ∀ n ∈ nb, decide (n = 1) = true
    · rw [List.dropWhile_append_of_pos hn]
      have : nb.prod = 1 := List.prod_eq_one (fun n hx => by simpa using hn n hx)
      exact Fits.block (nb := []) h1 (by simpa [this] using h2) ih
    · have : ∀ l : List ℕ, (¬ ∀ n ∈ l, decide (n = 1) = true) →
          (l ++ new).dropWhile (fun n => decide (n = 1)) =
            l.dropWhile (fun n => decide (n = 1)) ++ new ∧
          (l.dropWhile (fun n => decide (n = 1))).prod = l.prod := by
        intro l hl
        induction l with
        | nil => simp at hl
        | cons n l il =>
          by_cases hn1 : n = 1
          · subst hn1
            have := il (by simpa using hl)
            simpa using this
          · simp [hn1]
      obtain ⟨e1, e2⟩ := this nb hn
      rw [e1]
      exact Fits.block h1 (e2.trans h2) h3

theorem viewChunk_spec (base tn : ℕ) (A rest : List ℕ) (vn : ℕ) (acc : List ℕ)
    (hp : 0 < tn) (h : vn * A.prod = tn) :
    (viewChunk base tn vn (A ++ rest) acc).1 = tn ∧
    (viewChunk base tn vn (A ++ rest) acc).2.1 = rest.dropWhile (fun n => decide (n = 1)) := by
  induction A generalizing vn acc with
  | nil =>
    simp only [List.prod_nil, mul_one] at h
    subst h
    simp only [List.nil_append]
    induction rest generalizing acc with
    | nil => simp [viewChunk]
    | cons n rest ir =>
      by_cases hn : n = 1
      · subst hn
        simp only [viewChunk, or_true, if_true, mul_one]
        simpa using ir (vn * base :: acc)
      · simp [viewChunk, hn]
  | cons n A ih =>
    have hc : vn < tn ∨ n = 1 := by
      by_contra hcon
      push Not at hcon
      obtain ⟨h1, h2⟩ := hcon
      rw [List.prod_cons] at h
      have hv : 0 < vn := Nat.pos_of_ne_zero (by rintro rfl; simp at h; omega)
      have hn0 : n ≠ 0 := by rintro rfl; simp at h; omega
      have hA : 0 < A.prod := Nat.pos_of_ne_zero (by intro h0; rw [h0] at h; simp at h; omega)
      have : 2 ≤ n := by omega
      have : vn * 2 ≤ vn * (n * A.prod) := Nat.mul_le_mul_left _ (by nlinarith)
      omega
    have e : viewChunk base tn vn (n :: A ++ rest) acc =
        viewChunk base tn (vn * n) (A ++ rest) (vn * base :: acc) := by
      rw [List.cons_append, viewChunk, if_pos hc]
    rw [e]
    exact ih _ _ (by rw [← h, List.prod_cons, mul_assoc])

theorem viewChunk_length (base tn : ℕ) (new : List ℕ) (vn : ℕ) (acc : List ℕ) :
    (viewChunk base tn vn new acc).2.1.length + (viewChunk base tn vn new acc).2.2.length =
      new.length + acc.length := by
  induction new generalizing vn acc with
  | nil => simp [viewChunk]
  | cons n ns ih =>
    by_cases hc : vn < tn ∨ n = 1
    · rw [viewChunk, if_pos hc, ih]
      simp only [List.length_cons]
      omega
    · rw [viewChunk, if_neg hc]

/-- What holds inside a chunk: `tn` elements so far, the pending new dimensions begin with those of the
chunk and of the rest `c` of the current block. -/
def InChunk (base tn : ℕ) (ds : List (ℕ × ℕ)) (new : List ℕ) : Prop :=
  ∃ c ds' A B, ds = c ++ ds' ∧ new = A ++ B ∧ A.prod = tn * sizes c ∧ Merges (tn * base) c ∧ Fits ds' B

theorem Fits.head {d : ℕ × ℕ} {ds : List (ℕ × ℕ)} {new : List ℕ} (h : Fits (d :: ds) new) :
    InChunk d.2 d.1 ds new := by
  generalize hold : d :: ds = old at h
  induction h with
  | nil => simp at hold
  | @block x b nb old new h1 h2 h3 ih =>
    cases b with
    | nil =>
      obtain ⟨c, ds', A, B, e1, e2, e3, e4, e5⟩ := ih (by simpa using hold)
      refine ⟨c, ds', nb ++ A, B, e1, by rw [e2, List.append_assoc], ?_, e4, e5⟩
      rw [List.prod_append, h2, e3, sizes_nil, one_mul]
    | cons d' b =>
      obtain ⟨rfl, rfl⟩ : d = d' ∧ ds = b ++ old := by simpa using hold
      rcases h1 with ⟨a1, a2⟩ | ⟨a1, a2⟩
      · refine ⟨[], b ++ old, [], nb ++ new, rfl, rfl, by simp [a1], trivial, ?_⟩
        exact Fits.block a2 (by simpa [a1] using h2) h3
      · refine ⟨b, old, nb, new, rfl, rfl, by simpa using h2, ?_, h3⟩
        rw [a1, mul_comm]
        exact a2

theorem Fits.tail_one {d : ℕ × ℕ} {ds : List (ℕ × ℕ)} {new : List ℕ} (h : Fits (d :: ds) new)
    (hd : d.1 = 1) : Fits ds new := by
  generalize hold : d :: ds = old at h
  induction h with
  | nil => simp at hold
  | @block x b nb old new h1 h2 h3 ih =>
    cases b with
    | nil =>
      exact Fits.block (x := 0) (b := []) trivial (by simpa using h2) (ih (by simpa using hold))
    | cons d' b =>
      obtain ⟨rfl, rfl⟩ : d = d' ∧ ds = b ++ old := by simpa using hold
      refine Fits.block (x := x) ?_ (by simpa [hd] using h2) h3
      rcases h1 with ⟨a1, a2⟩ | ⟨a1, a2⟩
      · exact a2
      · simpa [hd] using a2

theorem viewLoop_some (base tn : ℕ) (d : ℕ × ℕ) (ds : List (ℕ × ℕ)) (new acc : List ℕ)
    (hpos : 0 < tn * d.1 * sizes ds) (h : InChunk base (tn * d.1) ds new) :
    ∃ r, viewLoop base tn (d :: ds) new acc = some r := by
  induction ds generalizing base tn d new acc with
  | nil =>
    obtain ⟨c, ds', A, B, e1, rfl, e3, _, e5⟩ := h
    obtain ⟨rfl, rfl⟩ : c = [] ∧ ds' = [] := by
      have := e1.symm
      simpa using this
    have hp : 0 < tn * d.1 := by simpa using hpos
    obtain ⟨q1, q2⟩ := viewChunk_spec base (tn * d.1) A B 1 acc hp (by simpa using e3)
    have hB : B.dropWhile (fun n => decide (n = 1)) = [] := by
      have h1 : ∀ l : List ℕ, l.prod = 1 → l.dropWhile (fun n => decide (n = 1)) = [] := by
        intro l
        induction l with
        | nil => exact fun _ => rfl
        | cons a l il =>
          intro hl
          rw [List.prod_cons] at hl
          have ha := Nat.eq_one_of_mul_eq_one_right hl
          rw [ha, one_mul] at hl
          simpa [ha] using il hl
      exact h1 B e5.prod
    exact ⟨_, by rw [viewLoop, if_pos ⟨q1, q2.trans hB⟩]⟩
  | cons d' ds ih =>
    obtain ⟨c, ds', A, B, e1, rfl, e3, e4, e5⟩ := h
    have hp : 0 < tn * d.1 := Nat.pos_of_ne_zero (by intro h0; rw [h0] at hpos; simp at hpos)
    have hp' : 0 < sizes (d' :: ds) :=
      Nat.pos_of_ne_zero (by intro h0; rw [h0] at hpos; simp at hpos)
    rw [viewLoop]
    by_cases hc : d'.1 ≠ 1 ∧ d'.2 ≠ tn * d.1 * base
    · rw [if_pos hc]
      have : c = [] := by
        cases c with
        | nil => rfl
        | cons d'' c =>
          obtain ⟨rfl, -⟩ : d' = d'' ∧ ds = c ++ ds' := by simpa using e1
          rcases e4 with ⟨a, _⟩ | ⟨a, _⟩
          · exact absurd a hc.1
          · exact absurd a hc.2
      subst this
      obtain ⟨q1, q2⟩ := viewChunk_spec base (tn * d.1) A B 1 acc hp (by simpa using e3)
      rw [if_pos q1, q2]
      have hf : Fits (d' :: ds) B := by simpa [e1] using e5
      refine ih _ _ _ _ _ (by simpa using hp') ?_
      rw [one_mul]
      exact hf.drop.head
    · rw [if_neg hc]
      refine ih _ _ _ _ _ (by simpa [mul_assoc] using hpos) ?_
      cases c with
      | nil =>
        have hf : Fits (d' :: ds) B := by simpa [e1] using e5
        by_cases h1 : d'.1 = 1
        · refine ⟨[], ds, A, B, rfl, rfl, by simpa [h1] using e3, trivial, hf.tail_one h1⟩
        · have h2 : d'.2 = tn * d.1 * base := by
            by_contra h2
            exact hc ⟨h1, h2⟩
          obtain ⟨c, ds', A', B', a1, rfl, a3, a4, a5⟩ := hf.head
          refine ⟨c, ds', A ++ A', B', a1, by rw [List.append_assoc], ?_, ?_, a5⟩
          · rw [List.prod_append, e3, a3, sizes_nil]
            ring
          · rw [h2] at a4
            convert a4 using 1
            ring
      | cons d'' c =>
        obtain ⟨rfl, rfl⟩ : d' = d'' ∧ ds = c ++ ds' := by simpa using e1
        refine ⟨c, ds', A, B, rfl, rfl, ?_, ?_, e5⟩
        · rw [e3, sizes_cons]
          ring
        · rcases e4 with ⟨a, b⟩ | ⟨a, b⟩
          · simpa [a] using b
          · convert b using 1
            ring

theorem viewLoop_length (base tn : ℕ) (old : List (ℕ × ℕ)) (new acc r : List ℕ)
    (h : viewLoop base tn old new acc = some r) : r.length = new.length + acc.length := by
  induction old generalizing base tn new acc with
  | nil => simp [viewLoop] at h
  | cons d ds ih =>
    cases ds with
    | nil =>
      rw [viewLoop] at h
      split_ifs at h with hc
      have := viewChunk_length base (tn * d.1) new 1 acc
      rw [hc.2] at this
      simp only [Option.some.injEq] at h
      rw [← h]
      simpa using this
    | cons d' ds =>
      rw [viewLoop] at h
      split_ifs at h with hc
      · dsimp only at h
        split_ifs at h with h2
        have := viewChunk_length base (tn * d.1) new 1 acc
        rw [ih _ _ _ _ h]
        omega
      · exact ih _ _ _ _ h

theorem contigStr_length (s : List ℕ) : (contigStr s).length = s.length := by
  induction s with
  | nil => rfl
  | cons d ds ih => simp [contigStr, ih]

theorem computeStride_length {shape str new r : List ℕ} (hl : str.length = shape.length)
    (h : computeStride shape str new = some r) : r.length = new.length := by
  rw [computeStride] at h
  split_ifs at h with h1 h2 h3
  · simp only [Option.some.injEq] at h
    rw [← h, List.length_map]
  · simp only [Option.some.injEq] at h
    rw [← h, hl, h3]
  · simp only [Option.some.injEq] at h
    rw [← h, contigStr_length]
  · cases hz : (shape.zip str).reverse with
    | nil => rw [hz] at h; simp at h
    | cons d ds =>
      rw [hz] at h
      simpa using viewLoop_length _ _ _ _ _ _ h

theorem sizes_zip_reverse {shape str : List ℕ} (hl : str.length = shape.length) :
    sizes (shape.zip str).reverse = shape.prod := by
  rw [sizes, List.map_reverse, List.map_fst_zip (by omega), List.prod_reverse]

theorem computeStride_of_fits {shape str new : List ℕ} (hl : str.length = shape.length)
    (h : shape.prod = 0 ∨ Fits (shape.zip str).reverse new.reverse) :
    ∃ r, computeStride shape str new = some r := by
  rw [computeStride]
  by_cases h1 : shape = []
  · exact ⟨_, if_pos h1⟩
  rw [if_neg h1]
  by_cases h2 : shape.prod = 0
  · exact ⟨_, if_pos h2⟩
  rw [if_neg h2]
  have hf := h.resolve_left h2
  have hs := sizes_zip_reverse hl
  cases hz : (shape.zip str).reverse with
  | nil =>
    have := congrArg List.length hz
    simp [hl] at this
    exact absurd this h1
  | cons d ds =>
    rw [hz] at hf hs
    refine viewLoop_some _ _ _ _ _ _ ?_ ?_
    · rw [one_mul, ← sizes_cons, hs]
      omega
    · rw [one_mul]
      exact hf.head

/-! ## The cases that occur -/

/-- The strides are those of a contiguous tensor, except along dimensions of size one (and for tensors
without elements). -/
def Dense (shape str : List ℕ) : Prop :=
  shape.prod = 0 ∨ Merges 1 (shape.zip str).reverse

theorem Fits.one {x : ℕ} {b : List (ℕ × ℕ)} {new : List ℕ} (h : Merges x b)
    (hp : new.prod = sizes b) : Fits b new := by
  have := Fits.block h hp Fits.nil
  simpa using this

theorem stride_dense {shape str new : List ℕ} (hl : str.length = shape.length)
    (h : Dense shape str) (hp : new.prod = shape.prod) : ∃ r, computeStride shape str new = some r := by
  refine computeStride_of_fits hl (h.imp id fun hm => Fits.one hm ?_)
  rw [List.prod_reverse, hp, sizes_zip_reverse hl]

/-- Splitting the dimensions of a matrix. -/
theorem stride_split {m n a b : ℕ} {A B : List ℕ} (hA : A.prod = m) (hB : B.prod = n) :
    ∃ r, computeStride [m, n] [a, b] (A ++ B) = some r := by
  refine computeStride_of_fits rfl (Or.inr ?_)
  have h1 : Merges b [(n, b)] := Or.inr ⟨rfl, trivial⟩
  have h2 : Merges a [(m, a)] := Or.inr ⟨rfl, trivial⟩
  have := Fits.block (nb := B.reverse) h1 (by rw [List.prod_reverse, hB]; simp)
    (Fits.one (new := A.reverse) h2 (by rw [List.prod_reverse, hA]; simp))
  simpa using this

theorem merges_contig (s : List ℕ) (h : s.prod ≠ 0) : Merges 1 (s.zip (contigStr s)).reverse := by
  have key : ∀ (l : List (ℕ × ℕ)) (x : ℕ) (d : ℕ × ℕ), Merges x l → d.2 = x * sizes l →
      Merges x (l ++ [d]) := by
    intro l
    induction l with
    | nil => exact fun x d _ h => Or.inr ⟨by simpa using h, trivial⟩
    | cons e l ih =>
      intro x d hm hd
      rcases hm with ⟨a, b⟩ | ⟨a, b⟩
      · exact Or.inl ⟨a, ih _ _ b (by simpa [a] using hd)⟩
      · refine Or.inr ⟨a, ih _ _ b ?_⟩
        rw [hd, sizes_cons]
        ring
  induction s with
  | nil => trivial
  | cons d ds ih =>
    rw [List.prod_cons] at h
    have hds : ds.prod ≠ 0 := right_ne_zero_of_mul h
    rw [contigStr, List.zip_cons_cons, List.reverse_cons]
    refine key _ _ _ (ih hds) ?_
    have : ∀ l : List ℕ, l.prod ≠ 0 → (l.map (max 1)).prod = l.prod := by
      intro l
      induction l with
      | nil => simp
      | cons a l il =>
        intro hl
        rw [List.prod_cons] at hl
        have ha : a ≠ 0 := left_ne_zero_of_mul hl
        rw [List.map_cons, List.prod_cons, List.prod_cons, il (right_ne_zero_of_mul hl),
          max_eq_right (by omega)]
    rw [this ds hds, one_mul, sizes_zip_reverse (contigStr_length ds)]

theorem dense_contig (s : List ℕ) : Dense s (contigStr s) := by
  by_cases h : s.prod = 0
  · exact Or.inl h
  · exact Or.inr (merges_contig s h)

/-! ## What a view reads -/

/-- Position in memory of the `n`-th element (row-major) of a tensor whose dimensions, last one first,
have the given sizes and strides. -/
def addrOf : List (ℕ × ℕ) → ℕ → ℕ
  | [], _ => 0
  | d :: l, n => d.2 * (n % d.1) + addrOf l (n / d.1)

theorem addrOf_zero (l : List (ℕ × ℕ)) : addrOf l 0 = 0 := by
  induction l with
  | nil => rfl
  | cons d l ih => simp [addrOf, ih]

/-- The dimensions a chunk has taken address it with stride `base`. -/
theorem viewChunk_addr (base tn : ℕ) (new : List ℕ) (vn : ℕ) (acc : List ℕ) :
    ∃ A q, new = A ++ (viewChunk base tn vn new acc).2.1 ∧
      (viewChunk base tn vn new acc).2.2 = q.reverse ++ acc ∧ q.length = A.length ∧
      (viewChunk base tn vn new acc).1 = vn * A.prod ∧
      ∀ l n, addrOf (A.zip q ++ l) n = vn * base * (n % A.prod) + addrOf l (n / A.prod) := by
  induction new generalizing vn acc with
  | nil => exact ⟨[], [], by simp [viewChunk, Nat.mod_one]⟩
  | cons m ns ih =>
    by_cases hc : vn < tn ∨ m = 1
    · rw [viewChunk, if_pos hc]
      obtain ⟨A, q, h1, h2, h3, h4, h5⟩ := ih (vn * m) (vn * base :: acc)
      refine ⟨m :: A, vn * base :: q, ?_, ?_, ?_, ?_, ?_⟩
      · rw [List.cons_append, ← h1]
      · rw [h2]; simp
      · simp [h3]
      · rw [h4, List.prod_cons, mul_assoc]
      · intro l n
        rw [List.zip_cons_cons, List.cons_append, addrOf, h5, List.prod_cons, Nat.mod_mul,
          Nat.div_div_eq_div_mul]
        ring
    · rw [viewChunk, if_neg hc]
      exact ⟨[], [], by simp [Nat.mod_one]⟩

theorem viewLoop_addr (base tn : ℕ) (d : ℕ × ℕ) (ds : List (ℕ × ℕ)) (new acc r : List ℕ)
    (h : viewLoop base tn (d :: ds) new acc = some r) :
    ∃ q, r = q.reverse ++ acc ∧ q.length = new.length ∧
      ∀ n, addrOf (new.zip q) n = addrOf ((tn * d.1, base) :: ds) n := by
  induction ds generalizing base tn d new acc with
  | nil =>
    rw [viewLoop] at h
    split_ifs at h with hc
    obtain ⟨A, q, h1, h2, h3, h4, h5⟩ := viewChunk_addr base (tn * d.1) new 1 acc
    rw [hc.2, List.append_nil] at h1
    subst h1
    refine ⟨q, ?_, h3, ?_⟩
    · simp only [Option.some.injEq] at h
      rw [← h, h2]
    · intro n
      have := h5 [] n
      rw [List.append_nil] at this
      rw [this, addrOf, addrOf, addrOf, ← hc.1, h4, one_mul, one_mul]
  | cons d' ds ih =>
    rw [viewLoop] at h
    split_ifs at h with hc
    · dsimp only at h
      split_ifs at h with h6
      obtain ⟨A, q, h1, h2, h3, h4, h5⟩ := viewChunk_addr base (tn * d.1) new 1 acc
      obtain ⟨q', g1, g2, g3⟩ := ih _ _ _ _ _ h
      refine ⟨q ++ q', ?_, ?_, ?_⟩
      · rw [g1, h2]; simp
      · rw [List.length_append, h3, g2]
        conv_rhs => rw [h1]
        rw [List.length_append]
      · intro n
        conv_lhs => rw [h1]
        rw [List.zip_append h3.symm, h5, g3, one_mul, one_mul]
        change _ = base * (n % (tn * d.1)) + addrOf (d' :: ds) (n / (tn * d.1))
        rw [← h6, h4, one_mul]
    · obtain ⟨q, g1, g2, g3⟩ := ih _ _ _ _ _ h
      refine ⟨q, g1, g2, ?_⟩
      intro n
      rw [g3]
      rw [addrOf, addrOf, addrOf]
      dsimp only
      rw [Nat.mod_mul, Nat.div_div_eq_div_mul]
      by_cases h1 : d'.1 = 1
      · rw [h1]; simp [Nat.mod_one]
      · have h2 : d'.2 = tn * d.1 * base := by
          by_contra h2
          exact hc ⟨h1, h2⟩
        rw [h2]
        ring

theorem reverse_zip' {a b : List ℕ} (h : a.length = b.length) :
    (a.zip b).reverse = a.reverse.zip b.reverse := by
  rw [List.zip_eq_zipWith, List.zip_eq_zipWith, List.reverse_zipWith h]

/-- A view has the elements of the reshaped tensor: element `n` of both is the same memory. -/
theorem computeStride_addr {shape str new r : List ℕ}
    (hl : str.length = shape.length) (hp : new.prod = shape.prod)
    (h : computeStride shape str new = some r) (n : ℕ) (hn : n < shape.prod) :
    addrOf (new.zip r).reverse n = addrOf (shape.zip str).reverse n := by
  rw [computeStride] at h
  by_cases h1 : shape = []
  · subst h1
    have : n = 0 := by simpa using hn
    subst this
    rw [addrOf_zero, addrOf_zero]
  rw [if_neg h1, if_neg (by omega)] at h
  cases hz : (shape.zip str).reverse with
  | nil => rw [hz] at h; simp at h
  | cons d ds =>
    rw [hz] at h
    obtain ⟨q, g1, g2, g3⟩ := viewLoop_addr _ _ _ _ _ _ _ h
    rw [List.append_nil] at g1
    rw [one_mul] at g3
    rw [reverse_zip' (by rw [g1, List.length_reverse, g2, List.length_reverse]), g1,
      List.reverse_reverse]
    exact g3 n

theorem merges_addr {x : ℕ} {l : List (ℕ × ℕ)} (h : Merges x l) (n : ℕ) (hn : n < sizes l) :
    addrOf l n = x * n := by
  induction l generalizing x n with
  | nil => 
    have : n = 0 := by simpa using hn
    simp [this, addrOf]
  | cons d l ih =>
    rw [sizes_cons] at hn
    rcases h with ⟨a, b⟩ | ⟨a, b⟩
    · rw [addrOf, a, Nat.mod_one, Nat.div_one, ih b n (by simpa [a] using hn)]
      ring
    · rw [addrOf, a, ih b _ (Nat.div_lt_of_lt_mul hn)]
      conv_rhs => rw [← Nat.mod_add_div n d.1]
      ring

theorem merges_of_addr {x : ℕ} {l : List (ℕ × ℕ)} (hp : 0 < sizes l)
    (h : ∀ n, n < sizes l → addrOf l n = x * n) : Merges x l := by
  induction l generalizing x with
  | nil => trivial
  | cons d l ih =>
    rw [sizes_cons] at hp h
    have hl : 0 < sizes l := Nat.pos_of_mul_pos_left hp
    by_cases h1 : d.1 = 1
    · refine Or.inl ⟨h1, ih hl fun n hn => ?_⟩
      have := h n (by simpa [h1] using hn)
      simpa [addrOf, h1, Nat.mod_one] using this
    · have hd : 0 < d.1 := Nat.pos_of_mul_pos_right hp
      have h2 : 1 < d.1 := by omega
      have hx : d.2 = x := by
        have := h 1 (by nlinarith)
        simpa [addrOf, Nat.mod_eq_of_lt h2, Nat.div_eq_of_lt h2, addrOf_zero] using this
      refine Or.inr ⟨hx, ih hl fun n hn => ?_⟩
      have := h (d.1 * n) (Nat.mul_lt_mul_of_pos_left hn hd)
      rw [addrOf, Nat.mul_mod_right, Nat.mul_div_cancel_left _ hd] at this
      rw [← mul_assoc] at this
      simpa using this

theorem computeStride_dense {shape str new r : List ℕ} (hl : str.length = shape.length)
    (hd : Dense shape str) (hp : new.prod = shape.prod) (h : computeStride shape str new = some r) :
    Dense new r := by
  by_cases h0 : shape.prod = 0
  · exact Or.inl (hp.trans h0)
  have hr := computeStride_length hl h
  have hm := hd.resolve_left h0
  refine Or.inr (merges_of_addr ?_ fun n hn => ?_)
  · rw [sizes_zip_reverse hr]
    omega
  · rw [sizes_zip_reverse hr, hp] at hn
    rw [computeStride_addr hl hp h n hn, merges_addr hm n (by rwa [sizes_zip_reverse hl])]

end QTN
