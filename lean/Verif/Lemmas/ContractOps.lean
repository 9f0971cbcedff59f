import Verif.Lemmas.Embed
import Verif.Lemmas.Contract

/-! # Contractions as operators on states -/

namespace QTN

open Finset Spec Matrix

variable {N : ℕ}

theorem extend_two {c t : Fin N} (h : c ≠ t) (x : Bits 2) (a : Bits N) :
    Function.extend ![c, t] x a = Function.update (Function.update a c (x 0)) t (x 1) := by
  have hf : Function.Injective ![c, t] := by
    intro i j hij
    fin_cases i <;> fin_cases j <;> simp_all [Ne.symm h]
  funext j
  by_cases hj : j = t
  · subst hj
    rw [Function.update_self]
    exact hf.extend_apply x a 1
  · rw [Function.update_of_ne hj]
    by_cases hj' : j = c
    · subst hj'
      rw [Function.update_self]
      exact hf.extend_apply x a 0
    · rw [Function.update_of_ne hj']
      apply extend_off
      intro i
      fin_cases i
      · exact fun e => hj' e.symm
      · exact fun e => hj e.symm

theorem inj_two {c t : Fin N} (h : c ≠ t) : Function.Injective ![c, t] := by
  intro i j hij
  fin_cases i <;> fin_cases j <;> simp_all [Ne.symm h]

theorem inj_three {p q r : Fin N} (h1 : p ≠ q) (h2 : p ≠ r) (h3 : q ≠ r) :
    Function.Injective ![p, q, r] := by
  intro i j hij
  fin_cases i <;> fin_cases j <;> simp_all [Ne.symm h1, Ne.symm h2, Ne.symm h3]

theorem extend_three {p q r : Fin N} (h1 : p ≠ q) (h2 : p ≠ r) (h3 : q ≠ r) (x : Bits 3)
    (a : Bits N) : Function.extend ![p, q, r] x a =
      Function.update (Function.update (Function.update a p (x 0)) q (x 1)) r (x 2) := by
  have hf := inj_three h1 h2 h3
  funext j
  by_cases hr : j = r
  · subst hr
    rw [Function.update_self]
    exact hf.extend_apply x a 2
  rw [Function.update_of_ne hr]
  by_cases hq : j = q
  · subst hq
    rw [Function.update_self]
    exact hf.extend_apply x a 1
  rw [Function.update_of_ne hq]
  by_cases hp : j = p
  · subst hp
    rw [Function.update_self]
    exact hf.extend_apply x a 0
  rw [Function.update_of_ne hp]
  apply extend_off
  intro i
  fin_cases i
  · exact fun e => hp e.symm
  · exact fun e => hq e.symm
  · exact fun e => hr e.symm

theorem onQubit_mulVec (w : Fin N) (g : Mat2) (v : QState N) (a : Bits N) :
    (onQubit w g *ᵥ v) a = ∑ x : Fin 2, g (a w) x * v (Function.update a w x) := by
  have hf : Function.Injective (fun _ : Fin 1 => w) := fun i j _ => Subsingleton.elim i j
  rw [← embed_onQubit hf 0, embed_mulVec hf]
  rw [← (Equiv.funUnique (Fin 1) (Fin 2)).symm.sum_comp]
  apply Finset.sum_congr rfl
  intro x _
  have e1 : Function.extend (fun _ : Fin 1 => w) ((Equiv.funUnique (Fin 1) (Fin 2)).symm x) a =
      Function.update a w x := by
    funext j
    by_cases hj : j = w
    · subst hj; rw [Function.update_self]; exact hf.extend_apply _ a 0
    · rw [Function.update_of_ne hj]
      exact extend_off _ _ (fun i => fun e => hj e.symm)
  rw [e1]
  congr 1

theorem two_mulVec {c t : Fin N} (h : c ≠ t) (M : QOp 2) (v : QState N) (a : Bits N) :
    (embed ![c, t] M *ᵥ v) a = ∑ x : Bits 2, M ![a c, a t] x *
      v (Function.update (Function.update a c (x 0)) t (x 1)) := by
  rw [embed_mulVec (inj_two h)]
  apply Finset.sum_congr rfl
  intro x _
  rw [extend_two h]
  congr 2
  funext i; fin_cases i <;> rfl

theorem three_mulVec {p q r : Fin N} (h1 : p ≠ q) (h2 : p ≠ r) (h3 : q ≠ r) (M : QOp 3)
    (v : QState N) (a : Bits N) :
    (embed ![p, q, r] M *ᵥ v) a = ∑ x : Bits 3, M ![a p, a q, a r] x *
      v (Function.update (Function.update (Function.update a p (x 0)) q (x 1)) r (x 2)) := by
  rw [embed_mulVec (inj_three h1 h2 h3)]
  apply Finset.sum_congr rfl
  intro x _
  rw [extend_three h1 h2 h3]
  congr 2
  funext i; fin_cases i <;> rfl

/-! ## Indices as lists of numbers -/

/-- the numbers of a bit string -/
def nb (a : Bits N) : Fin N → ℕ := fun i => (a i : ℕ)

theorem nb_update (a : Bits N) (w : Fin N) (x : Fin 2) :
    Function.update (nb a) w (x : ℕ) = nb (Function.update a w x) := by
  funext j
  by_cases hj : j = w
  · subst hj; simp [nb]
  · simp [nb, Function.update_of_ne hj]

theorem nb_lt (a : Bits N) (i : Fin N) : nb a i < 2 := (a i).2

theorem cons_ofFn (k : ℕ) (a : Bits N) :
    List.ofFn (Fin.cons k (nb a) : Fin (N + 1) → ℕ) = k :: bl a := by
  rw [List.ofFn_succ]; rfl

theorem dims_cons (n : ℕ) :
    (n :: List.replicate N 2 : List ℕ) = List.ofFn (Fin.cons n (fun _ => 2) : Fin (N + 1) → ℕ) := by
  rw [List.ofFn_succ]; simp [List.ofFn_const]

theorem dims_const : (List.replicate N 2 : List ℕ) = List.ofFn (fun _ : Fin N => 2) := by
  rw [List.ofFn_const]

theorem cons_nb_lt {n k : ℕ} (hk : k < n) (a : Bits N) (i : Fin (N + 1)) :
    (Fin.cons k (nb a) : Fin (N + 1) → ℕ) i < (Fin.cons n (fun _ => 2) : Fin (N + 1) → ℕ) i := by
  refine Fin.cases ?_ (fun i => ?_) i
  · simpa using hk
  · simpa using nb_lt a i

theorem sum_four (F : ℕ → ℂ) : ∑ u ∈ range 4, F u = ∑ x : Bits 2, F (enc x) := sum_enc 2 F
theorem sum_eight (F : ℕ → ℂ) : ∑ u ∈ range 8, F u = ∑ x : Bits 3, F (enc x) := sum_enc 3 F

theorem enc_two_div (x : Bits 2) : enc x / 2 = (x 0 : ℕ) ∧ enc x % 2 = (x 1 : ℕ) := by
  rw [enc_two]; omega

theorem enc_three_div (x : Bits 3) :
    enc x / 4 = (x 0 : ℕ) ∧ enc x / 2 % 2 = (x 1 : ℕ) ∧ enc x % 2 = (x 2 : ℕ) := by
  rw [enc_three]; omega

theorem enc_pair (x y : Fin 2) : enc ![x, y] = (x : ℕ) * 2 + y := by rw [enc_two]; rfl
theorem enc_triple (x y z : Fin 2) : enc ![x, y, z] = (x : ℕ) * 4 + (y : ℕ) * 2 + z := by
  rw [enc_three]; rfl

/-! ## One wire -/

theorem contract1_ten {m T : Tensor ℂ} {g : Mat2} (w : Fin N) (hm : Represents2 m g) {v : QState N}
    (hT : IsTen T v) :
    ∃ T', Gate.contract1 m T (N : ℤ) (wire w) = .ok T' ∧ IsTen T' (onQubit w g *ᵥ v) := by
  obtain ⟨T', h, s, e⟩ := contract1_get (d := fun _ : Fin N => 2) w hm.1
    (hT.1.trans dims_const) rfl
  refine ⟨T', h, s.trans dims_const.symm, fun a => ?_⟩
  have := e (nb a) (nb_lt a)
  rw [Finset.sum_range] at this
  rw [onQubit_mulVec]
  refine this.trans (Finset.sum_congr rfl fun x _ => ?_)
  rw [nb_update]
  show m.get [((a w : Fin 2) : ℕ), x] * _ = _
  rw [hm.2, ← hT.2]
  rfl

theorem contract1_batch {m T : Tensor ℂ} {g : Mat2} (w : Fin N) (hm : Represents2 m g) {n : ℕ}
    {v : Fin n → QState N} (hT : IsBatch T n v) :
    ∃ T', Gate.contract1 m T ((N : ℤ) + 1) (wire w + 1) = .ok T' ∧
      IsBatch T' n (fun k => onQubit w g *ᵥ v k) := by
  obtain ⟨T', h, s, e⟩ := contract1_get (d := (Fin.cons n (fun _ => 2) : Fin (N + 1) → ℕ)) w.succ
    hm.1 (hT.1.trans (dims_cons n)) (by simp)
  refine ⟨T', ?_, s.trans (dims_cons n).symm, fun k a => ?_⟩
  · rw [← h]; simp
  have := e (Fin.cons (k : ℕ) (nb a)) (cons_nb_lt k.2 a)
  rw [Finset.sum_range, cons_ofFn] at this
  beta_reduce
  rw [onQubit_mulVec]
  refine this.trans (Finset.sum_congr rfl fun x _ => ?_)
  rw [← Fin.cons_update, nb_update, cons_ofFn, Fin.cons_succ]
  show m.get [((a w : Fin 2) : ℕ), x] * _ = _
  rw [hm.2, hT.2]

/-! ## Two wires -/

theorem pyRep_two (n : ℕ) : pyRep (2 : ℤ) (n : ℤ) = (List.replicate n 2).map (fun k : ℕ => (k : ℤ)) := by
  simp [pyRep]

theorem contract2_ten {m T : Tensor ℂ} {M : QOp 2} {c t : Fin N} (h : c ≠ t) (hm : Represents m M)
    {v : QState N} (hT : IsTen T v) :
    ∃ T', Gate.contract2 m T (N : ℤ) (wire c) (wire t) (fun _ => pyRep 2 (N : ℤ)) = .ok T' ∧
      IsTen T' (embed ![c, t] M *ᵥ v) := by
  obtain ⟨n, rfl⟩ : ∃ n, N = n + 2 := by
    have := c.2; have := t.2
    have : (c : ℕ) ≠ t := fun e => h (Fin.ext e)
    exact ⟨N - 2, by omega⟩
  obtain ⟨T', h', s, e⟩ := contract2_get (d := fun _ : Fin (n + 2) => 2) c t h hm.1
    (hT.1.trans dims_const) rfl rfl (out := fun _ => pyRep 2 ((n + 2 : ℕ) : ℤ)) (by
      rw [pyRep_two]
      simp [List.ofFn_const, List.replicate_add])
  refine ⟨T', h', s.trans dims_const.symm, fun a => ?_⟩
  have := e (nb a) (nb_lt a)
  rw [sum_four] at this
  rw [two_mulVec h]
  refine this.trans (Finset.sum_congr rfl fun x _ => ?_)
  obtain ⟨e1, e2⟩ := enc_two_div x
  rw [e1, e2, nb_update, nb_update]
  show m.get [((a c : Fin 2) : ℕ) * 2 + ((a t : Fin 2) : ℕ), _] * _ = _
  rw [← enc_pair, hm.2, ← hT.2]
  rfl

theorem cons_dims_perm {n B : ℕ} {σ : Equiv.Perm (Fin (n + 1))} (h0 : σ 0 = 0) (i : Fin (n + 1)) :
    (Fin.cons B (fun _ => 2) : Fin (n + 1) → ℕ) (σ i) = if i = 0 then B else 2 := by
  by_cases hi : i = 0
  · subst hi; rw [h0]; simp
  · rw [if_neg hi]
    have : σ i ≠ 0 := fun e => hi (σ.injective (e.trans h0.symm))
    obtain ⟨j, hj⟩ := Fin.exists_succ_eq.2 this
    rw [← hj, Fin.cons_succ]

theorem contract2_batch {m T : Tensor ℂ} {M : QOp 2} {c t : Fin N} (h : c ≠ t)
    (hm : Represents m M) {B : ℕ} {v : Fin B → QState N} (hT : IsBatch T B v) :
    ∃ T', Gate.contract2 m T ((N : ℤ) + 1) (wire c + 1) (wire t + 1)
        (fun s => (s.getD 0 0 : ℤ) :: pyRep 2 (N : ℤ)) = .ok T' ∧
      IsBatch T' B (fun k => embed ![c, t] M *ᵥ v k) := by
  obtain ⟨n, rfl⟩ : ∃ n, N = n + 2 := by
    have := c.2; have := t.2
    have : (c : ℕ) ≠ t := fun e => h (Fin.ext e)
    exact ⟨N - 2, by omega⟩
  have hs : c.succ ≠ t.succ := fun e => h (Fin.succ_injective _ e)
  have h0 : pairPerm c.succ t.succ hs 0 = 0 := by
    apply Fin.ext
    show pairF (n + 3) (c.succ : ℕ) (t.succ : ℕ) 0 = 0
    unfold pairF
    simp
  have hpre : List.ofFn (fun i : Fin (n + 1) => (Fin.cons B (fun _ => 2) : Fin (n + 3) → ℕ)
      (pairPerm c.succ t.succ hs i.castSucc.castSucc)) = B :: List.replicate n 2 := by
    rw [dims_cons]
    congr 1
    funext i
    rw [cons_dims_perm h0]
    refine Fin.cases ?_ (fun i => ?_) i
    · simp
    · rw [Fin.cons_succ, if_neg]
      intro e
      have := congrArg Fin.val e
      simp at this
  obtain ⟨T', h', s, e⟩ := contract2_get (n := n + 1)
    (d := (Fin.cons B (fun _ => 2) : Fin (n + 3) → ℕ)) c.succ t.succ hs hm.1
    (hT.1.trans (dims_cons B)) (by simp) (by simp)
    (out := fun s => (s.getD 0 0 : ℤ) :: pyRep 2 ((n + 2 : ℕ) : ℤ)) (by
      rw [hpre, pyRep_two]
      simp [List.replicate_add])
  refine ⟨T', ?_, s.trans (dims_cons B).symm, fun k a => ?_⟩
  · rw [← h']; simp; ring_nf
  have := e (Fin.cons (k : ℕ) (nb a)) (cons_nb_lt k.2 a)
  rw [sum_four, cons_ofFn] at this
  beta_reduce
  rw [two_mulVec h]
  refine this.trans (Finset.sum_congr rfl fun x _ => ?_)
  obtain ⟨e1, e2⟩ := enc_two_div x
  rw [e1, e2, ← Fin.cons_update, ← Fin.cons_update, nb_update, nb_update, cons_ofFn, Fin.cons_succ,
    Fin.cons_succ]
  show m.get [((a c : Fin 2) : ℕ) * 2 + ((a t : Fin 2) : ℕ), _] * _ = _
  rw [← enc_pair, hm.2, hT.2]

/-! ## Three wires -/

theorem contract3_ten {m T : Tensor ℂ} {M : QOp 3} {p q r : Fin N} (h1 : p ≠ q) (h2 : p ≠ r)
    (h3 : q ≠ r) (hm : Represents m M) {v : QState N} (hT : IsTen T v) :
    ∃ T', Gate.contract3 m T (N : ℤ) (wire p) (wire q) (wire r) (fun _ => pyRep 2 (N : ℤ)) = .ok T' ∧
      IsTen T' (embed ![p, q, r] M *ᵥ v) := by
  have n1 : (p : ℕ) ≠ q := fun e => h1 (Fin.ext e)
  have n2 : (p : ℕ) ≠ r := fun e => h2 (Fin.ext e)
  have n3 : (q : ℕ) ≠ r := fun e => h3 (Fin.ext e)
  obtain ⟨n, rfl⟩ : ∃ n, N = n + 3 := by
    have := p.2; have := q.2; have := r.2
    exact ⟨N - 3, by omega⟩
  obtain ⟨x, y, z, hsort⟩ := exists_sorted3 n1 n2 n3
  obtain ⟨T', h', s, e⟩ := contract3_get (d := fun _ : Fin (n + 3) => 2) p q r hsort hm.1
    (hT.1.trans dims_const) rfl rfl rfl (out := fun _ => pyRep 2 ((n + 3 : ℕ) : ℤ)) (by
      rw [pyRep_two]
      simp [List.ofFn_const, List.replicate_add])
  refine ⟨T', h', s.trans dims_const.symm, fun a => ?_⟩
  have := e (nb a) (nb_lt a)
  rw [sum_eight] at this
  rw [three_mulVec h1 h2 h3]
  refine this.trans (Finset.sum_congr rfl fun x _ => ?_)
  obtain ⟨e1, e2, e3⟩ := enc_three_div x
  rw [e1, e2, e3, nb_update, nb_update, nb_update]
  show m.get [((a p : Fin 2) : ℕ) * 4 + ((a q : Fin 2) : ℕ) * 2 + ((a r : Fin 2) : ℕ), _] * _ = _
  rw [← enc_triple, hm.2, ← hT.2]
  rfl

theorem contract3_batch {m T : Tensor ℂ} {M : QOp 3} {p q r : Fin N} (h1 : p ≠ q) (h2 : p ≠ r)
    (h3 : q ≠ r) (hm : Represents m M) {B : ℕ} {v : Fin B → QState N} (hT : IsBatch T B v) :
    ∃ T', Gate.contract3 m T ((N : ℤ) + 1) (wire p + 1) (wire q + 1) (wire r + 1)
        (fun s => (s.getD 0 0 : ℤ) :: pyRep 2 (N : ℤ)) = .ok T' ∧
      IsBatch T' B (fun k => embed ![p, q, r] M *ᵥ v k) := by
  have n1 : (p : ℕ) ≠ q := fun e => h1 (Fin.ext e)
  have n2 : (p : ℕ) ≠ r := fun e => h2 (Fin.ext e)
  have n3 : (q : ℕ) ≠ r := fun e => h3 (Fin.ext e)
  obtain ⟨n, rfl⟩ : ∃ n, N = n + 3 := by
    have := p.2; have := q.2; have := r.2
    exact ⟨N - 3, by omega⟩
  obtain ⟨x, y, z, hsort⟩ := exists_sorted3 (p := (p.succ : ℕ)) (q := (q.succ : ℕ))
    (r := (r.succ : ℕ)) (by simpa using n1) (by simpa using n2) (by simpa using n3)
  have hx : 0 < x := by
    have a1 : (p.succ : ℕ) ≠ 0 := by simp
    have a2 : (q.succ : ℕ) ≠ 0 := by simp
    have a3 : (r.succ : ℕ) ≠ 0 := by simp
    rcases hsort.perm with ⟨b1, b2, b3⟩ | ⟨b1, b2, b3⟩ | ⟨b1, b2, b3⟩ | ⟨b1, b2, b3⟩ | ⟨b1, b2, b3⟩ |
      ⟨b1, b2, b3⟩ <;> omega
  have h0 : tripPerm p.succ q.succ r.succ hsort 0 = 0 := by
    apply Fin.ext
    show tripF (n + 4) (p.succ : ℕ) (q.succ : ℕ) (r.succ : ℕ) x y z 0 = 0
    unfold tripF
    simp [hx]
  have hpre : List.ofFn (fun i : Fin (n + 1) => (Fin.cons B (fun _ => 2) : Fin (n + 4) → ℕ)
      (tripPerm p.succ q.succ r.succ hsort i.castSucc.castSucc.castSucc)) =
        B :: List.replicate n 2 := by
    rw [dims_cons]
    congr 1
    funext i
    rw [cons_dims_perm h0]
    refine Fin.cases ?_ (fun i => ?_) i
    · simp
    · rw [Fin.cons_succ, if_neg]
      intro e
      have := congrArg Fin.val e
      simp at this
  obtain ⟨T', h', s, e⟩ := contract3_get (n := n + 1)
    (d := (Fin.cons B (fun _ => 2) : Fin (n + 4) → ℕ)) p.succ q.succ r.succ hsort hm.1
    (hT.1.trans (dims_cons B)) (by simp) (by simp) (by simp)
    (out := fun s => (s.getD 0 0 : ℤ) :: pyRep 2 ((n + 3 : ℕ) : ℤ)) (by
      rw [hpre, pyRep_two]
      simp [List.replicate_add])
  refine ⟨T', ?_, s.trans (dims_cons B).symm, fun k a => ?_⟩
  · rw [← h']; simp; ring_nf
  have := e (Fin.cons (k : ℕ) (nb a)) (cons_nb_lt k.2 a)
  rw [sum_eight, cons_ofFn] at this
  beta_reduce
  rw [three_mulVec h1 h2 h3]
  refine this.trans (Finset.sum_congr rfl fun x _ => ?_)
  obtain ⟨e1, e2, e3⟩ := enc_three_div x
  rw [e1, e2, e3, ← Fin.cons_update, ← Fin.cons_update, ← Fin.cons_update, nb_update, nb_update,
    nb_update, cons_ofFn, Fin.cons_succ, Fin.cons_succ, Fin.cons_succ]
  show m.get [((a p : Fin 2) : ℕ) * 4 + ((a q : Fin 2) : ℕ) * 2 + ((a r : Fin 2) : ℕ), _] * _ = _
  rw [← enc_triple, hm.2, hT.2]

end QTN
