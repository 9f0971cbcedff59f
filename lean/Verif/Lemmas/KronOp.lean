import Verif.Lemmas.PTraceOld
import Verif.Lemmas.QLayerL

/-! # Kronecker products of operators, and the layers of two-qubit rotations -/

namespace QTN

open Spec QLayer Complex

variable {m n N : ℕ}

/-- `A` on the first `m` qubits and `B` on the last `n`. -/
def kronOp (A : QOp m) (B : QOp n) : QOp (m + n) := fun a b =>
  A (fun i => a (Fin.castAdd n i)) (fun i => b (Fin.castAdd n i)) *
    B (fun i => a (Fin.natAdd m i)) (fun i => b (Fin.natAdd m i))

theorem sum_bits_add (f : Bits (m + n) → ℂ) : ∑ a, f a = ∑ z : Bits m, ∑ t : Bits n, f (Fin.append z t) := by
  rw [← (Fin.appendEquiv m n).sum_comp, Fintype.sum_prod_type]
  rfl

theorem kronOp_mul (A A' : QOp m) (B B' : QOp n) : kronOp (A * A') (B * B') = kronOp A B * kronOp A' B' := by
  ext a b
  simp only [kronOp, Matrix.mul_apply]
  rw [sum_bits_add, Finset.sum_mul_sum]
  refine Finset.sum_congr rfl fun z _ => Finset.sum_congr rfl fun t _ => ?_
  simp only [Fin.append_left, Fin.append_right]
  ring

theorem kronOp_one : kronOp (1 : QOp m) (1 : QOp n) = 1 := by
  ext a b
  simp only [kronOp, Matrix.one_apply, funext_iff, Fin.forall_fin_add]
  by_cases h : ∀ i : Fin m, a (Fin.castAdd n i) = b (Fin.castAdd n i)
  · by_cases h' : ∀ i : Fin n, a (Fin.natAdd m i) = b (Fin.natAdd m i) <;> simp [h, h']
  · simp [h]

theorem kronOp_left (i : Fin m) (g : Mat2) : kronOp (onQubit i g) (1 : QOp n) = onQubit (Fin.castAdd n i) g := by
  ext a b
  simp only [kronOp, onQubit, Matrix.one_apply, funext_iff, Fin.forall_fin_add, Ne]
  have h1 : ∀ j : Fin m, Fin.castAdd n j = Fin.castAdd n i ↔ j = i := fun j => by simp [Fin.ext_iff]
  have h2 : ∀ j : Fin n, Fin.natAdd m j ≠ Fin.castAdd n i := fun j e => by
    have := congrArg Fin.val e; simp at this; omega
  simp only [h1, h2, not_false_eq_true, forall_const]
  by_cases h : ∀ j : Fin m, ¬ j = i → a (Fin.castAdd n j) = b (Fin.castAdd n j)
  · by_cases h' : ∀ i : Fin n, a (Fin.natAdd m i) = b (Fin.natAdd m i)
    · rw [if_pos h, if_pos h', if_pos ⟨h, h'⟩, mul_one]
    · rw [if_neg h', if_neg (c := _ ∧ _) (fun e => h' e.2), mul_zero]
  · rw [if_neg h, if_neg (c := _ ∧ _) (fun e => h e.1), zero_mul]

theorem kronOp_right (i : Fin n) (g : Mat2) : kronOp (1 : QOp m) (onQubit i g) = onQubit (Fin.natAdd m i) g := by
  ext a b
  simp only [kronOp, onQubit, Matrix.one_apply, funext_iff, Fin.forall_fin_add, Ne]
  have h1 : ∀ j : Fin n, Fin.natAdd m j = Fin.natAdd m i ↔ j = i := fun j => by simp [Fin.ext_iff]
  have h2 : ∀ j : Fin m, Fin.castAdd n j ≠ Fin.natAdd m i := fun j e => by
    have := congrArg Fin.val e; simp at this; omega
  simp only [h1, h2, not_false_eq_true, forall_const]
  by_cases h : ∀ j : Fin n, ¬ j = i → a (Fin.natAdd m j) = b (Fin.natAdd m j)
  · by_cases h' : ∀ i : Fin m, a (Fin.castAdd n i) = b (Fin.castAdd n i)
    · rw [if_pos h, if_pos h', if_pos ⟨h', h⟩, one_mul]
    · rw [if_neg h', if_neg (c := _ ∧ _) (fun e => h' e.1), zero_mul]
  · rw [if_neg h, if_neg (c := _ ∧ _) (fun e => h e.2), mul_zero]

theorem kronOp_rot2_left (P : Mat2) (θ : ℝ) (p q : Fin m) :
    kronOp (rot2 P θ p q) (1 : QOp n) = rot2 P θ (Fin.castAdd n p) (Fin.castAdd n q) := by
  unfold rot2
  rw [← kronOp_left p, ← kronOp_left q, ← kronOp_mul, one_mul, ← kronOp_one]
  ext a b
  simp only [kronOp, Matrix.sub_apply, Matrix.smul_apply, smul_eq_mul]
  ring

theorem kronOp_rot2_right (P : Mat2) (θ : ℝ) (p q : Fin n) :
    kronOp (1 : QOp m) (rot2 P θ p q) = rot2 P θ (Fin.natAdd m p) (Fin.natAdd m q) := by
  unfold rot2
  rw [← kronOp_right p, ← kronOp_right q, ← kronOp_mul, one_mul, ← kronOp_one]
  ext a b
  simp only [kronOp, Matrix.sub_apply, Matrix.smul_apply, smul_eq_mul]
  ring

theorem Spec.Represents.kron {s t : Tensor ℂ} {A : QOp m} {B : QOp n} (hs : Represents s A)
    (ht : Represents t B) : Represents (s.kron t) (kronOp A B) := by
  refine ⟨by rw [Tensor.kron_shape2 hs.1 ht.1, ← pow_add], fun a b => ?_⟩
  have e : ∀ z : Bits (m + n), enc z =
      enc (fun i => z (Fin.castAdd n i)) * 2 ^ n + enc (fun i => z (Fin.natAdd m i)) := fun z => by
    rw [← enc_append]
    congr 1
    exact Fin.append_castAdd_natAdd.symm
  rw [e a, e b, Tensor.kron_get2 hs.1 ht.1 (enc_lt _) (enc_lt _) (enc_lt _) (enc_lt _), hs.2, ht.2]
  rfl

/-! ## Rows of two-qubit rotations -/

/-- the rotation of qubits `a.1` and `a.1 + 1` by the angle `a.2` -/
noncomputable def rn (N : ℕ) (P : Mat2) (a : ℕ × ℝ) : QOp N :=
  if h : a.1 + 1 < N then rot2 P a.2 ⟨a.1, by omega⟩ ⟨a.1 + 1, h⟩ else 1

theorem rn_left {P : Mat2} {a : ℕ × ℝ} (h : a.1 + 1 < m) : kronOp (rn m P a) (1 : QOp n) = rn (m + n) P a := by
  unfold rn
  rw [dif_pos h, dif_pos (by omega), kronOp_rot2_left]
  rfl

theorem rn_row_left {P : Mat2} (l : List (ℕ × ℝ)) (h : ∀ a ∈ l, a.1 + 1 < m) :
    kronOp (timeOrdered (l.map (rn m P))) (1 : QOp n) = timeOrdered (l.map (rn (m + n) P)) := by
  induction l with
  | nil => simp [kronOp_one]
  | cons a l ih =>
    rw [List.map_cons, List.map_cons, timeOrdered_cons, timeOrdered_cons, ← ih fun b hb => h b (by simp [hb]),
      ← rn_left (h a (by simp)), ← kronOp_mul, one_mul]

/-- rotations of `(s, s+1), (s+2, s+3), …` -/
def row (s : ℕ) (p : List ℝ) : List (ℕ × ℝ) := p.mapIdx (fun k θ => (s + 2 * k, θ))

theorem row_cons (s : ℕ) (θ : ℝ) (p : List ℝ) : row s (θ :: p) = (s, θ) :: row (s + 2) p := by
  unfold row
  rw [List.mapIdx_cons]
  congr 1
  refine congrArg (fun f => List.mapIdx f p) ?_
  funext k θ
  rw [show s + 2 * (k + 1) = s + 2 + 2 * k by ring]

theorem row_lt {s : ℕ} {p : List ℝ} : ∀ a ∈ row s p, a.1 + 1 < s + 2 * p.length := by
  intro a ha
  simp only [row, List.mem_mapIdx] at ha
  obtain ⟨k, hk, rfl⟩ := ha
  dsimp only
  omega

/-- Multiplying the rotation matrices of a row onto a Kronecker product. -/
theorem row_kron {f : ℝ → Py (Tensor ℂ)} {P : Mat2} (hf : ∀ θ, Computes (f θ) (rot2 P θ (0 : Fin 2) 1)) :
    ∀ (p : List ℝ) {m : ℕ} {t : Tensor ℂ} {l : List (ℕ × ℝ)} (_ : Represents t (timeOrdered (l.map (rn m P))))
      (_ : ∀ a ∈ l, a.1 + 1 < m) {N : ℕ} (_ : N = m + 2 * p.length),
      ∃ us, p.mapM f = .ok us ∧
        Represents (us.foldl Tensor.kron t) (timeOrdered ((l ++ row m p).map (rn N P)))
  | [], m, t, l, ht, _, N, hN => by
    obtain rfl : N = m := by simpa using hN
    exact ⟨[], rfl, by simpa [row] using ht⟩
  | θ :: p, m, t, l, ht, hl, N, hN => by
    obtain ⟨u, eu, ru⟩ := hf θ
    have hk : Represents (t.kron u) (timeOrdered ((l ++ [(m, θ)]).map (rn (m + 2) P))) := by
      refine (ht.kron ru).congr ?_
      rw [List.map_append, timeOrdered_append, ← rn_row_left l hl, List.map_singleton, timeOrdered_singleton]
      have : rn (m + 2) P (m, θ) = kronOp (1 : QOp m) (rot2 P θ (0 : Fin 2) 1) := by
        unfold rn
        rw [dif_pos (by dsimp only; omega), kronOp_rot2_right]
        rfl
      rw [this, ← kronOp_mul, one_mul, mul_one]
    obtain ⟨us, eus, rus⟩ := row_kron hf p hk (by
      intro a ha
      rcases List.mem_append.1 ha with h | h
      · have := hl a h; omega
      · simp at h; subst h; dsimp only; omega) (N := N) (by rw [hN]; simp; ring)
    refine ⟨u :: us, by rw [List.mapM_cons, eu, Py.ok_bind, eus]; rfl, ?_⟩
    rw [row_cons]
    simpa using rus

theorem row_zip {P : Mat2} {s k : ℕ} {p : List ℝ} (hp : p.length = k) {A : Fin k → Fin N × Fin N}
    (h1 : ∀ i, ((A i).1 : ℕ) = s + 2 * i) (h2 : ∀ i, ((A i).2 : ℕ) = s + 2 * i + 1) :
    (row s p).map (rn N P) = List.zipWith (fun ij θ => rot2 P θ ij.1 ij.2) (List.ofFn A) p := by
  apply List.ext_getElem
  · simp [row, hp]
  · intro i hi hi'
    simp only [row, List.length_map, List.length_mapIdx] at hi
    have hlt := (A ⟨i, by omega⟩).2.2
    rw [h2] at hlt
    simp only [row, List.getElem_map, List.getElem_mapIdx, List.getElem_zipWith, List.getElem_ofFn]
    unfold rn
    rw [dif_pos hlt]
    congr 1
    · exact Fin.ext (h1 ⟨i, by omega⟩).symm
    · exact Fin.ext (h2 ⟨i, by omega⟩).symm

theorem pairRot_rows {P : Mat2} {p : List ℝ} (hp : p.length = N - 1) :
    pairRotOp N P p = timeOrdered ((row 1 (p.drop (N / 2))).map (rn N P)) *
      timeOrdered ((row 0 (p.take (N / 2))).map (rn N P)) := by
  unfold pairRotOp neighbours
  conv_lhs => rw [← List.take_append_drop (N / 2) p]
  rw [List.zipWith_append (by simp; omega), timeOrdered_append]
  congr 2
  · exact (row_zip (by simp; omega) (fun i => by dsimp only; omega) (fun i => by dsimp only; omega)).symm
  · exact (row_zip (by simp; omega) (fun i => by dsimp only; omega) (fun i => by dsimp only; omega)).symm

theorem rep_eye2 : Represents (Tensor.eye 2) (1 : QOp 1) := represents_eye (N := 1)

/-- a row that starts at qubit 0 -/
theorem row0_kron {cir : Cir} (h : GateFunctions cir) {f : ℝ → Py (Tensor ℂ)} {P : Mat2}
    (hf : ∀ θ, Computes (f θ) (rot2 P θ (0 : Fin 2) 1)) {p : List ℝ} (hp : p ≠ []) :
    ∃ us, p.mapM f = .ok us ∧ Computes (cir.multi_kron us) (timeOrdered ((row 0 p).map (rn (2 * p.length) P))) ∧
      Computes (cir.multi_kron (us ++ [Tensor.eye 2])) (timeOrdered ((row 0 p).map (rn (2 * p.length + 1) P))) := by
  obtain ⟨θ, q, rfl⟩ := List.exists_cons_of_ne_nil hp
  obtain ⟨u, eu, ru⟩ := hf θ
  obtain ⟨us, eus, rus⟩ := row_kron hf q (m := 2) (t := u) (l := [(0, θ)]) (ru.congr (by
    rw [List.map_singleton, timeOrdered_singleton]
    unfold rn
    rw [dif_pos (by dsimp only; omega)]
    rfl)) (by simp) (N := 2 * (θ :: q).length) (by simp; ring)
  have e : [(0, θ)] ++ row 2 q = row 0 (θ :: q) := (row_cons 0 θ q).symm
  rw [e] at rus
  refine ⟨u :: us, by rw [List.mapM_cons, eu, Py.ok_bind, eus]; rfl, ⟨_, h.multi_kron u us, rus⟩, ?_⟩
  rw [List.cons_append]
  refine ⟨_, h.multi_kron u (us ++ [Tensor.eye 2]), ?_⟩
  rw [List.foldl_append, List.foldl_cons, List.foldl_nil]
  exact (rus.kron rep_eye2).congr (rn_row_left _ fun a ha => by have := row_lt a ha; omega)

/-- a row that starts at qubit 1 -/
theorem row1_kron {cir : Cir} (h : GateFunctions cir) {f : ℝ → Py (Tensor ℂ)} {P : Mat2}
    (hf : ∀ θ, Computes (f θ) (rot2 P θ (0 : Fin 2) 1)) (p : List ℝ) :
    ∃ us, p.mapM f = .ok us ∧
      Computes (cir.multi_kron ([Tensor.eye 2] ++ us)) (timeOrdered ((row 1 p).map (rn (2 * p.length + 1) P))) ∧
      Computes (cir.multi_kron ([Tensor.eye 2] ++ us ++ [Tensor.eye 2]))
        (timeOrdered ((row 1 p).map (rn (2 * p.length + 1 + 1) P))) := by
  obtain ⟨us, eus, rus⟩ := row_kron hf p (m := 1) (t := Tensor.eye 2) (l := []) (by simpa using rep_eye2)
    (by simp) (N := 2 * p.length + 1) (by ring)
  rw [List.nil_append] at rus
  refine ⟨us, eus, ⟨_, h.multi_kron _ us, rus⟩, ?_⟩
  rw [List.append_assoc, List.singleton_append]
  refine ⟨_, h.multi_kron _ (us ++ [Tensor.eye 2]), ?_⟩
  rw [List.foldl_append, List.foldl_cons, List.foldl_nil]
  exact (rus.kron rep_eye2).congr (rn_row_left _ fun a ha => by have := row_lt a ha; omega)

theorem pairLayer_rep {cir : Cir} (h : GateFunctions cir) {f : ℝ → Py (Tensor ℂ)} {P : Mat2}
    (hf : ∀ θ, Computes (f θ) (rot2 P θ (0 : Fin 2) 1)) (hN : 2 ≤ N) {p : List ℝ} (hp : p.length = N - 1) :
    Computes (pairLayer cir f N p) (pairRotOp N P p) := by
  unfold pairLayer
  rw [raiseIf_false (by omega), raiseIf_false (by omega)]
  simp only [Py.ok_bind]
  by_cases h2 : N = 2
  · subst h2
    obtain ⟨θ, rfl⟩ := List.length_eq_one_iff.1 hp
    rw [if_pos (by norm_num), show pyGet [θ] 0 = .ok θ from rfl, Py.ok_bind]
    obtain ⟨u, eu, ru⟩ := hf θ
    refine ⟨u, eu, ru.congr ?_⟩
    unfold pairRotOp neighbours
    simp [timeOrdered]
  rw [if_neg (by omega), pairRot_rows hp]
  obtain ⟨us, e1, c1, c1'⟩ := row0_kron h hf (p := p.take (N / 2)) (by
    intro e; have := congrArg List.length e; simp only [List.length_take, List.length_nil] at this; omega)
  obtain ⟨vs, e2, c2, c2'⟩ := row1_kron h hf (p.drop (N / 2))
  have l1 : (p.take (N / 2)).length = N / 2 := by simp; omega
  have l2 : (p.drop (N / 2)).length = (N - 1) / 2 := by simp; omega
  rw [l1] at c1 c1'
  rw [l2] at c2 c2'
  by_cases hev : (N : ℤ) % 2 = 0
  · rw [if_pos hev]
    have s1 : slice p 0 ((N : ℤ) / 2) = p.take (N / 2) := by
      unfold slice; rw [show ((N : ℤ) / 2).toNat = N / 2 by omega]; rfl
    have s2 : slice p ((N : ℤ) / 2) (N - 1) = p.drop (N / 2) := by
      unfold slice
      rw [show ((N : ℤ) / 2).toNat = N / 2 by omega, List.take_of_length_le (by omega)]
    rw [s1, s2, e1, e2]
    simp only [Py.ok_bind]
    rw [show 2 * (N / 2) = N by omega] at c1
    rw [show 2 * ((N - 1) / 2) + 1 + 1 = N by omega] at c2'
    obtain ⟨U1, a1, r1⟩ := c1
    obtain ⟨U2, a2, r2⟩ := c2'
    rw [a1, a2]
    obtain ⟨U, a, r⟩ := r2.matmul r1
    exact ⟨U, a, r⟩
  · rw [if_neg hev]
    have s1 : slice p 0 (((N : ℤ) - 1) / 2) = p.take (N / 2) := by
      unfold slice; rw [show (((N : ℤ) - 1) / 2).toNat = N / 2 by omega]; rfl
    have s2 : slice p (((N : ℤ) - 1) / 2) (N - 1) = p.drop (N / 2) := by
      unfold slice
      rw [show (((N : ℤ) - 1) / 2).toNat = N / 2 by omega, List.take_of_length_le (by omega)]
    rw [s1, s2, e1, e2]
    simp only [Py.ok_bind]
    rw [show 2 * (N / 2) + 1 = N by omega] at c1'
    rw [show 2 * ((N - 1) / 2) + 1 = N by omega] at c2
    obtain ⟨U1, a1, r1⟩ := c1'
    obtain ⟨U2, a2, r2⟩ := c2
    rw [a1, a2]
    obtain ⟨U, a, r⟩ := r2.matmul r1
    exact ⟨U, a, r⟩

end QTN
