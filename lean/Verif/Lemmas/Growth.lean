import Verif.SpecGrowth
import Verif.Lemmas.Frame
import Verif.Lemmas.Schmidt

/-! # Growth of the bonds of a matrix product state under gates -/

namespace QTN

open Finset Spec

variable {N : ℕ}

/-- A sum of `r` products of one-qubit matrices. -/
def ProdSum {n : ℕ} (r : ℕ) (M : QOp n) : Prop :=
  ∃ P : Fin r → Fin n → Mat2, ∀ x y : Bits n, M x y = ∑ k, ∏ i, P k i (x i) (y i)

theorem prod_delta {n : ℕ} (a b : Bits n) (t : Fin n) (g : Mat2) :
    onQubit t g a b = ∏ i, (if i = t then g else (1 : Mat2)) (a i) (b i) := by
  unfold onQubit
  rw [← Finset.mul_prod_erase _ _ (Finset.mem_univ t), if_pos rfl]
  split_ifs with h
  · rw [Finset.prod_eq_one, mul_one]
    intro i hi
    have hi := Finset.ne_of_mem_erase hi
    rw [if_neg hi, h i hi, Matrix.one_apply_eq]
  · push Not at h
    obtain ⟨j, hj, hne⟩ := h
    rw [Finset.prod_eq_zero (Finset.mem_erase.2 ⟨hj, Finset.mem_univ j⟩), mul_zero]
    rw [if_neg hj, Matrix.one_apply_ne hne]

theorem prod_one {n : ℕ} (a b : Bits n) : (1 : QOp n) a b = ∏ i, (1 : Mat2) (a i) (b i) := by
  rw [Matrix.one_apply]
  split_ifs with h
  · subst h; simp
  · obtain ⟨j, hj⟩ := Function.ne_iff.1 h
    exact (Finset.prod_eq_zero (f := fun i => (1 : Mat2) (a i) (b i)) (Finset.mem_univ j)
      (Matrix.one_apply_ne hj)).symm

/-- A controlled gate is the identity plus one product. -/
theorem controlled_prodSum {n : ℕ} {cs : List (Fin n)} {t : Fin n} (ht : t ∉ cs) (g : Mat2) :
    ProdSum 2 (controlled cs t g) := by
  refine ⟨![fun _ => 1, fun i => if i = t then g - 1 else if i ∈ cs then !![0, 0; 0, 1] else 1], fun a b => ?_⟩
  rw [Fin.sum_univ_two]
  simp only [Matrix.cons_val_zero, Matrix.cons_val_one]
  rw [← prod_one]
  unfold controlled
  have e : ∀ i, (if i = t then g - 1 else if i ∈ cs then !![0, 0; 0, 1] else (1 : Mat2)) (a i) (b i) =
      (if i = t then g - 1 else (1 : Mat2)) (a i) (b i) * (if i ∈ cs ∧ b i ≠ 1 then 0 else 1) := by
    intro i
    by_cases hi : i = t
    · subst hi; simp [ht]
    · simp only [if_neg hi]
      by_cases hc : i ∈ cs
      · simp only [hc, if_true, true_and]
        generalize a i = u
        generalize b i = v
        fin_cases u <;> fin_cases v <;> simp
      · simp [hc]
  rw [Finset.prod_congr rfl fun i _ => e i, Finset.prod_mul_distrib]
  split_ifs with h
  · have h1 : ∏ i, (if i ∈ cs ∧ b i ≠ 1 then (0 : ℂ) else 1) = 1 :=
      Finset.prod_eq_one fun i _ => if_neg fun ⟨hi, hb⟩ => hb (h i hi)
    rw [h1, mul_one, ← prod_delta, ← onQubit_one t]
    unfold onQubit
    split_ifs
    · rw [Matrix.sub_apply]; ring
    · ring
  · push Not at h
    obtain ⟨c, hc, hb⟩ := h
    have h0 : ∏ i, (if i ∈ cs ∧ b i ≠ 1 then (0 : ℂ) else 1) = 0 :=
      Finset.prod_eq_zero (Finset.mem_univ c) (if_pos ⟨hc, hb⟩)
    rw [h0, mul_zero, add_zero]

/-- Every operator on two qubits is a sum of four products. -/
theorem prodSum_four (M : QOp 2) : ProdSum 4 M := by
  refine ⟨fun k => ![Matrix.of fun x y => if (y : ℕ) = (k : ℕ) % 2 ∧ (x : ℕ) = (k : ℕ) / 2 then 1 else 0,
    Matrix.of fun x' y' => M ![⟨(k : ℕ) / 2, by omega⟩, x'] ![⟨(k : ℕ) % 2, by omega⟩, y']], fun x y => ?_⟩
  have hx : x = ![x 0, x 1] := by funext i; fin_cases i <;> rfl
  have hy : y = ![y 0, y 1] := by funext i; fin_cases i <;> rfl
  rw [hx, hy]
  generalize x 0 = x0
  generalize x 1 = x1
  generalize y 0 = y0
  generalize y 1 = y1
  simp only [Fin.sum_univ_four, Fin.prod_univ_two]
  fin_cases x0 <;> fin_cases y0 <;> simp

/-! ## Ranks -/

/-- A matrix whose entries factor through `a * b` intermediate indices has rank at most `a * b`. -/
theorem rank_le_factor {A : Tensor ℂ} {m n : ℕ} (a b : ℕ) (L : ℕ → Fin a → ℕ → ℂ) (R : Fin a → ℕ → ℕ → ℂ)
    (h : ∀ i j, i < m → j < n → A.get [i, j] = ∑ k, ∑ q ∈ range b, L i k q * R k q j) :
    (toMat A m n).rank ≤ a * b := by
  have e : toMat A m n = (Matrix.of fun (i : Fin m) (p : Fin a × Fin b) => L i p.1 p.2) *
      (Matrix.of fun (p : Fin a × Fin b) (j : Fin n) => R p.1 p.2 j) := by
    ext i j
    rw [Matrix.mul_apply, Fintype.sum_prod_type]
    simp only [Matrix.of_apply, toMat]
    rw [h i j i.isLt j.isLt]
    exact Finset.sum_congr rfl fun k _ => Finset.sum_range _
  rw [e]
  refine (Matrix.rank_mul_le_left _ _).trans ((Matrix.rank_le_card_width _).trans ?_)
  simp

theorem sum_pair_bits {M : Type} [AddCommMonoid M] (f : Bits 2 → M) : ∑ a, f a = ∑ x, ∑ y, f ![x, y] := by
  rw [← (finTwoArrowEquiv (Fin 2)).symm.sum_comp, Fintype.sum_prod_type]
  rfl

theorem sum_triple_bits {M : Type} [AddCommMonoid M] (f : Bits 3 → M) : ∑ a, f a = ∑ x, ∑ y, ∑ z, f ![x, y, z] := by
  rw [sum_bits_split]
  refine Finset.sum_congr rfl fun x _ => ?_
  rw [sum_pair_bits]
  rfl

theorem sum4_comm {α β κ : Type} [Fintype α] [Fintype β] [Fintype κ] (m : ℕ) (f : α → β → κ → ℕ → ℂ) :
    ∑ x, ∑ y, ∑ k, ∑ q ∈ range m, f x y k q = ∑ k, ∑ q ∈ range m, ∑ x, ∑ y, f x y k q := by
  calc ∑ x, ∑ y, ∑ k, ∑ q ∈ range m, f x y k q = ∑ x, ∑ k, ∑ y, ∑ q ∈ range m, f x y k q :=
        Finset.sum_congr rfl fun x _ => Finset.sum_comm
    _ = ∑ k, ∑ x, ∑ y, ∑ q ∈ range m, f x y k q := Finset.sum_comm
    _ = ∑ k, ∑ x, ∑ q ∈ range m, ∑ y, f x y k q :=
        Finset.sum_congr rfl fun k _ => Finset.sum_congr rfl fun x _ => Finset.sum_comm
    _ = ∑ k, ∑ q ∈ range m, ∑ x, ∑ y, f x y k q :=
        Finset.sum_congr rfl fun k _ => Finset.sum_comm

/-- A sum of products of operators applied to a contraction over `q` is a contraction over the pair of the
summand and `q`. -/
theorem sum_split {α β κ : Type} [Fintype α] [Fintype β] [Fintype κ] (m : ℕ) (P : κ → α → ℂ) (Q : κ → β → ℂ)
    (A : α → ℕ → ℂ) (B : β → ℕ → ℂ) :
    ∑ x, ∑ y, (∑ k, P k x * Q k y) * ∑ q ∈ range m, A x q * B y q =
      ∑ k, ∑ q ∈ range m, (∑ x, P k x * A x q) * ∑ y, Q k y * B y q := by
  simp only [Finset.sum_mul_sum]
  rw [sum4_comm]
  refine Finset.sum_congr rfl fun k _ => Finset.sum_congr rfl fun q _ => Finset.sum_congr rfl fun x _ =>
    Finset.sum_congr rfl fun y _ => by ring

theorem ofNat_lt {n : ℕ} (h : n < 2) : (Fin.ofNat 2 n : Fin 2) = ⟨n, h⟩ := Fin.ext (Nat.mod_eq_of_lt h)

theorem sum4_aux {κ : Type} [Fintype κ] (l m : ℕ) (f : Fin 2 → ℕ → ℂ) (g : Fin 2 → ℕ → κ → ℕ → ℂ) (w : κ → ℕ → ℂ) :
    ∑ x, ∑ a ∈ range l, f x a * ∑ k, ∑ q ∈ range m, g x a k q * w k q =
      ∑ k, ∑ q ∈ range m, (∑ x, ∑ a ∈ range l, f x a * g x a k q) * w k q := by
  simp only [Finset.mul_sum, Finset.sum_mul]
  calc _ = ∑ x, ∑ k, ∑ a ∈ range l, ∑ q ∈ range m, f x a * (g x a k q * w k q) :=
        Finset.sum_congr rfl fun x _ => Finset.sum_comm
    _ = ∑ k, ∑ x, ∑ a ∈ range l, ∑ q ∈ range m, f x a * (g x a k q * w k q) := Finset.sum_comm
    _ = ∑ k, ∑ x, ∑ q ∈ range m, ∑ a ∈ range l, f x a * (g x a k q * w k q) :=
        Finset.sum_congr rfl fun k _ => Finset.sum_congr rfl fun x _ => Finset.sum_comm
    _ = ∑ k, ∑ q ∈ range m, ∑ x, ∑ a ∈ range l, f x a * (g x a k q * w k q) :=
        Finset.sum_congr rfl fun k _ => Finset.sum_comm
    _ = _ := by simp only [mul_assoc]

/-! ## Computations that enlarge the bonds by at most given factors -/

/-- `f` returns a matrix product state whose bond `k` is at most `F k` times the old one, or raises
RuntimeError. -/
def Grows (N : ℕ) (F : ℕ → ℕ) (f : List (Tensor ℂ) → TNM (List (Tensor ℂ))) : Prop :=
  ∀ mps D, HasBonds N D mps → ReturnsOr (fun m => ∃ D', HasBonds N D' m ∧ ∀ k ≤ N, D' k ≤ F k * D k) (f mps)

theorem Grows.mono {F F' : ℕ → ℕ} {f : List (Tensor ℂ) → TNM (List (Tensor ℂ))} (h : Grows N F f)
    (hF : ∀ k ≤ N, F k ≤ F' k) : Grows N F' f := fun mps D hD => (h mps D hD).mono fun _ ⟨D', hD', hk⟩ =>
  ⟨D', hD', fun k hk' => (hk k hk').trans (Nat.mul_le_mul_right _ (hF k hk'))⟩

theorem Grows.bind {F G : ℕ → ℕ} {f g : List (Tensor ℂ) → TNM (List (Tensor ℂ))} (hf : Grows N F f)
    (hg : Grows N G g) : Grows N (fun k => F k * G k) (fun m => f m >>= g) := by
  intro mps D hD
  refine (hf mps D hD).bind ?_
  rintro m ⟨D1, hD1, h1⟩
  refine (hg m D1 hD1).mono ?_
  rintro m' ⟨D2, hD2, h2⟩
  refine ⟨D2, hD2, fun k hk => (h2 k hk).trans ?_⟩
  calc G k * D1 k ≤ G k * (F k * D k) := Nat.mul_le_mul_left _ (h1 k hk)
    _ = F k * G k * D k := by ring

theorem Grows.congr {F : ℕ → ℕ} {f g : List (Tensor ℂ) → TNM (List (Tensor ℂ))} (hf : Grows N F f)
    (h : ∀ m, g m = f m) : Grows N F g := (funext h : g = f) ▸ hf

theorem Grows.pure : Grows N (fun _ => 1) (fun m => Pure.pure m) := fun _ D hD =>
  .ok ⟨D, hD, fun k _ => by simp⟩

/-- A loop each of whose passes enlarges one bond, another one in each pass. -/
theorem Grows.fold (c : ℤ → ℕ) (o : ℤ) (f : List (Tensor ℂ) → ℤ → TNM (List (Tensor ℂ))) :
    ∀ l : List ℤ, l.Nodup → (∀ i ∈ l, Grows N (fun k => if (k : ℤ) = i + o then c i else 1) (fun m => f m i)) →
      Grows N (fun k => if ((k : ℤ) - o) ∈ l then c (k - o) else 1) (fun m => l.foldlM f m) := by
  intro l
  induction l with
  | nil =>
    intro _ _
    exact Grows.pure.mono fun k _ => by simp
  | cons i l ih =>
    intro hn h
    have hn' := List.nodup_cons.1 hn
    have := (h i (by simp)).bind (ih hn'.2 fun j hj => h j (by simp [hj]))
    refine (show Grows N _ (fun m => List.foldlM f m (i :: l)) from this).mono fun k _ => ?_
    by_cases hk : (k : ℤ) = i + o
    · have e : (k : ℤ) - o = i := by omega
      simp [hk, hn'.1]
    · have e : (k : ℤ) - o ≠ i := by omega
      simp [hk, e]

theorem nodup_pyRange2 (a b : ℤ) : (pyRange2 a b).Nodup :=
  List.nodup_range.map fun x y h => by simpa using h

theorem nodup_pyRangeDown (a b : ℤ) : (pyRangeDown a b).Nodup :=
  List.nodup_range.map fun x y h => by simpa using h

theorem nodup_pyRange (a : ℤ) : (pyRange a).Nodup :=
  List.nodup_range.map fun x y h => by simpa using h

/-- A computation that keeps all bonds. -/
theorem Grows.of_keeps {f : List (Tensor ℂ) → TNM (List (Tensor ℂ))}
    (h : ∀ D : ℕ → ℕ, Keeps N (fun i d => d = D i) f) : Grows N (fun _ => 1) f := by
  intro mps D ⟨hl, h0, hN, hp, hs⟩
  refine (h D mps ⟨hl, D, h0, hN, hp, fun _ _ => rfl, hs⟩).mono fun m hb => ?_
  obtain ⟨D', hD', he⟩ := bonds_eq hb
  exact ⟨D', hD', fun k hk => by rw [he k hk, one_mul]⟩

/-! ## Two and three sites -/

theorem grows_two {svd : SVDOracle} (hv : ValidSVD svd) {G : Tensor ℂ} {M : QOp 2} (hG : Represents G M) {r : ℕ}
    (hM : ProdSum r M) {i : ℤ} (h0 : 0 ≤ i) (hi : i + 1 < N) :
    Grows N (fun k => if (k : ℤ) = i + 1 then r else 1) (fun mps => Gate.applyTwo svd G mps i) := by
  intro mps D ⟨hl, hD0, hDN, hp, hs⟩ s
  lift i to ℕ using h0
  have hiN : i + 1 < N := by omega
  have hl1 : i + 1 < mps.length := by omega
  have sA := hs i (by omega)
  have sB := hs (i + 1) hl1
  have c1 : (i : ℤ) + 1 = ((i + 1 : ℕ) : ℤ) := by push_cast; rfl
  obtain ⟨t, et, st, gt⟩ := mergeTwo_ok sA sB hG
  obtain ⟨m, sm, gm, hz, hok⟩ := decomp2_run hv st (hp i) (hp (i + 1 + 1)) s
  beta_reduce
  unfold Gate.applyTwo
  rw [pyGet_nat (by omega), TNM.lift_ok_bind, c1, pyGet_nat hl1, TNM.lift_ok_bind, et, TNM.lift_ok_bind]
  by_cases h : bondDim (svd s m).S = 0
  · exact .inr ⟨_, TNM.bind_error (hz h) _⟩
  obtain ⟨a, b, e, sa, sb, -⟩ := hok h
  have hrank : bondDim (svd s m).S ≤ r * D (i + 1) := by
    refine (bondDim_le_rank (hv s m _ _ sm)).trans ?_
    obtain ⟨P, hP⟩ := hM
    refine rank_le_factor r (D (i + 1))
      (fun I k q => ∑ y : Fin 2, P k 0 (Fin.ofNat 2 (I / D i)) y * mps[i].get [(y : ℕ), I % D i, q])
      (fun k q J => ∑ y : Fin 2, P k 1 (Fin.ofNat 2 (J / D (i + 1 + 1))) y *
        mps[i + 1].get [(y : ℕ), q, J % D (i + 1 + 1)]) ?_
    intro I J hI hJ
    obtain ⟨x1, x2, x3⟩ := block_lt hI
    obtain ⟨y1, y2, y3⟩ := block_lt hJ
    have e1 := gm _ _ _ _ x1 y1 x2 y2
    rw [← x3, ← y3] at e1
    have e2 := gt ![⟨I / D i, x1⟩, ⟨J / D (i + 1 + 1), y1⟩] _ _ x2 y2
    simp only [Matrix.cons_val_zero, Matrix.cons_val_one] at e2
    rw [e1, e2, sum_pair_bits]
    simp only [hP, Fin.prod_univ_two, Matrix.cons_val_zero, Matrix.cons_val_one]
    rw [ofNat_lt x1, ofNat_lt y1]
    exact sum_split (D (i + 1)) (fun k y => P k 0 ⟨I / D i, x1⟩ y) (fun k y => P k 1 ⟨J / D (i + 1 + 1), y1⟩ y)
      (fun y q => mps[i].get [(y : ℕ), I % D i, q]) (fun y q => mps[i + 1].get [(y : ℕ), q, J % D (i + 1 + 1)])
  have hle := bondDim_le (svd s m).S
  rw [(hv s m _ _ sm).lenS] at hle
  left
  refine ⟨(mps.set i a).set (i + 1) b, s ++ [m], ?_, 
    Function.update D (i + 1) (bondDim (svd s m).S), ⟨by simpa using hl, ?_, ?_, ?_, ?_⟩, ?_⟩
  · rw [TNM.bind_ok e]
    show ((liftM (pySet mps (i : ℤ) a) : TNM _) >>= _) _ = _
    rw [pySet_nat (by omega), TNM.lift_ok_bind, pySet_nat (by simpa using hl1)]
    rfl
  · rw [Function.update_of_ne (by omega), hD0]
  · rw [Function.update_of_ne (by omega), hDN]
  · intro j
    by_cases hj : j = i + 1
    · subst hj; rw [Function.update_self]; omega
    · rw [Function.update_of_ne hj]; exact hp j
  · intro j hj
    rw [List.getElem_set]
    split
    · next e => subst e; rw [sb, Function.update_self, Function.update_of_ne (by omega)]
    · next e =>
      rw [List.getElem_set, Function.update_of_ne (Ne.symm e)]
      split
      · next e => subst e; rw [sa, Function.update_self]
      · rw [Function.update_of_ne (by omega)]; exact hs j (by simpa using hj)
  · intro k hk
    by_cases hki : k = i + 1
    · subst hki
      rw [Function.update_self, if_pos rfl]
      exact hrank
    · rw [Function.update_of_ne hki, if_neg (by omega), one_mul]

theorem bits3_apply (x y z : Fin 2) : (![x, y, z] : Bits 3) 0 = x ∧ (![x, y, z] : Bits 3) 1 = y ∧
    (![x, y, z] : Bits 3) 2 = z := ⟨rfl, rfl, rfl⟩

theorem grows_three {svd : SVDOracle} (hv : ValidSVD svd) {G : Tensor ℂ} {M : QOp 3} (hG : Represents G M) {r : ℕ}
    (hM : ProdSum r M) {i : ℤ} (h0 : 1 ≤ i) (hi : i + 1 < N) :
    Grows N (fun k => if (k : ℤ) = i ∨ (k : ℤ) = i + 1 then r else 1)
      (fun mps => Gate.applyThree svd G mps i) := by
  intro mps D ⟨hl, hD0, hDN, hp, hs⟩ s
  obtain ⟨i, rfl⟩ : ∃ k : ℕ, i = ((k + 1 : ℕ) : ℤ) := ⟨(i - 1).toNat, by omega⟩
  have hiN : i + 2 < N := by omega
  have hl2 : i + 2 < mps.length := by omega
  have sA := hs i (by omega)
  have sB := hs (i + 1) (by omega)
  have sC := hs (i + 1 + 1) hl2
  have c0 : ((i + 1 : ℕ) : ℤ) - 1 = (i : ℤ) := by push_cast; ring
  have c2 : ((i + 1 : ℕ) : ℤ) + 1 = ((i + 2 : ℕ) : ℤ) := by push_cast; ring
  obtain ⟨t, et, st, gt⟩ := mergeThree_ok sA sB sC hG
  obtain ⟨m, sm, gm, hz, hok⟩ := decomp3_run hv st (hp i) (hp (i + 1 + 1 + 1)) s
  obtain ⟨P, hP⟩ := hM
  have gt1 : ∀ (x y z : Fin 2) a b, a < D i → b < D (i + 1 + 1 + 1) → t.get [(x : ℕ), (y : ℕ), (z : ℕ), a, b] =
      ∑ k, ∑ q ∈ range (D (i + 1)), (∑ x', P k 0 x x' * mps[i].get [(x' : ℕ), a, q]) *
        ∑ yz : Fin 2 × Fin 2, (P k 1 y yz.1 * P k 2 z yz.2) * ∑ c ∈ range (D (i + 1 + 1)),
          mps[i + 1].get [(yz.1 : ℕ), q, c] * mps[i + 1 + 1].get [(yz.2 : ℕ), c, b] := by
    intro x y z a b ha hb
    refine (gt ![x, y, z] a b ha hb).trans ?_
    rw [sum_triple_bits, ← sum_split]
    refine Finset.sum_congr rfl fun x' _ => ?_
    rw [Fintype.sum_prod_type]
    refine Finset.sum_congr rfl fun y' _ => Finset.sum_congr rfl fun z' _ => ?_
    rw [hP]
    simp only [Fin.prod_univ_three]
    congr 1
    · exact Finset.sum_congr rfl fun k _ => by rw [mul_assoc]; rfl
    · simp only [Finset.sum_mul, Finset.mul_sum]
      rw [Finset.sum_comm]
      exact Finset.sum_congr rfl fun q _ => Finset.sum_congr rfl fun c _ => by rw [mul_assoc]; rfl
  have gt2 : ∀ (x y z : Fin 2) a b, a < D i → b < D (i + 1 + 1 + 1) → t.get [(x : ℕ), (y : ℕ), (z : ℕ), a, b] =
      ∑ k, ∑ q ∈ range (D (i + 1 + 1)), (∑ xy : Fin 2 × Fin 2, (P k 0 x xy.1 * P k 1 y xy.2) *
          ∑ c ∈ range (D (i + 1)), mps[i].get [(xy.1 : ℕ), a, c] * mps[i + 1].get [(xy.2 : ℕ), c, q]) *
        ∑ z', P k 2 z z' * mps[i + 1 + 1].get [(z' : ℕ), q, b] := by
    intro x y z a b ha hb
    refine (gt ![x, y, z] a b ha hb).trans ?_
    rw [sum_triple_bits, ← sum_split, Fintype.sum_prod_type]
    refine Finset.sum_congr rfl fun x' _ => Finset.sum_congr rfl fun y' _ => Finset.sum_congr rfl fun z' _ => ?_
    rw [hP]
    simp only [Fin.prod_univ_three]
    rfl
  beta_reduce
  unfold Gate.applyThree
  rw [c0, c2, pyGet_nat (by omega), TNM.lift_ok_bind, pyGet_nat (by omega), TNM.lift_ok_bind,
    pyGet_nat hl2, TNM.lift_ok_bind, et, TNM.lift_ok_bind]
  by_cases h : bondDim (svd s m).S = 0
  · exact .inr ⟨_, TNM.bind_error (hz h) _⟩
  obtain ⟨m', sm', gm', hz', hok'⟩ := hok h
  by_cases h' : bondDim (svd (s ++ [m]) m').S = 0
  · exact .inr ⟨_, TNM.bind_error (hz' h') _⟩
  obtain ⟨a, b, c, e, sa, sb, sc, -⟩ := hok' h'
  have hr1 : bondDim (svd s m).S ≤ r * D (i + 1) := by
    refine (bondDim_le_rank (hv s m _ _ sm)).trans ?_
    refine rank_le_factor r (D (i + 1))
      (fun I k q => ∑ x', P k 0 (Fin.ofNat 2 (I / D i)) x' * mps[i].get [(x' : ℕ), I % D i, q])
      (fun k q J => ∑ yz : Fin 2 × Fin 2, (P k 1 (Fin.ofNat 2 (J / (2 * D (i + 1 + 1 + 1)))) yz.1 *
          P k 2 (Fin.ofNat 2 (J % (2 * D (i + 1 + 1 + 1)) / D (i + 1 + 1 + 1))) yz.2) *
        ∑ c ∈ range (D (i + 1 + 1)), mps[i + 1].get [(yz.1 : ℕ), q, c] *
          mps[i + 1 + 1].get [(yz.2 : ℕ), c, J % (2 * D (i + 1 + 1 + 1)) % D (i + 1 + 1 + 1)]) ?_
    intro I J hI hJ
    obtain ⟨x1, x2, x3⟩ := block_lt hI
    obtain ⟨y1, y2, y3⟩ := block_lt hJ
    obtain ⟨z1, z2, z3⟩ := block_lt y2
    have e1 := gm _ _ _ _ _ x1 y1 z1 x2 z2
    rw [← x3, ← z3, ← y3] at e1
    rw [e1]
    refine (gt1 ⟨_, x1⟩ ⟨_, y1⟩ ⟨_, z1⟩ _ _ x2 z2).trans ?_
    rw [← ofNat_lt x1, ← ofNat_lt y1, ← ofNat_lt z1]
  have hr2 : bondDim (svd (s ++ [m]) m').S ≤ r * D (i + 1 + 1) := by
    refine (bondDim_le_rank (hv (s ++ [m]) m' _ _ sm')).trans ?_
    refine rank_le_factor r (D (i + 1 + 1))
      (fun I k q => ∑ x : Fin 2, ∑ a ∈ range (D i), star ((svd s m).U.get [(x : ℕ) * D i + a,
          I % bondDim (svd s m).S]) * ∑ xy : Fin 2 × Fin 2, (P k 0 x xy.1 *
          P k 1 (Fin.ofNat 2 (I / bondDim (svd s m).S)) xy.2) *
          ∑ c ∈ range (D (i + 1)), mps[i].get [(xy.1 : ℕ), a, c] * mps[i + 1].get [(xy.2 : ℕ), c, q])
      (fun k q J => ∑ z', P k 2 (Fin.ofNat 2 (J / D (i + 1 + 1 + 1))) z' *
        mps[i + 1 + 1].get [(z' : ℕ), q, J % D (i + 1 + 1 + 1)]) ?_
    intro I J hI hJ
    obtain ⟨x1, x2, x3⟩ := block_lt hI
    obtain ⟨y1, y2, y3⟩ := block_lt hJ
    have e1 := gm' _ _ _ _ x1 x2 y1 y2
    rw [← x3, ← y3] at e1
    rw [e1, Finset.sum_range (n := 2)]
    have e2 : ∀ (x : Fin 2), ∀ a ∈ range (D i), t.get [(x : ℕ), I / bondDim (svd s m).S,
        J / D (i + 1 + 1 + 1), a, J % D (i + 1 + 1 + 1)] = _ := fun x a ha =>
      gt2 x ⟨_, x1⟩ ⟨_, y1⟩ a _ (Finset.mem_range.1 ha) y2
    rw [Finset.sum_congr rfl fun x _ => Finset.sum_congr rfl fun a ha => by rw [e2 x a ha]]
    rw [ofNat_lt x1, ofNat_lt y1]
    exact sum4_aux _ _ _ _ _
  have hle := bondDim_le (svd s m).S
  rw [(hv s m _ _ sm).lenS] at hle
  have hle' := bondDim_le (svd (s ++ [m]) m').S
  rw [(hv _ m' _ _ sm').lenS] at hle'
  set d := bondDim (svd s m).S
  set d' := bondDim (svd (s ++ [m]) m').S
  left
  refine ⟨((mps.set i a).set (i + 1) b).set (i + 2) c, s ++ [m] ++ [m'], ?_,
    Function.update (Function.update D (i + 1) d) (i + 2) d', ⟨by simpa using hl, ?_, ?_, ?_, ?_⟩, ?_⟩
  · rw [TNM.bind_ok e]
    show ((liftM (pySet mps (i : ℤ) a) : TNM _) >>= _) _ = _
    rw [pySet_nat (by omega), TNM.lift_ok_bind, pySet_nat (by simp; omega), TNM.lift_ok_bind,
      pySet_nat (by simpa using hl2)]
    rfl
  · rw [Function.update_of_ne (by omega), Function.update_of_ne (by omega), hD0]
  · rw [Function.update_of_ne (by omega), Function.update_of_ne (by omega), hDN]
  · intro j
    by_cases hj : j = i + 2
    · subst hj; rw [Function.update_self]; omega
    · rw [Function.update_of_ne hj]
      by_cases hj : j = i + 1
      · subst hj; rw [Function.update_self]; omega
      · rw [Function.update_of_ne hj]; exact hp j
  · intro j hj
    rw [List.getElem_set]
    split
    · next e =>
      subst e
      rw [sc, Function.update_self, Function.update_of_ne (by omega), Function.update_of_ne (by omega)]
    · next e2 =>
      rw [List.getElem_set, Function.update_of_ne (Ne.symm e2)]
      split
      · next e => subst e; rw [sb, Function.update_self, Function.update_self]
      · next e1 =>
        rw [List.getElem_set, Function.update_of_ne (Ne.symm e1), Function.update_of_ne (by omega)]
        split
        · next e => subst e; rw [sa, Function.update_self]
        · rw [Function.update_of_ne (by omega)]; exact hs j (by simpa using hj)
  · intro k hk
    by_cases hk2 : k = i + 2
    · subst hk2
      rw [Function.update_self, if_pos (by omega)]
      exact hr2
    · rw [Function.update_of_ne hk2]
      by_cases hk1 : k = i + 1
      · subst hk1
        rw [Function.update_self, if_pos (by omega)]
        exact hr1
      · rw [Function.update_of_ne hk1, if_neg (by omega), one_mul]

/-! ## Gates -/

/-- `pairGrowth` over the integers. -/
def pairZ (r : ℕ) (lo hi : ℤ) (k : ℕ) : ℕ := if lo < k ∧ (k : ℤ) < hi then 16 else if (k : ℤ) = hi then r else 1

theorem pairZ_next (r : ℕ) {i j : ℤ} (h : j = i + 1) (k : ℕ) : pairZ r i j k = if (k : ℤ) = i + 1 then r else 1 := by
  subst h
  unfold pairZ
  rw [if_neg (by omega)]

theorem grows_swap {svd : SVDOracle} (hv : ValidSVD svd) {g : Gate} {p q : ℤ}
    (hn : g.nqubits = (N : ℤ)) (hw : g.wires = .list [p, q]) {M : QOp 2} (hm : Represents g.matrix M)
    (hp : 0 ≤ p) (hp' : p < N) (hq : 0 ≤ q) (hq' : q < N) :
    Grows N (pairZ 4 (min p q) (max p q)) (g.swap_TN_operation svd) := by
  have h1 := Grows.fold (N := N) (fun _ => 4) 1 (fun mps i => Gate.applyTwo svd g.matrix mps i) _
    (nodup_pyRange2 (min p q) (max p q)) (fun i hi => by
      have := mem_pyRange2.1 hi
      exact grows_two hv hm (prodSum_four M) (by omega) (by omega))
  have h2 := Grows.fold (N := N) (fun _ => 4) 0 (fun mps i => Gate.applyTwo svd g.matrix mps (i - 1)) _
    (nodup_pyRangeDown (max p q - 1) (min p q)) (fun i hi => by
      have := mem_pyRangeDown.1 hi
      refine (grows_two hv hm (prodSum_four M) (i := i - 1) (by omega) (by omega)).mono fun k _ => ?_
      rw [sub_add_cancel, add_zero])
  have h3 := (h1.bind h2).mono (F' := pairZ 4 (min p q) (max p q)) fun k _ => by
    simp only [mem_pyRange2, mem_pyRangeDown, pairZ, sub_zero]
    split_ifs <;> omega
  intro mps D hD
  have h4 := h3 mps D hD
  unfold Gate.swap_TN_operation
  rw [guard_list hn hw, TNM.lift_ok_bind, hw, asList_list, TNM.lift_ok_bind]
  unfold Gate.swapTN
  rw [raiseIf_false (by simp), TNM.lift_ok_bind, pyMin_pair, TNM.lift_ok_bind, pyMax_pair,
    TNM.lift_ok_bind]
  exact h4

theorem grows_swapCall {svd : SVDOracle} (hv : ValidSVD svd) {p q : ℤ}
    (hp : 0 ≤ p) (hq : q < N) (h : q = p + 1) :
    Grows N (fun k => if (k : ℤ) = p + 1 then 4 else 1) (Gate.swapCall svd N p q) := by
  refine (grows_swap (g := mkSwap N (.list [p, q])) hv rfl rfl swapMat_rep hp (by omega) (by omega) hq).mono fun k _ => ?_
  rw [pairZ_next 4 (by omega)]
  split_ifs <;> omega

theorem grows_chain {svd : SVDOracle} (hv : ValidSVD svd) {G : Tensor ℂ} {M : QOp 2} (hG : Represents G M) {r : ℕ}
    (hM : ProdSum r M) {lo hi : ℤ} (h0 : 0 ≤ lo) (h1 : lo < hi) (h2 : hi < N) :
    Grows N (pairZ r lo hi) (fun mps => do
      let mps ← (pyRange2 lo (hi - 1)).foldlM (fun mps i => Gate.swapCall svd N i (i + 1) mps) mps
      let mps ← Gate.applyTwo svd G mps (hi - 1)
      (pyRangeDown (hi - 1) lo).foldlM (fun mps i => Gate.swapCall svd N (i - 1) i mps) mps) := by
  have e1 := Grows.fold (N := N) (fun _ => 4) 1 (fun mps i => Gate.swapCall svd N i (i + 1) mps) _
    (nodup_pyRange2 lo (hi - 1)) (fun i hi => by
      have := mem_pyRange2.1 hi
      exact grows_swapCall hv (by omega) (by omega) rfl)
  have e2 := Grows.fold (N := N) (fun _ => 4) 0 (fun mps i => Gate.swapCall svd N (i - 1) i mps) _
    (nodup_pyRangeDown (hi - 1) lo) (fun i hi => by
      have := mem_pyRangeDown.1 hi
      refine (grows_swapCall hv (p := i - 1) (by omega) (by omega) (by omega)).mono fun k _ => ?_
      rw [sub_add_cancel, add_zero])
  have e3 := grows_two (N := N) hv hG hM (i := hi - 1) (by omega) (by omega)
  refine (e1.bind (e3.bind e2)).mono fun k _ => ?_
  simp only [mem_pyRange2, mem_pyRangeDown, pairZ, sub_zero, sub_add_cancel]
  split_ifs <;> omega

theorem grows_ctrl {svd : SVDOracle} (hv : ValidSVD svd) {g : Gate} {c t : Fin N}
    (h : c ≠ t) (hn : g.nqubits = (N : ℤ)) (hw : g.wires = .list [wire c, wire t]) {m m' : Mat2}
    (hm : Represents (N := 2) g.matrix (controlled [0] 1 m)) {Grev : Py (Tensor ℂ)}
    (hr : ∃ G, Grev = .ok G ∧ Represents (N := 2) G (controlled [1] 0 m')) :
    Grows N (pairZ 2 (min (wire c) (wire t)) (max (wire c) (wire t))) (g.ctrl_TN_operation svd Grev) := by
  obtain ⟨G, hG, rG⟩ := hr
  have w0 : pyGet [wire c, wire t] 0 = .ok (wire c) := rfl
  have hc := c.isLt
  have ht := t.isLt
  have hne : (c : ℕ) ≠ t := fun e => h (Fin.ext e)
  intro mps D hD
  have hsel : ∃ G', (if wire c = min (wire c) (wire t) then .ok g.matrix else Grev : Py _) = .ok G' ∧
      ∃ M : QOp 2, Represents G' M ∧ ProdSum 2 M := by
    split
    · exact ⟨_, rfl, _, hm, controlled_prodSum (by decide) m⟩
    · exact ⟨G, hG, _, rG, controlled_prodSum (by decide) m'⟩
  obtain ⟨G', eG', M, sG', hM⟩ := hsel
  have := grows_chain hv sG' hM (lo := min (wire c) (wire t)) (hi := max (wire c) (wire t))
    (by unfold wire; omega) (by unfold wire; omega) (by unfold wire; omega) mps D hD
  unfold Gate.ctrl_TN_operation
  rw [guard_list hn hw, TNM.lift_ok_bind, hw, asList_list, TNM.lift_ok_bind,
    raiseIf_false (by simp), TNM.lift_ok_bind, pyMin_pair, TNM.lift_ok_bind, pyMax_pair,
    TNM.lift_ok_bind, w0, TNM.lift_ok_bind, hn, eG']
  exact this

theorem grows_cnot {svd : SVDOracle} (hv : ValidSVD svd) {g : Gate} {c t : Fin N}
    (h : c ≠ t) (hn : g.nqubits = (N : ℤ)) (hw : g.wires = .list [wire c, wire t]) :
    Grows N (pairZ 2 (min (wire c) (wire t)) (max (wire c) (wire t))) (g.cnot_TN_operation svd) := by
  obtain ⟨G, hG, rG⟩ := cnot_rev
  have w0 : pyGet [wire c, wire t] 0 = .ok (wire c) := rfl
  have hc := c.isLt
  have ht := t.isLt
  have hne : (c : ℕ) ≠ t := fun e => h (Fin.ext e)
  intro mps D hD
  have hsel : ∃ G', (if wire c = min (wire c) (wire t) then .ok cnotMat else
      (mkCnot 2 (.list [1, 0])).U_expand : Py _) = .ok G' ∧ ∃ M : QOp 2, Represents G' M ∧ ProdSum 2 M := by
    split
    · exact ⟨_, rfl, _, cnotMat_rep, controlled_prodSum (by decide) _⟩
    · exact ⟨G, hG, _, rG, controlled_prodSum (by decide) _⟩
  obtain ⟨G', eG', M, sG', hM⟩ := hsel
  have h1 := grows_chain hv sG' hM (lo := min (wire c) (wire t)) (hi := max (wire c) (wire t))
    (by unfold wire; omega) (by unfold wire; omega) (by unfold wire; omega) mps D hD
  have h2 := grows_two (N := N) hv sG' hM (i := min (wire c) (wire t)) (by unfold wire; omega)
    (by unfold wire; omega)
  unfold Gate.cnot_TN_operation
  rw [guard_list hn hw, TNM.lift_ok_bind, hw, asList_list, TNM.lift_ok_bind, pyMin_pair,
    TNM.lift_ok_bind, pyMax_pair, TNM.lift_ok_bind, w0, TNM.lift_ok_bind, hn, eG']
  split
  · next e =>
    refine h2.mono (fun k _ => ?_) mps D hD
    rw [pairZ_next 2 (by omega)]
  · exact h1

theorem grows_toffoli {svd : SVDOracle} (hv : ValidSVD svd) {g : Gate}
    {p q r : Fin N} (h1 : p ≠ q) (h2 : p ≠ r) (h3 : q ≠ r)
    (hn : g.nqubits = (N : ℤ)) (hw : g.wires = .list [wire p, wire q, wire r]) :
    Grows N (Instr.toffoli p q r).growth (g.toffoli_TN_operation svd) := by
  have hs : ∃ x y z : ℕ, x < y ∧ y < z ∧ z < N ∧ (x = min (min (p : ℕ) q) r) ∧ (z = max (max (p : ℕ) q) r) ∧
      x + y + z = (p : ℕ) + q + r ∧
      [wire p, wire q, wire r].mergeSort (· ≤ ·) = [(x : ℤ), (y : ℤ), (z : ℤ)] := by
    have sw : ∀ (a b c : ℤ), [a, b, c].Perm [b, a, c] := fun a b c => List.Perm.swap _ _ _
    have sw2 : ∀ (a b c : ℤ), [a, b, c].Perm [a, c, b] := fun a b c => (List.Perm.swap _ _ _).cons _
    have hw : ∀ {a b : Fin N}, a < b → wire a < wire b := fun h => by
      have : (_ : ℕ) < _ := h
      unfold wire; omega
    have fin : ∀ {x y z : Fin N}, x < y → y < z → [wire p, wire q, wire r].Perm [wire x, wire y, wire z] →
        ((x : ℕ) = min (min (p : ℕ) q) r) → ((z : ℕ) = max (max (p : ℕ) q) r) →
        (x : ℕ) + y + z = (p : ℕ) + q + r → ∃ x y z : ℕ, x < y ∧ y < z ∧ z < N ∧
          (x = min (min (p : ℕ) q) r) ∧ (z = max (max (p : ℕ) q) r) ∧ x + y + z = (p : ℕ) + q + r ∧
          [wire p, wire q, wire r].mergeSort (· ≤ ·) = [(x : ℤ), (y : ℤ), (z : ℤ)] :=
      fun {x y z} a b hper e1 e2 e3 => ⟨x, y, z, a, b, z.isLt, e1, e2, e3, sort3 (hw a) (hw b) hper⟩
    rcases lt_or_gt_of_ne h1 with a | a
    · rcases lt_or_gt_of_ne h3 with b | b
      · exact fin a b (List.Perm.refl _) (by omega) (by omega) (by omega)
      · rcases lt_or_gt_of_ne h2 with c | c
        · exact fin c b (sw2 _ _ _) (by omega) (by omega) (by omega)
        · exact fin c a ((sw2 _ _ _).trans (sw _ _ _)) (by omega) (by omega) (by omega)
    · rcases lt_or_gt_of_ne h2 with b | b
      · exact fin a b (sw _ _ _) (by omega) (by omega) (by omega)
      · rcases lt_or_gt_of_ne h3 with c | c
        · exact fin c b ((sw _ _ _).trans (sw2 _ _ _)) (by omega) (by omega) (by omega)
        · exact fin c a (((sw _ _ _).trans (sw2 _ _ _)).trans (sw _ _ _)) (by omega) (by omega) (by omega)
  obtain ⟨x, y, z, hxy, hyz, hz, ex, ez, es, hs⟩ := hs
  have hG : ∃ G, Gate.toffoliG (wire r) y z = .ok G ∧ ∃ M : QOp 3, Represents G M ∧ ProdSum 2 M := by
    obtain ⟨Gm, em, rm⟩ := toffoli_mid
    obtain ⟨Gu, eu, ru⟩ := toffoli_up
    unfold Gate.toffoliG
    split
    · exact ⟨_, rfl, _, toffoliMat_rep, controlled_prodSum (by decide) _⟩
    · split
      · exact ⟨Gm, em, _, rm, controlled_prodSum (by decide) _⟩
      · exact ⟨Gu, eu, _, ru, controlled_prodSum (by decide) _⟩
  obtain ⟨G, hG, M, sG, hM⟩ := hG
  have f1 := Grows.fold (N := N) (fun _ => 4) 1 (fun mps i => Gate.swapCall svd N i (i + 1) mps) _
    (nodup_pyRange2 (x : ℤ) (y - 1)) (fun i hi => by
      have := mem_pyRange2.1 hi
      exact grows_swapCall hv (by omega) (by omega) rfl)
  have f2 := Grows.fold (N := N) (fun _ => 4) 0 (fun mps i => Gate.swapCall svd N (i - 1) i mps) _
    (nodup_pyRangeDown (z : ℤ) (y + 1)) (fun i hi => by
      have := mem_pyRangeDown.1 hi
      refine (grows_swapCall hv (p := i - 1) (by omega) (by omega) (by omega)).mono fun k _ => ?_
      rw [sub_add_cancel, add_zero])
  have f3 := grows_three hv sG hM (i := (y : ℤ)) (N := N) (by omega) (by omega)
  have f4 := Grows.fold (N := N) (fun _ => 4) 0 (fun mps i => Gate.swapCall svd N (i - 1) i mps) _
    (nodup_pyRangeDown ((y : ℤ) - 1) x) (fun i hi => by
      have := mem_pyRangeDown.1 hi
      refine (grows_swapCall hv (p := i - 1) (by omega) (by omega) (by omega)).mono fun k _ => ?_
      rw [sub_add_cancel, add_zero])
  have f5 := Grows.fold (N := N) (fun _ => 4) 1 (fun mps i => Gate.swapCall svd N i (i + 1) mps) _
    (nodup_pyRange2 ((y : ℤ) + 1) z) (fun i hi => by
      have := mem_pyRange2.1 hi
      exact grows_swapCall hv (by omega) (by omega) rfl)
  have f := (f1.bind (f2.bind (f3.bind (f4.bind f5)))).mono (F' := (Instr.toffoli p q r).growth) fun k _ => by
    have ey : (p : ℕ) + q + r - min (min (p : ℕ) q) r - max (max (p : ℕ) q) r = y := by omega
    simp only [mem_pyRange2, mem_pyRangeDown, sub_zero, Instr.growth]
    rw [ey, ← ex, ← ez]
    clear ey ex ez es hs f1 f2 f3 f4 f5
    split_ifs <;> omega
  have g2 : pyGet [wire p, wire q, wire r] 2 = .ok (wire r) := rfl
  have s0 : pyGet [(x : ℤ), y, z] 0 = .ok (x : ℤ) := rfl
  have s1 : pyGet [(x : ℤ), y, z] 1 = .ok (y : ℤ) := rfl
  have s2 : pyGet [(x : ℤ), y, z] 2 = .ok (z : ℤ) := rfl
  intro mps D hD
  have f' := f mps D hD
  unfold Gate.toffoli_TN_operation
  rw [guard_list hn hw, TNM.lift_ok_bind, hw, asList_list, TNM.lift_ok_bind, hs]
  show ReturnsOr _ ((liftM (pyGet [(x : ℤ), y, z] 0) : TNM ℤ) >>= _)
  rw [s0, TNM.lift_ok_bind, s1, TNM.lift_ok_bind, s2, TNM.lift_ok_bind, hn]
  simp only [g2, TNM.lift_ok_bind, hG]
  exact f'

theorem pairZ_wire (r : ℕ) (p q : Fin N) (k : ℕ) :
    pairZ r (min (wire p) (wire q)) (max (wire p) (wire q)) k = pairGrowth r (min (p : ℕ) q) (max (p : ℕ) q) k := by
  unfold pairZ pairGrowth wire
  split_ifs <;> omega

theorem gate_grows {svd : SVDOracle} (hv : ValidSVD svd) (ins : Instr N)
    (h : ins.WF) (hc : Spec.Instr.mpsOp ins) :
    ∃ g, build ins = .ok g ∧ Grows N ins.growth (g.TN_operation svd) := by
  have one : ∀ (i : Fin N) {g : Gate}, g.nqubits = (N : ℤ) → g.wires = .int (wire i) → g.matrix.shape = [2, 2] →
      (∀ mps, g.TN_operation svd mps = TNM.lift (g.single_TN_operation mps)) →
      Grows N (fun _ => 1) (g.TN_operation svd) := fun i g h1 h2 h3 h4 =>
    Grows.of_keeps fun D => keeps_single i h1 h2 h3 h4
  cases ins with
  | h i => exact ⟨_, rfl, one i rfl rfl hadamardMat_rep.1 (fun _ => rfl)⟩
  | x i => exact ⟨_, rfl, one i rfl rfl pauliXMat_rep.1 (fun _ => rfl)⟩
  | y i => exact ⟨_, rfl, one i rfl rfl pauliYMat_rep.1 (fun _ => rfl)⟩
  | z i => exact ⟨_, rfl, one i rfl rfl pauliZMat_rep.1 (fun _ => rfl)⟩
  | rx θ i => exact ⟨_, rfl, one i rfl rfl (rotMat_rep pauliXMat_rep θ).1 (fun _ => rfl)⟩
  | ry θ i => exact ⟨_, rfl, one i rfl rfl (rotMat_rep pauliYMat_rep θ).1 (fun _ => rfl)⟩
  | rz θ i => exact ⟨_, rfl, one i rfl rfl (rotMat_rep pauliZMat_rep θ).1 (fun _ => rfl)⟩
  | u1 θ i => exact ⟨_, rfl, one i rfl rfl (u1Mat_rep θ).1 (fun _ => rfl)⟩
  | u3 θ φ l i =>
    obtain ⟨u, hu, hr⟩ := u3Mat_rep θ φ l
    refine ⟨⟨.u3, N, .int (wire i), [θ, φ, l], u, noMat⟩, ?_, one i rfl rfl hr.1 (fun _ => rfl)⟩
    simp only [build, mkU3, hu, Py.ok_bind]
  | rxx θ p q => exact hc.elim
  | ryy θ p q => exact hc.elim
  | rzz θ p q => exact hc.elim
  | cnot c t => exact ⟨_, rfl, (grows_cnot hv h rfl rfl).mono fun k _ => (pairZ_wire 2 c t k).le⟩
  | cz c t =>
    refine ⟨_, rfl, (grows_ctrl (g := mkCz N (.list [wire c, wire t])) (m' := Spec.Z) hv h rfl rfl czMat_rep ?_).mono
      fun k _ => (pairZ_wire 2 c t k).le⟩
    exact ctrl_rep (N := 2) (g := mkCz 2 (.list [1, 0])) (c := 1) (t := 0) (by decide) rfl
      rfl pauliZMat_rep
  | cphase θ c t =>
    refine ⟨_, rfl, (grows_ctrl (g := mkCphase θ N (.list [wire c, wire t])) (m := Spec.phase θ)
      (m' := Spec.phase θ) hv h rfl rfl ?_ ?_).mono fun k _ => (pairZ_wire 2 c t k).le⟩
    · rw [show (mkCphase θ N (.list [wire c, wire t])).matrix = cphaseMatUpd θ from
        (cphaseMat_eq θ).symm]
      exact cphaseMatUpd_rep θ
    · obtain ⟨g, hg, G, e, r⟩ := build_ok (N := 2) (.cphase θ 1 0) (show (1 : Fin 2) ≠ 0 by decide)
      cases hg
      exact ⟨G, e, r⟩
  | cu3 θ φ l c t =>
    obtain ⟨u, hu, hr⟩ := u3Mat_rep θ φ l
    obtain ⟨m, hm, rm⟩ := cu3_matrix hr
    refine ⟨⟨.cu3, N, .list [wire c, wire t], [θ, φ, l], m, u⟩, ?_,
      (grows_ctrl (g := ⟨.cu3, N, .list [wire c, wire t], [θ, φ, l], m, u⟩) hv h rfl rfl rm
        (two_qubit_control_rep (N := 2) (c := 1) (t := 0) (by decide) hr)).mono
        fun k _ => (pairZ_wire 2 c t k).le⟩
    simp only [build, mkCu3, hu, Py.ok_bind, hm]
  | swap p q =>
    have hne : (p : ℕ) ≠ q := fun e => h (Fin.ext e)
    have := p.isLt
    have := q.isLt
    refine ⟨_, rfl, (grows_swap (g := mkSwap N (.list [wire p, wire q])) hv rfl rfl swapMat_rep ?_ ?_ ?_ ?_).mono
      fun k _ => (pairZ_wire 4 p q k).le⟩ <;>
    · unfold wire
      omega
  | toffoli a b t => exact ⟨_, rfl, grows_toffoli hv h.1 h.2.1 h.2.2 rfl rfl⟩
  | mcnot cs t => exact hc.elim

/-! ## Rings -/

theorem grows_cnotCall {svd : SVDOracle} (hv : ValidSVD svd) {p q i : ℤ}
    (hi : 0 ≤ i) (hi' : i + 1 < N) (h : p = i ∧ q = i + 1 ∨ p = i + 1 ∧ q = i) :
    Grows N (fun k => if (k : ℤ) = i + 1 then 2 else 1) (Ring.cnotCall svd N p q) := by
  obtain ⟨p, rfl⟩ := Int.eq_ofNat_of_zero_le (show 0 ≤ p by omega)
  obtain ⟨q, rfl⟩ := Int.eq_ofNat_of_zero_le (show 0 ≤ q by omega)
  refine (grows_cnot (g := mkCnot N (.list [(p : ℤ), (q : ℤ)])) (c := ⟨p, by omega⟩) (t := ⟨q, by omega⟩)
    hv (by simp only [ne_eq, Fin.mk.injEq]; omega) rfl rfl).mono fun k _ => ?_
  have e : min (wire (⟨p, by omega⟩ : Fin N)) (wire (⟨q, by omega⟩ : Fin N)) = i := by unfold wire; dsimp only; omega
  rw [e, pairZ_next 2 (by unfold wire; dsimp only; omega)]

theorem grows_wrap {svd : SVDOracle} (hv : ValidSVD svd) :
    Grows N (fun k => if 0 < k ∧ k < N then (if k = N - 1 then 2 else 16) else 1) (Ring.wrapCnot svd N N) := by
  have h1 := Grows.fold (N := N) (fun i => if i = (N : ℤ) - 2 then 2 else 4) 1 (fun mps i =>
      if i ≠ (N : ℤ) - 2 then Ring.swapCall' svd N i (i + 1) mps else Ring.cnotCall svd N (i + 1) i mps) _
    (nodup_pyRange ((N : ℤ) - 1)) (fun i hi => by
      have := mem_pyRange_iff.1 hi
      by_cases e : i = (N : ℤ) - 2
      · simp only [ne_eq, e, not_true_eq_false, if_false, if_true]
        exact grows_cnotCall hv (by omega) (by omega) (.inr ⟨rfl, rfl⟩)
      · simp only [ne_eq, e, not_false_eq_true, if_false, if_true]
        exact grows_swapCall hv (by omega) (by omega) rfl)
  have h2 := Grows.fold (N := N) (fun _ => 4) 1 (fun mps i => Ring.swapCall' svd N i (i + 1) mps) _
    (nodup_pyRangeDown ((N : ℤ) - 3) (-1)) (fun i hi => by
      have := mem_pyRangeDown.1 hi
      exact grows_swapCall hv (by omega) (by omega) rfl)
  refine (show Grows N _ (Ring.wrapCnot svd N N) from h1.bind h2).mono fun k _ => ?_
  simp only [mem_pyRange_iff, mem_pyRangeDown]
  split_ifs <;> omega

theorem ring_grows {svd : SVDOracle} (hv : ValidSVD svd) (k : RingKind) (hk : k ≠ .ring2) :
    Grows N (fun k => if 0 < k ∧ k < N then (if N = 2 then 2 else if k = N - 1 then 4 else 32) else 1)
      ((⟨k, N, wires (List.finRange N)⟩ : Ring).TN_operation svd) := by
  have hlen2 : (((wires (List.finRange N)).length : ℕ) : ℤ) = (N : ℤ) := by simp [wires]
  have hw : ¬ (wires (List.finRange N) ≠ pyRange (N : ℤ)) := by rw [wires_finRange]; simp
  have f1 := Grows.fold (N := N) (fun _ => 2) 1 (fun mps i => Ring.cnotCall svd N i (i + 1) mps) _
    (nodup_pyRange ((N : ℤ) - 1)) (fun i hi => by
      have := mem_pyRange_iff.1 hi
      exact grows_cnotCall hv (by omega) (by omega) (.inl ⟨rfl, rfl⟩))
  have f2 := Grows.fold (N := N) (fun _ => 2) 1 (fun mps i => Ring.cnotCall svd N i (i + 1) mps) _
    (nodup_pyRangeDown ((N : ℤ) - 2) (-1)) (fun i hi => by
      have := mem_pyRangeDown.1 hi
      exact grows_cnotCall hv (by omega) (by omega) (.inl ⟨rfl, rfl⟩))
  intro mps D hD
  unfold Ring.TN_operation
  cases k
  · dsimp only
    rw [raiseIf_false hw, TNM.lift_ok_bind, hlen2]
    by_cases e : N = 2
    · have e' : (N : ℤ) = 2 := by omega
      simp only [e', if_true]
      rw [← e']
      refine (f1.bind Grows.pure).mono (fun k _ => ?_) mps D hD
      simp only [mem_pyRange_iff]
      split_ifs <;> omega
    · have e' : (N : ℤ) ≠ 2 := by omega
      simp only [e', if_false]
      refine (f1.bind (grows_wrap hv)).mono (fun k _ => ?_) mps D hD
      simp only [mem_pyRange_iff]
      split_ifs <;> omega
  · dsimp only
    rw [raiseIf_false hw, TNM.lift_ok_bind, hlen2]
    by_cases e : N = 2
    · have e' : (N : ℤ) = 2 := by omega
      rw [if_pos e', ← e']
      exact (grows_cnotCall hv (N := N) (p := 0) (q := 1) (i := 0) (by omega) (by omega) (.inl ⟨rfl, rfl⟩)).mono
        (fun k _ => by split_ifs <;> omega) mps D hD
    · have e' : (N : ℤ) ≠ 2 := by omega
      rw [if_neg e']
      refine ((grows_wrap hv).bind f2).mono (fun k _ => ?_) mps D hD
      simp only [mem_pyRangeDown]
      split_ifs <;> omega
  · exact absurd rfl hk

theorem item_grows {svd : SVDOracle} (hv : ValidSVD svd) (it : Item N) (h : it.WF)
    (hc : Spec.Item.mpsOp it) :
    ∃ o, buildItem it = .ok o ∧ o.supportTN = true ∧ Grows N it.growth (o.TN_operation svd) := by
  cases it with
  | gate ins =>
    obtain ⟨g, hg, rg⟩ := gate_grows hv ins h hc
    refine ⟨.gate g, by simp [buildItem, hg], ?_, rg⟩
    exact build_supportTN hg (by cases ins <;> trivial)
  | layer k ws p =>
    obtain ⟨hN, hw, hp⟩ := h
    exact ⟨.single ⟨layerCls k, N, wires ws, p⟩, by
      simp only [buildItem]
      rw [mkSLayer_ok hw (by rw [layerCls_arity]; exact hp.symm)]
      rfl, rfl, Grows.of_keeps fun D => sLayer_keeps _ rfl ws hw rfl
        (fun i => seqRot k.axes (p.drop (k.axes.length * i))) (fun _ hi => wireMat_rep k hi hp)⟩
  | hlayer ws =>
    obtain ⟨hN, hw⟩ := h
    exact ⟨.single ⟨.h, N, wires ws, []⟩, by
      simp only [buildItem]
      rw [mkSLayer_ok hw (by simp [LayerCls.arity])]
      rfl, rfl, Grows.of_keeps fun D => sLayer_keeps _ rfl ws hw rfl (fun _ => H)
        (fun _ _ => ⟨_, rfl, hadamardMat_rep⟩)⟩
  | ring ws =>
    obtain ⟨hw, h2⟩ := h
    have hc' : ws = List.finRange N := hc
    subst hc'
    exact ⟨.ring ⟨.ring, N, wires (List.finRange N)⟩, by
      simp only [buildItem]; rw [mkRing_ok hw h2]; rfl, rfl,
      ring_grows hv .ring (by simp)⟩
  | ringDag ws =>
    obtain ⟨hw, h2⟩ := h
    have hc' : ws = List.finRange N := hc
    subst hc'
    exact ⟨.ring ⟨.dagger, N, wires (List.finRange N)⟩, by
      simp only [buildItem]; rw [mkRing_ok hw h2]; rfl, rfl,
      ring_grows hv .dagger (by simp)⟩
  | ring2 ws => exact hc.elim
  | basic ws p reps => exact hc.elim

/-! ## Circuits -/

theorem circuit_grows {svd : SVDOracle} (hv : ValidSVD svd) (l : List (Item N))
    (h : ∀ it ∈ l, it.WF) (hc : ∀ it ∈ l, Spec.Item.mpsOp it) {ops : List Op}
    (hops : l.mapM buildItem = .ok ops) {c : Circuit} (hn : c.nqubits = N) (hg : c.gate = ops) :
    Grows N (fun k => (l.map fun it => it.growth k).prod) (c.TN_evolution svd) := by
  have hall : Grows N (fun k => (l.map fun it => it.growth k).prod) (fun mps => ops.foldlM (fun mps o =>
      if o.supportTN = true then o.TN_operation svd mps else TNM.lift (.error .valueError)) mps) := by
    clear hg
    induction l generalizing ops with
    | nil =>
      rw [List.mapM_nil] at hops
      cases hops
      exact Grows.pure.mono fun k _ => by simp
    | cons it l ih =>
      obtain ⟨o, ho, hs, hk⟩ := item_grows hv it (h it (by simp)) (hc it (by simp))
      rw [List.mapM_cons, ho, Py.ok_bind] at hops
      rcases hr : l.mapM buildItem with e | ops'
      · rw [hr, Py.error_bind] at hops; cases hops
      · rw [hr, Py.ok_bind] at hops
        cases hops
        have := hk.bind (ih (fun j hj => h j (by simp [hj])) (fun j hj => hc j (by simp [hj])) hr)
        refine (Grows.mono (F' := fun k => ((it :: l).map fun it => it.growth k).prod) this fun k _ => by simp).congr
          fun mps => ?_
        rw [List.foldlM_cons, if_pos hs]
  intro mps D hD
  unfold Circuit.TN_evolution
  rw [raiseIf_false (by simp [hD.1, hn]), TNM.lift_ok_bind, hg]
  exact hall mps D hD

end QTN
