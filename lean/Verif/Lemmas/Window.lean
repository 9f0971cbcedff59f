import Verif.Lemmas.Embed
import Verif.Lemmas.KronOp
import Verif.Lemmas.Items

/-! # Kronecker products with identities, and circuits placed on some wires of a larger register -/

namespace QTN

open Spec Matrix

namespace Tensor

theorem kron_at {a b : Tensor ℂ} {m n p q : ℕ} (ha : a.shape = [m, n]) (hb : b.shape = [p, q]) {i j : ℕ}
    (hi : i < m * p) (hj : j < n * q) : (a.kron b).get [i, j] = a.get [i / p, j / q] * b.get [i % p, j % q] := by
  have hp : 0 < p := Nat.pos_of_ne_zero (by rintro rfl; simp at hi)
  have hq : 0 < q := Nat.pos_of_ne_zero (by rintro rfl; simp at hj)
  rw [← kron_get2 ha hb (Nat.div_lt_of_lt_mul (by rwa [mul_comm])) (Nat.div_lt_of_lt_mul (by rwa [mul_comm]))
    (Nat.mod_lt _ hp) (Nat.mod_lt _ hq), Nat.div_add_mod', Nat.div_add_mod']

theorem ext_mat {a b : Tensor ℂ} {m n : ℕ} (ha : a.shape = [m, n]) (hb : b.shape = [m, n])
    (h : ∀ i j, i < m → j < n → a.get [i, j] = b.get [i, j]) : a = b := by
  apply Tensor.ext'
  · rw [ha, hb]
  · intro idx hi
    rw [ha] at hi
    match idx, hi with
    | [i, j], hi =>
      simp at hi
      exact h i j hi.1 hi.2
    | [], hi => simp at hi
    | [_], hi => simp at hi
    | _ :: _ :: _ :: _, hi => simp at hi

theorem kron_assoc {a b c : Tensor ℂ} {m n p q r s : ℕ} (ha : a.shape = [m, n]) (hb : b.shape = [p, q])
    (hc : c.shape = [r, s]) : (a.kron b).kron c = a.kron (b.kron c) := by
  have hab := kron_shape2 ha hb
  have hbc := kron_shape2 hb hc
  refine ext_mat (kron_shape2 hab hc) (by rw [kron_shape2 ha hbc, mul_assoc, mul_assoc]) fun i j hi hj => ?_
  have hi' : i < m * (p * r) := by rwa [← mul_assoc]
  have hj' : j < n * (q * s) := by rwa [← mul_assoc]
  have pos : ∀ {x y z : ℕ}, x < y * z → 0 < z := fun h => Nat.pos_of_ne_zero (by rintro rfl; simp at h)
  have dlt : ∀ {x y z : ℕ}, x < y * z → x / z < y := fun h => Nat.div_lt_of_lt_mul (by rwa [mul_comm])
  rw [kron_at hab hc hi hj, kron_at ha hb (dlt hi) (dlt hj), kron_at ha hbc hi' hj',
    kron_at hb hc (Nat.mod_lt _ (pos hi')) (Nat.mod_lt _ (pos hj'))]
  have e1 : ∀ x p r : ℕ, x / (p * r) = x / r / p := fun x p r => by rw [mul_comm, Nat.div_div_eq_div_mul]
  have e2 : ∀ x p r : ℕ, x % (p * r) / r = x / r % p := fun x p r => Nat.mod_mul_left_div_self x r p
  have e3 : ∀ x p r : ℕ, x % (p * r) % r = x % r := fun x p r => Nat.mod_mul_left_mod x p r
  rw [e1, e1, e2, e2, e3, e3, mul_assoc]

theorem eye_kron_eye (a b : ℕ) : (eye (2 ^ a) : Tensor ℂ).kron (eye (2 ^ b)) = eye (2 ^ (a + b)) :=
  Represents.ext ((represents_eye.kron represents_eye).congr kronOp_one) represents_eye

theorem eye1_kron {a : Tensor ℂ} {m n : ℕ} (ha : a.shape = [m, n]) : (eye (2 ^ 0) : Tensor ℂ).kron a = a := by
  refine ext_mat (m := m) (n := n) (by rw [kron_shape2 (eye_shape _) ha]; simp) ha fun i j hi hj => ?_
  rw [kron_at (eye_shape _) ha (by simpa using hi) (by simpa using hj), Nat.div_eq_of_lt hi, Nat.div_eq_of_lt hj,
    Nat.mod_eq_of_lt hi, Nat.mod_eq_of_lt hj, eye_get (by simp) (by simp)]
  simp

theorem kron_eye1 {a : Tensor ℂ} {m n : ℕ} (ha : a.shape = [m, n]) : a.kron (eye (2 ^ 0)) = a := by
  refine ext_mat (m := m) (n := n) (by rw [kron_shape2 ha (eye_shape _)]; simp) ha fun i j hi hj => ?_
  rw [kron_at ha (eye_shape _) (by simpa using hi) (by simpa using hj), eye_get (by simp [Nat.mod_one])
    (by simp [Nat.mod_one])]
  simp [Nat.mod_one]

theorem foldl_kron_eyes {a : Tensor ℂ} {m n : ℕ} (ha : a.shape = [m, n]) (k : ℕ) :
    (List.replicate k (eye 2)).foldl kron a = a.kron (eye (2 ^ k)) := by
  induction k generalizing a m n with
  | zero => rw [kron_eye1 ha]; rfl
  | succ k ih =>
    rw [List.replicate_succ, List.foldl_cons, ih (kron_shape2 ha (eye_shape 2)),
      kron_assoc ha (eye_shape 2) (eye_shape _), show (eye 2 : Tensor ℂ) = eye (2 ^ 1) from rfl, eye_kron_eye,
      Nat.add_comm 1 k]

theorem eyes_kron (s r : ℕ) {t : Tensor ℂ} {m n : ℕ} (ht : t.shape = [m, n]) :
    multi_kron (List.replicate s (eye 2) ++ [t] ++ List.replicate r (eye 2)) =
      .ok (((eye (2 ^ s)).kron t).kron (eye (2 ^ r))) := by
  cases s with
  | zero =>
    rw [eye1_kron ht]
    show Except.ok ((List.replicate r (eye 2)).foldl kron t) = _
    rw [foldl_kron_eyes ht]
  | succ s =>
    show Except.ok ((List.replicate s (eye 2) ++ [t] ++ List.replicate r (eye 2)).foldl kron (eye 2)) = _
    rw [List.foldl_append, List.foldl_append, foldl_kron_eyes (eye_shape 2), show (eye 2 : Tensor ℂ) = eye (2 ^ 1) from rfl,
      eye_kron_eye, Nat.add_comm 1 s, List.foldl_cons, List.foldl_nil, show (eye (2 ^ 1) : Tensor ℂ) = eye 2 from rfl,
      foldl_kron_eyes (kron_shape2 (eye_shape _) ht)]

end Tensor

variable {k n N : ℕ}

/-- The qubits `s, …, s+n-1`. -/
def Spec.window (s : ℕ) (h : s + n ≤ N) (i : Fin n) : Fin N := ⟨s + i, by omega⟩

theorem window_injective (s : ℕ) (h : s + n ≤ N) : Function.Injective (window s h) := fun i j e => by
  have := congrArg Fin.val e
  simp only [window] at this
  exact Fin.ext (by omega)

theorem window_rep {t : Tensor ℂ} {G : QOp n} (ht : Represents t G) {s r : ℕ} (h : s + n ≤ N) (hr : r = N - n - s) :
    Represents (((Tensor.eye (2 ^ s)).kron t).kron (Tensor.eye (2 ^ r))) (embed (window s h) G) := by
  obtain ⟨r', rfl⟩ := Nat.exists_eq_add_of_le h
  obtain rfl : r = r' := by omega
  refine ((represents_eye (N := s).kron ht).kron (represents_eye (N := r))).congr ?_
  ext a b
  simp only [kronOp, embed, Matrix.one_apply]
  have hG : ∀ c : Bits (s + n + r), (fun i => c (Fin.castAdd r (Fin.natAdd s i))) = c ∘ window s h := fun c => rfl
  rw [hG, hG]
  have hiff : (∀ j, (∀ i, window s h i ≠ j) → a j = b j) ↔
      ((fun i => a (Fin.castAdd r (Fin.castAdd n i))) = fun i => b (Fin.castAdd r (Fin.castAdd n i))) ∧
      ((fun i => a (Fin.natAdd (s + n) i)) = fun i => b (Fin.natAdd (s + n) i)) := by
    constructor
    · intro hh
      constructor
      · funext i
        refine hh _ fun l e => ?_
        have := congrArg Fin.val e
        simp [window] at this
        omega
      · funext i
        refine hh _ fun l e => ?_
        have := congrArg Fin.val e
        simp [window] at this
        omega
    · rintro ⟨h1, h2⟩ j hj
      by_cases c1 : (j : ℕ) < s
      · have := congrFun h1 ⟨j, c1⟩
        exact this
      · by_cases c2 : (j : ℕ) < s + n
        · exact absurd (Fin.ext (by simp only [window]; omega)) (hj ⟨j - s, by omega⟩)
        · have := congrFun h2 ⟨j - (s + n), by omega⟩
          have e : Fin.natAdd (s + n) (⟨j - (s + n), by omega⟩ : Fin r) = j := Fin.ext (by simp; omega)
          simpa only [e] using this
  split_ifs with h1 h2 h3 h3 h3 <;> first | simp | skip
  all_goals (exfalso; tauto)

theorem embed_conjTranspose (f : Fin k → Fin N) (M : QOp k) : (embed f M)ᴴ = embed f Mᴴ := by
  ext a b
  simp only [embed, Matrix.conjTranspose_apply]
  have : (∀ j, (∀ i, f i ≠ j) → b j = a j) ↔ ∀ j, (∀ i, f i ≠ j) → a j = b j :=
    ⟨fun h j hj => (h j hj).symm, fun h j hj => (h j hj).symm⟩
  split_ifs <;> first | rfl | tauto | simp

theorem embed_onEach {f : Fin k → Fin N} (hf : Function.Injective f) (g : Fin k → Mat2) (g' : Fin N → Mat2)
    (h1 : ∀ i, g' (f i) = g i) (h2 : ∀ j, (∀ i, f i ≠ j) → g' j = 1) : embed f (onEach g) = onEach g' := by
  ext a b
  simp only [embed, onEach]
  split_ifs with h
  · refine Fintype.prod_of_injective f hf _ _ (fun j hj => ?_) (fun i => by rw [h1]; rfl)
    have hj' : ∀ i, f i ≠ j := fun i e => hj ⟨i, e⟩
    rw [h2 j hj', h j hj', Matrix.one_apply_eq]
  · push Not at h
    obtain ⟨j, hj, hne⟩ := h
    exact (Finset.prod_eq_zero (Finset.mem_univ j) (by rw [h2 j hj, Matrix.one_apply_ne hne])).symm

theorem embed_layerOp {f : Fin k → Fin N} (hf : Function.Injective f) (axes : List Mat2) (ws : List (Fin k))
    (p : List ℝ) : embed f (layerOp axes ws p) = layerOp axes (ws.map f) p := by
  refine embed_onEach hf _ _ (fun i => ?_) (fun j hj => ?_)
  · have e : (ws.map f).idxOf (f i) = ws.idxOf i := by
      induction ws with
      | nil => rfl
      | cons a ws ih =>
        by_cases h : a = i
        · subst h; rw [List.map_cons, List.idxOf_cons_self, List.idxOf_cons_self]
        · have : f a ≠ f i := fun e => h (hf e)
          rw [List.map_cons, List.idxOf_cons_ne _ this, List.idxOf_cons_ne _ h, ih]
    have hm : f i ∈ ws.map f ↔ i ∈ ws := List.mem_map_of_injective hf
    simp only [e, hm]
  · rw [if_neg]
    intro h
    obtain ⟨i, -, rfl⟩ := List.mem_map.1 h
    exact hj i rfl

theorem embed_timeOrdered {f : Fin k → Fin N} (hf : Function.Injective f) (l : List (QOp k)) :
    embed f (timeOrdered l) = timeOrdered (l.map (embed f)) := by
  unfold timeOrdered
  rw [← embed_one f]
  generalize (1 : QOp k) = M
  induction l generalizing M with
  | nil => rfl
  | cons u l ih => rw [List.foldl_cons, ih, List.map_cons, List.foldl_cons, embed_mul hf]

theorem embed_ringOp {f : Fin k → Fin N} (hf : Function.Injective f) (d : ℕ) (ws : List (Fin k)) :
    embed f (ringOp d ws) = ringOp d (ws.map f) := by
  have key : embed f (timeOrdered (ringGates d ws)) = timeOrdered (ringGates d (ws.map f)) := by
    rw [embed_timeOrdered hf]
    congr 1
    unfold ringGates
    rw [List.map_ofFn]
    refine List.ext_getElem (by simp) fun i h1 h2 => ?_
    simp [embed_controlled hf]
  match ws with
  | [] => exact key
  | [a] => exact key
  | [a, b] => simp only [ringOp, List.map_cons, List.map_nil, embed_controlled hf]
  | a :: b :: c :: ws => exact key

theorem embed_basicOp {f : Fin k → Fin N} (hf : Function.Injective f) (ws : List (Fin k)) (p : List ℝ) (reps : ℕ) :
    embed f (basicOp ws p reps) = basicOp (ws.map f) p reps := by
  unfold basicOp
  rw [embed_timeOrdered hf, List.map_map]
  congr 1
  refine List.map_congr_left fun r _ => ?_
  simp only [Function.comp, ← embed_mul hf, embed_ringOp hf, embed_layerOp hf, List.length_map]

end QTN
