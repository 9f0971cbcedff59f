import Verif.Model.QOperator
import Verif.Lemmas.Bits

/-! # Kronecker products and matrix products of represented operators -/

namespace QTN

open Finset Spec

/-! ## Lists -/

theorem wrapIdx_nat {n k : ℕ} (h : k < n) : wrapIdx n (k : ℤ) = .ok k := by
  simp [wrapIdx, h]

theorem pyGet_nat {α : Type} {l : List α} {k : ℕ} (h : k < l.length) :
    pyGet l (k : ℤ) = .ok l[k] := by
  simp [pyGet, wrapIdx_nat h, h]

theorem pySet_nat {α : Type} {l : List α} {k : ℕ} (h : k < l.length) (v : α) :
    pySet l (k : ℤ) v = .ok (l.set k v) := by
  simp [pySet, wrapIdx_nat h]

theorem pySet_ofFn {α : Type} {N : ℕ} (f : Fin N → α) (i : Fin N) (v : α) :
    pySet (List.ofFn f) ((i : ℕ) : ℤ) v = .ok (List.ofFn (Function.update f i v)) := by
  rw [pySet_nat (by simp), set_ofFn]

theorem pyRep_nat {α : Type} (x : α) (N : ℕ) : pyRep x (N : ℤ) = List.ofFn (fun _ : Fin N => x) := by
  simp [pyRep]

/-! ## Tensor operations -/

namespace Tensor

theorem padTo_self {α : Type} [Zero α] (t : Tensor α) : t.padTo t.rank = t := by
  apply ext'
  · simp [padTo]
  · intro idx h
    have h' : inB (List.replicate (t.rank - t.rank) 1 ++ t.shape) idx = true := h
    rw [padTo, get_ofFn h']
    simp

theorem kron_eq {α : Type} [CommRing α] {a b : Tensor α} (h : a.rank = b.rank) :
    kron a b = kronEq a b := by
  unfold kron
  rw [h, max_self, padTo_self, ← h, padTo_self]

theorem kron_shape2 {α : Type} [CommRing α] {a b : Tensor α} {m n p q : ℕ}
    (ha : a.shape = [m, n]) (hb : b.shape = [p, q]) : (kron a b).shape = [m * p, n * q] := by
  rw [kron_eq (by simp [rank, ha, hb])]
  simp [kronEq, ha, hb]

theorem kron_get2 {α : Type} [CommRing α] {a b : Tensor α} {m n p q : ℕ}
    (ha : a.shape = [m, n]) (hb : b.shape = [p, q]) {i j k l : ℕ}
    (hi : i < m) (hj : j < n) (hk : k < p) (hl : l < q) :
    (kron a b).get [i * p + k, j * q + l] = a.get [i, j] * b.get [k, l] := by
  rw [kron_eq (by simp [rank, ha, hb])]
  have h1 : i * p + k < m * p := by
    calc i * p + k < i * p + p := by omega
      _ = (i + 1) * p := by ring
      _ ≤ m * p := Nat.mul_le_mul_right _ hi
  have h2 : j * q + l < n * q := by
    calc j * q + l < j * q + q := by omega
      _ = (j + 1) * q := by ring
      _ ≤ n * q := Nat.mul_le_mul_right _ hj
  unfold kronEq
  rw [get_ofFn (by simp [ha, hb, h1, h2])]
  have hp : 0 < p := by omega
  have hq : 0 < q := by omega
  simp [hb, Nat.mul_comm _ p, Nat.mul_comm _ q, Nat.mul_add_div hp, Nat.mul_add_div hq,
    Nat.div_eq_of_lt hk, Nat.div_eq_of_lt hl, Nat.mod_eq_of_lt hk,
    Nat.mod_eq_of_lt hl]

theorem matmul2 {α : Type} [CommRing α] {a b : Tensor α} {m n p : ℕ}
    (ha : a.shape = [m, n]) (hb : b.shape = [n, p]) :
    a.matmul b = .ok (ofFn [m, p] (fun idx =>
      ∑ x ∈ range n, a.get [idx.getD 0 0, x] * b.get [x, idx.getD 1 0])) := by
  simp [matmul, matmulND, rank, ha, hb, bcast, bcastRev, bIdx]

theorem matmul2_get {α : Type} [CommRing α] {a b c : Tensor α} {m n p i j : ℕ}
    (ha : a.shape = [m, n]) (hb : b.shape = [n, p]) (hc : a.matmul b = .ok c)
    (hi : i < m) (hj : j < p) :
    c.get [i, j] = ∑ x ∈ range n, a.get [i, x] * b.get [x, j] := by
  rw [matmul2 ha hb] at hc
  cases hc
  rw [get_ofFn (by simp [hi, hj])]
  rfl

theorem add_ok {α : Type} [CommRing α] {a b : Tensor α} (h : a.shape = b.shape) :
    a.add b = .ok (addT a b) := by simp [add, h, addT]

theorem sub_ok {α : Type} [CommRing α] {a b : Tensor α} (h : a.shape = b.shape) :
    a.sub b = .ok (subT a b) := by simp [sub, h, subT]

@[simp] theorem addT_get {α : Type} [CommRing α] {a b : Tensor α} (h : a.shape = b.shape)
    (idx : List ℕ) : (addT a b).get idx = a.get idx + b.get idx := by
  unfold addT
  by_cases hi : inB a.shape idx = true
  · rw [get_ofFn hi]
  · have hi' : inB a.shape idx = false := by simpa using hi
    rw [get_out (by simpa using hi'), get_out hi', get_out (h ▸ hi')]; simp

@[simp] theorem subT_get {α : Type} [CommRing α] {a b : Tensor α} (h : a.shape = b.shape)
    (idx : List ℕ) : (subT a b).get idx = a.get idx - b.get idx := by
  unfold subT
  by_cases hi : inB a.shape idx = true
  · rw [get_ofFn hi]
  · have hi' : inB a.shape idx = false := by simpa using hi
    rw [get_out (by simpa using hi'), get_out hi', get_out (h ▸ hi')]; simp

@[simp] theorem smul_get {α : Type} [CommRing α] (c : α) (a : Tensor α) (idx : List ℕ) :
    (smul c a).get idx = c * a.get idx := by
  unfold smul
  by_cases hi : inB a.shape idx = true
  · rw [get_ofFn hi]
  · have hi' : inB a.shape idx = false := by simpa using hi
    rw [get_out (by simpa using hi'), get_out hi']; simp

@[simp] theorem smul_shape {α : Type} [CommRing α] (c : α) (a : Tensor α) :
    (smul c a).shape = a.shape := rfl
@[simp] theorem addT_shape {α : Type} [CommRing α] (a b : Tensor α) :
    (addT a b).shape = a.shape := rfl
@[simp] theorem subT_shape {α : Type} [CommRing α] (a b : Tensor α) :
    (subT a b).shape = a.shape := rfl
@[simp] theorem eye_shape {α : Type} [CommRing α] (n : ℕ) : (eye n : Tensor α).shape = [n, n] := rfl

theorem eye_get {α : Type} [CommRing α] {n i j : ℕ} (hi : i < n) (hj : j < n) :
    (eye n : Tensor α).get [i, j] = if i = j then 1 else 0 := by
  unfold eye
  rw [get_ofFn (by simp [hi, hj])]
  simp

end Tensor

/-! ## Represented operators -/

section Rep
variable {N : ℕ}

theorem Spec.Represents.ext {s t : Tensor ℂ} {M : QOp N} (hs : Represents s M) (ht : Represents t M) :
    s = t := by
  apply Tensor.ext'
  · rw [hs.1, ht.1]
  · intro idx h
    rw [hs.1] at h
    match idx, h with
    | [i, j], h =>
      simp at h
      obtain ⟨a, rfl⟩ := exists_enc h.1
      obtain ⟨b, rfl⟩ := exists_enc h.2
      rw [hs.2, ht.2]
    | [], h => simp at h
    | [_], h => simp at h
    | _ :: _ :: _ :: _, h => simp at h

theorem Spec.Represents.unique {t : Tensor ℂ} {M M' : QOp N} (h : Represents t M)
    (h' : Represents t M') : M = M' := by
  ext a b; rw [← h.2, ← h'.2]

theorem Spec.Represents.congr {t : Tensor ℂ} {M M' : QOp N} (h : Represents t M) (e : M = M') :
    Represents t M' := e ▸ h

theorem Spec.Represents.addT {s t : Tensor ℂ} {M M' : QOp N} (h : Represents s M)
    (h' : Represents t M') : Represents (s.addT t) (M + M') :=
  ⟨h.1, fun a b => by
    rw [Tensor.addT_get (by rw [h.1, h'.1]), h.2, h'.2]; rfl⟩

theorem Spec.Represents.add {s t : Tensor ℂ} {M M' : QOp N} (h : Represents s M)
    (h' : Represents t M') : ∃ r, s.add t = .ok r ∧ Represents r (M + M') :=
  ⟨_, Tensor.add_ok (by rw [h.1, h'.1]), h.addT h'⟩

theorem Spec.Represents.subT {s t : Tensor ℂ} {M M' : QOp N} (h : Represents s M)
    (h' : Represents t M') : Represents (s.subT t) (M - M') :=
  ⟨h.1, fun a b => by
    rw [Tensor.subT_get (by rw [h.1, h'.1]), h.2, h'.2]; rfl⟩

theorem Spec.Represents.sub {s t : Tensor ℂ} {M M' : QOp N} (h : Represents s M)
    (h' : Represents t M') : ∃ r, s.sub t = .ok r ∧ Represents r (M - M') :=
  ⟨_, Tensor.sub_ok (by rw [h.1, h'.1]), h.subT h'⟩

theorem Spec.Represents.smul {s : Tensor ℂ} {M : QOp N} (h : Represents s M) (c : ℂ) :
    Represents (s.smul c) (c • M) :=
  ⟨h.1, fun a b => by rw [Tensor.smul_get, h.2]; rfl⟩

theorem Spec.Represents.matmul {s t : Tensor ℂ} {M M' : QOp N} (h : Represents s M)
    (h' : Represents t M') : ∃ r, s.matmul t = .ok r ∧ Represents r (M * M') := by
  refine ⟨_, Tensor.matmul2 h.1 h'.1, rfl, fun a b => ?_⟩
  rw [Tensor.get_ofFn (inB_enc2 a b), Matrix.mul_apply, sum_enc]
  apply Finset.sum_congr rfl
  intro c _
  simp only [List.getD_cons_zero, List.getD_cons_succ]
  rw [h.2, h'.2]

theorem represents_eye : Represents (Tensor.eye (2 ^ N)) (1 : QOp N) := by
  refine ⟨rfl, fun a b => ?_⟩
  rw [Tensor.eye_get (enc_lt a) (enc_lt b), Matrix.one_apply]
  simp [enc_injective.eq_iff]

theorem represents2_eye : Represents2 (Tensor.eye 2) (1 : Mat2) := by
  refine ⟨rfl, fun x y => ?_⟩
  rw [Tensor.eye_get x.2 y.2, Matrix.one_apply]
  simp [Fin.ext_iff]

theorem Spec.Represents2.ext {s t : Tensor ℂ} {M : Mat2} (hs : Represents2 s M) (ht : Represents2 t M) :
    s = t := by
  apply Tensor.ext'
  · rw [hs.1, ht.1]
  · intro idx h
    rw [hs.1] at h
    match idx, h with
    | [i, j], h =>
      simp only [inB_cons, inB_nil, Bool.and_eq_true, decide_eq_true_eq] at h
      exact (hs.2 ⟨i, h.1⟩ ⟨j, h.2.1⟩).trans (ht.2 ⟨i, h.1⟩ ⟨j, h.2.1⟩).symm
    | [], h => simp at h
    | [_], h => simp at h
    | _ :: _ :: _ :: _, h => simp at h

theorem Spec.Represents2.subT {s t : Tensor ℂ} {M M' : Mat2} (h : Represents2 s M)
    (h' : Represents2 t M') : Represents2 (s.subT t) (M - M') :=
  ⟨h.1, fun a b => by
    rw [Tensor.subT_get (by rw [h.1, h'.1]), h.2, h'.2]; rfl⟩

theorem Spec.Represents2.smul {s : Tensor ℂ} {M : Mat2} (h : Represents2 s M) (c : ℂ) :
    Represents2 (s.smul c) (c • M) :=
  ⟨h.1, fun a b => by rw [Tensor.smul_get, h.2]; rfl⟩

theorem Spec.Represents2.matmul {s t : Tensor ℂ} {M M' : Mat2} (h : Represents2 s M)
    (h' : Represents2 t M') : ∃ r, s.matmul t = .ok r ∧ Represents2 r (M * M') := by
  refine ⟨_, Tensor.matmul2 h.1 h'.1, rfl, fun a b => ?_⟩
  rw [Tensor.get_ofFn (by simp only [inB_cons, inB_nil, Bool.and_eq_true, decide_eq_true_eq]; exact ⟨a.2, b.2, trivial⟩),
    Matrix.mul_apply]
  rw [Finset.sum_range]
  apply Finset.sum_congr rfl
  intro c _
  simp only [List.getD_cons_zero, List.getD_cons_succ]
  rw [h.2, h'.2]

/-- Entries of `multi_kron`. -/
theorem multi_kron_rep {n : ℕ} (f : Fin (n + 1) → Tensor ℂ) (g : Fin (n + 1) → Mat2)
    (h : ∀ i, Represents2 (f i) (g i)) :
    ∃ t, multi_kron (List.ofFn f) = .ok t ∧ Represents t (onEach g) := by
  induction n with
  | zero =>
    refine ⟨f 0, by simp [multi_kron], (h 0).1, fun a b => ?_⟩
    simp only [onEach, Fin.prod_univ_succ, Finset.univ_eq_empty, Finset.prod_empty, mul_one]
    rw [enc_succ, enc_succ, enc_zero, enc_zero]
    simpa using (h 0).2 (a 0) (b 0)
  | succ n ih =>
    obtain ⟨t, ht, hr⟩ := ih (fun i => f i.castSucc) (fun i => g i.castSucc) (fun i => h _)
    rw [List.ofFn_succ', List.concat_eq_append]
    have : multi_kron (List.ofFn (fun i : Fin (n + 1) => f i.castSucc) ++ [f (Fin.last _)]) =
        .ok (t.kron (f (Fin.last _))) := by
      rw [List.ofFn_succ] at ht ⊢
      simp only [multi_kron, Except.ok.injEq] at ht
      simp [multi_kron, List.foldl_append, ← ht]
    refine ⟨_, this, ?_, fun a b => ?_⟩
    · rw [Tensor.kron_shape2 hr.1 (h _).1]; simp [pow_succ]
    · rw [enc_snoc a, enc_snoc b,
        Tensor.kron_get2 hr.1 (h _).1 (enc_lt _) (enc_lt _) (a _).2 (b _).2, hr.2, (h _).2]
      simp only [onEach, Fin.prod_univ_castSucc]

end Rep

end QTN
