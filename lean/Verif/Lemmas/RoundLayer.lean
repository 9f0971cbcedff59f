import Verif.Lemmas.RoundStep
import Verif.Lemmas.Lipschitz

/-! # The rounding errors of single-qubit layers -/

namespace QTN

open Spec Matrix Complex Finset

variable {N : ℕ}

/-! ## Norms of tensor products -/

theorem Bnd.mul {c d : ℝ} {M M' : QOp N} (hc : 0 ≤ c) (h : Bnd c M) (h' : Bnd d M') : Bnd (c * d) (M * M') := fun v => by
  rw [← Matrix.mulVec_mulVec, mul_assoc]
  exact (h _).trans (mul_le_mul_of_nonneg_left (h' v) hc)

theorem onEach_insert {i : Fin N} {s : Finset (Fin N)} (hi : i ∉ s) (f : Fin N → Mat2) :
    (onEach fun j => if j ∈ insert i s then f j else 1) = onQubit i (f i) * onEach fun j => if j ∈ s then f j else 1 := by
  rw [← onEach_update_one, onEach_mul]
  congr 1
  funext j
  by_cases hj : j = i
  · subst hj; simp [hi]
  · simp [hj, Finset.mem_insert]

theorem bnd_onEach {g : Fin N → Mat2} {c : Fin N → ℝ} (h : ∀ j, Bnd (c j) (onQubit j (g j))) :
    Bnd (∏ j, c j) (onEach g) := by
  have key : ∀ s : Finset (Fin N), Bnd (∏ j ∈ s, c j) (onEach fun j => if j ∈ s then g j else 1) := by
    intro s
    induction s using Finset.induction_on with
    | empty => simpa [onEach_one] using Bnd.unitary (N := N) isUnitaryOp_one
    | insert i s hi ih =>
      rw [onEach_insert hi, Finset.prod_insert hi]
      exact Bnd.mul (Arith.bnd_nonneg (h i)) (h i) ih
  simpa using key Finset.univ

theorem bnd_onEach_sub {g G : Fin N → Mat2} {e : Fin N → ℝ} (hG : ∀ j, IsU2 (G j))
    (h : ∀ j, Bnd (e j) (onQubit j (g j - G j))) : Bnd (∏ j, (1 + e j) - 1) (onEach g - onEach G) := by
  have key : ∀ s : Finset (Fin N), Bnd (∏ j ∈ s, (1 + e j) - 1)
      ((onEach fun j => if j ∈ s then g j else 1) - onEach fun j => if j ∈ s then G j else 1) := by
    intro s
    induction s using Finset.induction_on with
    | empty => intro v; simp [norm2]
    | insert i s hi ih =>
      rw [onEach_insert hi, onEach_insert hi, Finset.prod_insert hi]
      set x := onEach fun j => if j ∈ s then g j else 1
      set y := onEach fun j => if j ∈ s then G j else 1 with hy
      have hyu : IsUnitaryOp y := by
        refine onEach_unitary fun j => ?_
        by_cases hj : j ∈ s
        · rw [if_pos hj]; exact hG j
        · rw [if_neg hj]; exact IsU2.of_left (by simp)
      have hx : Bnd (∏ j ∈ s, (1 + e j)) x := by
        have h1 := ih.add (Bnd.unitary hyu)
        have e0 : x - y + y = x := sub_add_cancel x y
        rw [e0] at h1
        exact h1.mono (by linarith)
      have e1 : onQubit i (g i) * x - onQubit i (G i) * y =
          onQubit i (g i - G i) * x + onQubit i (G i) * (x - y) := by
        rw [← Arith.onQubit_sub, Matrix.sub_mul, Matrix.mul_sub]; abel
      rw [e1]
      refine ((Bnd.mul (Arith.bnd_nonneg (h i)) (h i) hx).add
        (Bnd.mul zero_le_one (Bnd.unitary (onQubit_unitary (hG i) i)) ih)).mono (le_of_eq ?_)
      ring
  simpa using key Finset.univ

theorem absOp_onEach (g : Fin N → Mat2) : absOp (onEach g) = onEach fun j => absOp (g j) := by
  ext a b
  unfold absOp onEach
  simp

/-- An entrywise relative error. -/
theorem bnd_rel {M G : QOp N} {κ B : ℝ} (hκ : 0 ≤ κ) (h : ∀ a b, ‖M a b‖ ≤ κ * ‖G a b‖) (hB : Bnd B (absOp G)) :
    Bnd (κ * B) M := fun v => by
  have h1 := hB (fun a => ((‖v a‖ : ℝ) : ℂ))
  have h2 : norm2 (fun a => ((‖v a‖ : ℝ) : ℂ)) = norm2 v := by unfold norm2; simp
  rw [h2] at h1
  have h3 : ∀ a, ‖(M *ᵥ v) a‖ ≤ ‖(((κ : ℝ) : ℂ) • (absOp G *ᵥ fun a => ((‖v a‖ : ℝ) : ℂ))) a‖ := fun a => by
    have e : (((κ : ℝ) : ℂ) • (absOp G *ᵥ fun a => ((‖v a‖ : ℝ) : ℂ))) a = ((κ * ∑ b, ‖G a b‖ * ‖v b‖ : ℝ) : ℂ) := by
      simp [Matrix.mulVec, dotProduct, absOp]
    rw [e, Complex.norm_real, Real.norm_of_nonneg (mul_nonneg hκ (Finset.sum_nonneg fun _ _ => by positivity)),
      Finset.mul_sum]
    refine (norm_sum_le _ _).trans (Finset.sum_le_sum fun b _ => ?_)
    rw [norm_mul, ← mul_assoc]
    exact mul_le_mul_of_nonneg_right (h a b) (norm_nonneg _)
  refine (norm2_mono h3).trans ?_
  rw [norm2_smul, Complex.norm_real, Real.norm_of_nonneg hκ, mul_assoc]
  exact mul_le_mul_of_nonneg_left h1 hκ

theorem bnd_rel_abs {M G : QOp N} {κ B : ℝ} (hκ : 0 ≤ κ) (h : ∀ a b, ‖M a b‖ ≤ κ * ‖G a b‖) (hB : Bnd B (absOp G)) :
    Bnd (κ * B) (absOp M) :=
  bnd_rel hκ (fun a b => by unfold absOp; rw [Complex.norm_real, norm_norm]; exact h a b) hB

namespace Arith

variable {A : Arith}

/-! ## Kronecker products of several rounded matrices -/

theorem kron_get {s t : Tensor ℂ} {m n : ℕ} (hs : s.shape = [m, m]) (ht : t.shape = [n, n]) {i j k l : ℕ}
    (hi : i < m) (hj : j < m) (hk : k < n) (hl : l < n) :
    (A.kron s t).get [i * n + k, j * n + l] = A.mul (s.get [i, j]) (t.get [k, l]) := by
  have h1 : i * n + k < m * n := by nlinarith
  have h2 : j * n + l < m * n := by nlinarith
  unfold kron
  rw [hs, ht]
  rw [Tensor.get_ofFn (by simp [h1, h2])]
  have hn : 0 < n := by omega
  have q : ∀ x y, y < n → (x * n + y) / n = x ∧ (x * n + y) % n = y := fun x y hy =>
    ⟨by rw [mul_comm, Nat.mul_add_div hn, Nat.div_eq_of_lt hy, add_zero],
      by rw [mul_comm, Nat.mul_add_mod, Nat.mod_eq_of_lt hy]⟩
  simp [q i k hk, q j l hl]

theorem kron_err (f : Fin N → Tensor ℂ) (g : Fin N → Mat2) (hN : 0 < N) (h : ∀ i, Represents2 (f i) (g i))
    (hr : ∀ i, RepM A (g i)) (c : Fin N → ℕ) (hc : ∀ i, c i = 0 → SignM (g i)) :
    ∃ t G, A.multi_kron (List.ofFn f) = .ok t ∧ Represents t G ∧ RepM A G ∧
      ∀ a b, ‖G a b - onEach g a b‖ ≤ ((1 + mulErr A.u) ^ (∑ i, c i) - 1) * ‖onEach g a b‖ := by
  obtain ⟨n, rfl⟩ : ∃ n, N = n + 1 := ⟨N - 1, by omega⟩
  have hμ := mulErr_nonneg A.u_nonneg
  have hp : ∀ k : ℕ, (1 : ℝ) ≤ (1 + mulErr A.u) ^ k := fun k => one_le_pow₀ (by linarith)
  induction n with
  | zero =>
    refine ⟨f 0, fun a b => g 0 (a 0) (b 0), by simp [multi_kron], ⟨(h 0).1, fun a b => ?_⟩, fun a b => hr 0 _ _, fun a b => ?_⟩
    · rw [enc_succ, enc_succ, enc_zero, enc_zero]
      simpa using (h 0).2 (a 0) (b 0)
    · have : onEach g a b = g 0 (a 0) (b 0) := by simp [onEach]
      rw [this, sub_self, norm_zero]
      exact mul_nonneg (by linarith [hp (∑ i, c i)]) (norm_nonneg _)
  | succ n ih =>
    obtain ⟨t, G, ht, hR, hG, he⟩ := ih (fun i => f i.castSucc) (fun i => g i.castSucc) (by omega) (fun i => h _)
      (fun i => hr _) (fun i => c i.castSucc) (fun i => hc _)
    rw [List.ofFn_succ', List.concat_eq_append]
    have hk : A.multi_kron (List.ofFn (fun i : Fin (n + 1) => f i.castSucc) ++ [f (Fin.last _)]) =
        .ok (A.kron t (f (Fin.last _))) := by
      rw [List.ofFn_succ] at ht ⊢
      simp only [multi_kron, Except.ok.injEq] at ht
      simp [multi_kron, List.foldl_append, ← ht]
    refine ⟨_, fun a b => A.mul (G (fun i => a i.castSucc) (fun i => b i.castSucc))
      (g (Fin.last _) (a (Fin.last _)) (b (Fin.last _))), hk, ⟨?_, fun a b => ?_⟩, fun a b => mul_rep _ _, fun a b => ?_⟩
    · unfold kron
      rw [hR.1, (h _).1]
      simp [Tensor.ofFn, pow_succ]
    · rw [enc_snoc a, enc_snoc b, kron_get hR.1 (h _).1 (enc_lt _) (enc_lt _) (a _).2 (b _).2, hR.2, (h _).2]
    · set x := G (fun i => a i.castSucc) (fun i => b i.castSucc)
      set w := g (Fin.last _) (a (Fin.last _)) (b (Fin.last _))
      set y := onEach (fun i => g i.castSucc) (fun i => a i.castSucc) (fun i => b i.castSucc)
      have e1 : onEach g a b = y * w := by simp only [onEach, Fin.prod_univ_castSucc, y, w]
      have e2 : ‖x - y‖ ≤ ((1 + mulErr A.u) ^ (∑ i, c (Fin.castSucc i)) - 1) * ‖y‖ := he _ _
      show ‖A.mul x w - onEach g a b‖ ≤ _
      rw [e1, norm_mul, Fin.sum_univ_castSucc]
      set S := ∑ i, c (Fin.castSucc i)
      have hS := hp S
      have e3 : ‖x * w - y * w‖ ≤ ((1 + mulErr A.u) ^ S - 1) * (‖y‖ * ‖w‖) := by
        rw [← sub_mul, norm_mul, ← mul_assoc]
        exact mul_le_mul_of_nonneg_right e2 (norm_nonneg _)
      have hyw : 0 ≤ ‖y‖ * ‖w‖ := by positivity
      by_cases h0 : c (Fin.last _) = 0
      · rw [mul_sign (hG _ _) (hc _ h0 _ _), h0, add_zero]
        exact e3
      · have e4 := mul_err A x w
        have e5 : ‖x‖ ≤ (1 + mulErr A.u) ^ S * ‖y‖ := by
          have := norm_add_le (x - y) y
          rw [sub_add_cancel] at this
          linarith
        have e6 : ‖x‖ * ‖w‖ ≤ (1 + mulErr A.u) ^ S * (‖y‖ * ‖w‖) := by
          rw [← mul_assoc]; exact mul_le_mul_of_nonneg_right e5 (norm_nonneg _)
        have e7 : (1 + mulErr A.u) ^ S * (1 + mulErr A.u) ≤ (1 + mulErr A.u) ^ (S + c (Fin.last (n + 1))) := by
          rw [← pow_succ]
          exact pow_le_pow_right₀ (by linarith) (by omega)
        have e8 := norm_sub_le_norm_sub_add_norm_sub (A.mul x w) (x * w) (y * w)
        have e9 := mul_le_mul_of_nonneg_left e6 hμ
        have e10 := mul_le_mul_of_nonneg_right e7 hyw
        nlinarith

/-! ## A layer -/

theorem rows_of {G : QOp N} {ws : List (Fin N)} (h : ∀ a b, G a b ≠ 0 → ∀ j, j ∉ ws → a j = b j) :
    Rows (2 ^ ws.length) G := fun a => by
  have h1 : (univ.filter (fun b => G a b ≠ 0)).card ≤ (univ : Finset ({j // j ∈ ws.toFinset} → Fin 2)).card := by
    refine Finset.card_le_card_of_injOn (fun b j => b j.1) (fun _ _ => Finset.mem_coe.2 (mem_univ _)) ?_
    intro b hb b' hb' e
    have g1 : G a b ≠ 0 := by simpa using hb
    have g2 : G a b' ≠ 0 := by simpa using hb'
    funext j
    by_cases hj : j ∈ ws
    · exact congrFun e ⟨j, by simpa using hj⟩
    · rw [← h a b g1 j hj, ← h a b' g2 j hj]
  refine h1.trans ?_
  rw [Finset.card_univ, Fintype.card_fun, Fintype.card_fin, Fintype.card_coe]
  exact Nat.pow_le_pow_right (by norm_num) (List.toFinset_card_le ws)

theorem prod_ite_ws {ws : List (Fin N)} (hw : ws.Nodup) (x : ℝ) :
    ∏ j, (if j ∈ ws then x else 1) = x ^ ws.length := by
  rw [← Finset.prod_filter, Finset.prod_const]
  congr 1
  rw [← List.toFinset_card_of_nodup hw]
  congr 1
  ext j; simp

theorem sum_ite_ws {ws : List (Fin N)} (hw : ws.Nodup) : ∑ j, (if j ∈ ws then 1 else 0) = ws.length := by
  rw [← Finset.card_filter, ← List.toFinset_card_of_nodup hw]
  congr 1
  ext j; simp

theorem absOp_one2 : absOp (1 : Mat2) = 1 := by
  ext x y; unfold absOp; rw [Matrix.one_apply]; split <;> simp

/-- A layer of rounded single-qubit matrices, each with the error `ε`. -/
theorem compG_layer (hN : 0 < N) {l : SLayer} {ws : List (Fin N)} (hw : ws.Nodup) (hn : l.nqubits = N)
    (hl : l.wires = wires ws) {M : ℕ → Mat2} {ε : ℝ} (h : ∀ i < ws.length, Near A (A.wireMat l i) (M i) (1 + ε)) (h0 : 0 ≤ ε) :
    CompG A (A.layerU l) (onEach fun j => if j ∈ ws then M (ws.idxOf j) else 1) (layerCost A.u ws.length ε) ∧
      RepP A N (A.layerU l) := by
  have hμ := mulErr_nonneg A.u_nonneg
  have hs2 := Real.sqrt_nonneg 2
  have h' : ∀ i, ∃ m : Mat2, i < ws.length → (∃ t, A.wireMat l i = .ok t ∧ Represents2 t m) ∧ RepM A m ∧ IsU2 (M i) ∧
      frob (m - M i) ≤ ε := fun i => by
    by_cases hi : i < ws.length
    · obtain ⟨t, m, h1, h2, h3, h4, h5⟩ := h i hi
      exact ⟨m, fun _ => ⟨⟨t, h1, h2⟩, h3, h4, by linarith⟩⟩
    · exact ⟨1, fun hi' => absurd hi' hi⟩
  choose m hm using h'
  obtain ⟨f, hf, hrf⟩ := calGates_rep ws hw m (fun i hi => (hm i hi).1)
  set g : Fin N → Mat2 := fun j => if j ∈ ws then m (ws.idxOf j) else 1 with hg
  set T : Fin N → Mat2 := fun j => if j ∈ ws then M (ws.idxOf j) else 1 with hT
  have idx : ∀ {j}, j ∈ ws → ws.idxOf j < ws.length := fun h => List.idxOf_lt_length_of_mem h
  obtain ⟨t, G, ht, hR, hG, he⟩ := kron_err (A := A) f g hN hrf (fun j => by
      by_cases hj : j ∈ ws
      · simp only [hg, if_pos hj]; exact (hm _ (idx hj)).2.1
      · simp only [hg, if_neg hj]; exact signM_one.rep) (fun j => if j ∈ ws then 1 else 0) (fun j hj => by
      by_cases hj' : j ∈ ws
      · simp [hj'] at hj
      · simp only [hg, if_neg hj']; exact signM_one)
  rw [sum_ite_ws hw] at he
  set κ := (1 + mulErr A.u) ^ ws.length - 1 with hκ
  have hκ0 : 0 ≤ κ := by
    have : (1 : ℝ) ≤ (1 + mulErr A.u) ^ ws.length := one_le_pow₀ (by linarith)
    linarith
  have hTu : ∀ j, IsU2 (T j) := fun j => by
    by_cases hj : j ∈ ws
    · simp only [hT, if_pos hj]; exact (hm _ (idx hj)).2.2.1
    · simp only [hT, if_neg hj]; exact IsU2.of_left (by simp)
  have hB : Bnd ((Real.sqrt 2 + ε) ^ ws.length) (absOp (onEach g)) := by
    rw [absOp_onEach, ← prod_ite_ws hw]
    refine bnd_onEach fun j => ?_
    by_cases hj : j ∈ ws
    · simp only [hg, if_pos hj]
      obtain ⟨-, -, h2, h3⟩ := hm _ (idx hj)
      refine (bnd_onQubit j _).mono ?_
      rw [frob_absOp]
      exact (frob_near h2).trans (by linarith)
    · simp only [hg, if_neg hj]
      rw [absOp_one2, onQubit_one]
      exact Bnd.unitary isUnitaryOp_one
  have hE : Bnd ((1 + ε) ^ ws.length - 1) (onEach g - onEach T) := by
    have : ∏ j, (1 + (if j ∈ ws then ε else 0)) = (1 + ε) ^ ws.length := by
      rw [← prod_ite_ws hw]
      refine Finset.prod_congr rfl fun j _ => ?_
      by_cases hj : j ∈ ws <;> simp [hj]
    rw [← this]
    refine bnd_onEach_sub hTu fun j => ?_
    by_cases hj : j ∈ ws
    · simp only [hg, hT, if_pos hj]
      exact (bnd_onQubit j _).mono (hm _ (idx hj)).2.2.2
    · simp only [hg, hT, if_neg hj, sub_self]
      have : onQubit j (0 : Mat2) = 0 := by ext a b; unfold onQubit; split <;> simp
      rw [this]
      intro v; simp [norm2]
  have hGle : ∀ a b, ‖G a b‖ ≤ (1 + κ) * ‖onEach g a b‖ := fun a b => by
    have := norm_add_le (G a b - onEach g a b) (onEach g a b)
    rw [sub_add_cancel] at this
    linarith [he a b]
  have hU : A.layerU l = .ok t := by
    unfold layerU
    rw [hn, hl, hf, Py.ok_bind, ht]
  refine ⟨⟨t, G, hU, hR, ?_, Or.inr ⟨2 ^ ws.length, ((1 + ε) ^ ws.length - 1) + κ * (Real.sqrt 2 + ε) ^ ws.length,
    (1 + κ) * (Real.sqrt 2 + ε) ^ ws.length, rows_of fun a b hab j hj => ?_, bnd_rel_abs (by linarith) hGle hB, ?_, ?_⟩⟩, fun U G' h1 h2 => ?_⟩
  · have h1 : (1 : ℝ) ≤ (1 + ε) ^ ws.length := one_le_pow₀ (by linarith)
    have h2 := sumErr_nonneg A.u_nonneg (2 ^ ws.length)
    unfold layerCost
    rw [← hκ]
    have : 0 ≤ (1 + ε) ^ ws.length - 1 := by linarith
    positivity
  · have h1 : onEach g a b ≠ 0 := fun e => hab (by
      have := hGle a b
      rw [e, norm_zero, mul_zero] at this
      exact norm_le_zero_iff.1 this)
    have h2 : g j (a j) (b j) ≠ 0 := fun e => h1 (Finset.prod_eq_zero (mem_univ j) e)
    simp only [hg, if_neg hj, Matrix.one_apply] at h2
    by_contra hne
    exact h2 (if_neg hne)
  · have e1 : G - onEach T = (onEach g - onEach T) + (G - onEach g) := by abel
    rw [e1]
    exact hE.add (bnd_rel hκ0 he hB)
  · unfold layerCost
    refine le_of_eq ?_
    rw [hκ]; ring
  · rw [hU] at h1
    obtain rfl := Except.ok.inj h1
    intro a b
    rw [← h2.2, hR.2]
    exact hG a b

/-! ## The layers of the library -/

theorem layerRot_eq {P : Tensor ℂ} {θ : ℝ} (h : A.fl θ = θ) : A.layerRot P θ = A.rotMat P θ := by
  unfold layerRot rotMat
  rw [h, show 0.5 * θ = θ / 2 by ring]

theorem near_layerRot {P : Tensor ℂ} {m : Mat2} (h : Represents2 P m) (hp : PauliLike m) (hm : mᴴ = m)
    (h2 : m * m = 1) {θ : ℝ} (hθ : A.fl θ = θ) : Near A (A.layerRot P θ) (rot m θ) (1 + 3 * A.δ) := by
  rw [layerRot_eq hθ]
  exact near_rot_rep h hp hm h2 hθ

theorem Near.congr {p q : Py (Tensor ℂ)} {G H : Mat2} {a b : ℝ} (h : Near A p G a) (hp : p = q) (hG : G = H) (hab : a = b) :
    Near A q H b := by subst hp hG hab; exact h

theorem near_prod3 {p : List ℝ} {i : ℕ} (h : 3 * i + 2 < p.length) (hθ : ∀ θ ∈ p, A.fl θ = θ) {P1 P2 P3 : Tensor ℂ}
    {m1 m2 m3 : Mat2} (h1 : ∀ θ, A.fl θ = θ → Near A (A.layerRot P1 θ) (rot m1 θ) (1 + 3 * A.δ))
    (h2 : ∀ θ, A.fl θ = θ → Near A (A.layerRot P2 θ) (rot m2 θ) (1 + 3 * A.δ))
    (h3 : ∀ θ, A.fl θ = θ → Near A (A.layerRot P3 θ) (rot m3 θ) (1 + 3 * A.δ)) :
    Near A (A.prod3 p i P1 P2 P3) (seqRot [m1, m2, m3] (p.drop (3 * i))) (1 + rotsEps A.u A.δ 3) := by
  have r1 := h1 (p[3 * i]) (hθ _ (List.getElem_mem _))
  have r2 := h2 (p[3 * i + 1]) (hθ _ (List.getElem_mem _))
  have r3 := h3 (p[3 * i + 2]) (hθ _ (List.getElem_mem _))
  have hN := (r3.matmul r2).matmul r1
  refine hN.congr ?_ (seqRot3 h m1 m2 m3).symm ?_
  · unfold prod3
    rw [pyGet_nat (k := 3 * i + 0) (by omega), pyGet_nat (k := 3 * i + 1) (by omega), pyGet_nat (k := 3 * i + 2) h]
    obtain ⟨t1, -, e1, -⟩ := r1
    obtain ⟨t2, -, e2, -⟩ := r2
    obtain ⟨t3, -, e3, -⟩ := r3
    simp only [Py.ok_bind, Nat.add_zero]
    rw [e1, e2, e3]
    rfl
  · unfold rotsEps; ring

theorem near_prod2 {p : List ℝ} {i : ℕ} (h : 2 * i + 1 < p.length) (hθ : ∀ θ ∈ p, A.fl θ = θ) {P1 P2 : Tensor ℂ}
    {m1 m2 : Mat2} (h1 : ∀ θ, A.fl θ = θ → Near A (A.layerRot P1 θ) (rot m1 θ) (1 + 3 * A.δ))
    (h2 : ∀ θ, A.fl θ = θ → Near A (A.layerRot P2 θ) (rot m2 θ) (1 + 3 * A.δ)) :
    Near A (A.prod2 p i P1 P2) (seqRot [m1, m2] (p.drop (2 * i))) (1 + rotsEps A.u A.δ 2) := by
  have r1 := h1 (p[2 * i]) (hθ _ (List.getElem_mem _))
  have r2 := h2 (p[2 * i + 1]) (hθ _ (List.getElem_mem _))
  refine (r2.matmul r1).congr ?_ (seqRot2 h m1 m2).symm ?_
  · unfold prod2
    rw [pyGet_nat (k := 2 * i + 0) (by omega), pyGet_nat (k := 2 * i + 1) (by omega)]
    obtain ⟨t1, -, e1, -⟩ := r1
    obtain ⟨t2, -, e2, -⟩ := r2
    simp only [Py.ok_bind, Nat.add_zero]
    rw [e1, e2]
    rfl
  · unfold rotsEps; ring

theorem near_wireMat (k : LayerKind) {n : ℤ} {w : List ℤ} {p : List ℝ} {L i : ℕ} (hi : i < L)
    (hp : p.length = k.axes.length * L) (hθ : ∀ θ ∈ p, A.fl θ = θ) :
    Near A (A.wireMat ⟨layerCls k, n, w, p⟩ i) (seqRot k.axes (p.drop (k.axes.length * i)))
      (1 + rotsEps A.u A.δ k.axes.length) := by
  have h3 : ∀ q : List ℝ, q.length = 3 * L → 3 * i + 2 < q.length := fun q h => by omega
  have h2 : ∀ q : List ℝ, q.length = 2 * L → 2 * i + 1 < q.length := fun q h => by omega
  have rX : ∀ θ, A.fl θ = θ → _ := fun θ h => near_layerRot (A := A) pauliXMat_rep pauli_X X_conj X_sq h
  have rY : ∀ θ, A.fl θ = θ → _ := fun θ h => near_layerRot (A := A) pauliYMat_rep pauli_Y Y_conj Y_sq h
  have rZ : ∀ θ, A.fl θ = θ → _ := fun θ h => near_layerRot (A := A) pauliZMat_rep pauli_Z Z_conj Z_sq h
  cases k <;> simp only [LayerKind.axes, List.length_cons, List.length_nil] at hp
  · exact near_prod3 (h3 _ hp) hθ rX rY rZ
  · exact near_prod3 (h3 _ hp) hθ rZ rY rX
  · exact near_prod3 (h3 _ hp) hθ rY rZ rY
  · exact near_prod3 (h3 _ hp) hθ rX rZ rX
  · exact near_prod2 (h2 _ hp) hθ rX rZ
  · exact near_prod2 (h2 _ hp) hθ rZ rX

theorem rotsEps_nonneg (A : Arith) (m : ℕ) : 0 ≤ rotsEps A.u A.δ m := by
  have h1 : (1 : ℝ) ≤ (1 + 3 * A.δ) ^ m := one_le_pow₀ (by linarith [A.δ_nonneg])
  have h2 : (1 : ℝ) ≤ (1 + 2 * sumErr A.u 2) ^ (m - 1) := one_le_pow₀ (by linarith [sumErr_nonneg A.u_nonneg 2])
  unfold rotsEps
  nlinarith

theorem compG_rots (k : LayerKind) (hN : 0 < N) {ws : List (Fin N)} (hw : ws.Nodup) {p : List ℝ}
    (hp : p.length = k.axes.length * ws.length) (hθ : ∀ θ ∈ p, A.fl θ = θ) :
    CompG A (A.layerU ⟨layerCls k, N, wires ws, p⟩) (layerOp k.axes ws p)
      (layerCost A.u ws.length (rotsEps A.u A.δ k.axes.length)) ∧
      RepP A N (A.layerU ⟨layerCls k, N, wires ws, p⟩) :=
  compG_layer hN hw rfl rfl (M := fun i => seqRot k.axes (p.drop (k.axes.length * i)))
    (fun _ hi => near_wireMat k hi hp hθ) (rotsEps_nonneg A _)

theorem compG_h (hN : 0 < N) {ws : List (Fin N)} (hw : ws.Nodup) :
    CompG A (A.layerU ⟨.h, N, wires ws, []⟩) (hOp ws) (layerCost A.u ws.length (2 * A.u)) :=
  (compG_layer hN hw rfl rfl (M := fun _ => Spec.H) (fun _ _ => near_h) (by linarith [A.u_nonneg])).1

/-! ## Products of several layers -/

theorem fold_G {ι : Type} (l : List ι) (f : ι → Py (Tensor ℂ)) (op : ι → QOp N) (c : ι → ℝ)
    (h : ∀ i ∈ l, IsUnitaryOp (op i) ∧ CompG A (f i) (op i) (c i)) {acc : Tensor ℂ} {W V : QOp N}
    (hacc : Represents acc W) (hW : RepM A W) (hV : IsUnitaryOp V) {e : ℝ}
    (he : ∀ b, 1 + norm2 (fun a => W a b - V a b) ≤ e) :
    ∃ U W', l.foldlM (fun acc i => do A.matmul (← f i) acc) acc = .ok U ∧ Represents U W' ∧ RepM A W' ∧
      ∀ b, 1 + norm2 (fun a => W' a b - (timeOrdered (l.map op) * V) a b) ≤ e * (l.map (fun i => 1 + c i)).prod := by
  induction l generalizing acc W V e with
  | nil => exact ⟨acc, W, rfl, hacc, hW, by simpa using he⟩
  | cons i l ih =>
    obtain ⟨hu, hc⟩ := h i (by simp)
    obtain ⟨acc', W', h1, h2, h3, h4⟩ := step_G hu hc hacc hW hV he
    obtain ⟨U, W'', k2, k3, k4, k5⟩ := ih (fun i hi => h i (by simp [hi])) h2 h3 (hu.mul hV) h4
    refine ⟨U, W'', ?_, k3, k4, fun b => ?_⟩
    · rw [List.foldlM_cons, h1]; exact k2
    · have k6 := k5 b
      rw [mul_assoc e] at k6
      rw [List.map_cons, timeOrdered_cons, Matrix.mul_assoc, List.map_cons, List.prod_cons]
      exact k6

theorem fold_eye {ι : Type} (l : List ι) (f : ι → Py (Tensor ℂ)) (op : ι → QOp N) (c : ι → ℝ)
    (h : ∀ i ∈ l, IsUnitaryOp (op i) ∧ CompG A (f i) (op i) (c i)) :
    ∃ U W, l.foldlM (fun acc i => do A.matmul (← f i) acc) (Tensor.eye (2 ^ N)) = .ok U ∧ Represents U W ∧ RepM A W ∧
      ∀ b, norm2 (fun a => W a b - timeOrdered (l.map op) a b) ≤ (l.map (fun i => 1 + c i)).prod - 1 := by
  obtain ⟨U, W, h1, h2, h3, h4⟩ := fold_G l f op c h (acc := Tensor.eye (2 ^ N)) (W := 1) (V := 1) eye_rep signM_one.rep
    isUnitaryOp_one (e := 1) (fun b => by simp [norm2])
  refine ⟨U, W, h1, h2, h3, fun b => ?_⟩
  have := h4 b
  rw [mul_one, one_mul] at this
  linarith

theorem compG_basic {ws : List (Fin N)} {p : List ℝ} {reps : ℕ} {pl : Bool} (hw : ws.Nodup)
    (h2 : 2 ≤ ws.length) (hr : 1 ≤ reps) (hp : 3 * ws.length * reps ≤ p.length) (hθ : ∀ θ ∈ p, A.fl θ = θ) :
    CompG A (A.basicU (basicObj N ws p pl reps)) (basicOp ws p reps)
      (prodErr A.u N ((1 + layerCost A.u ws.length (rotsEps A.u A.δ 3)) ^ reps - 1)) := by
  have hN : 0 < N := by have := nodup_length_le hw; omega
  obtain ⟨R, hR, rR, sR, mR⟩ := ring_exact A .ring ws hw h2
  have uR := ringKindOp_unitary .ring hw h2
  obtain ⟨U, W, k1, k2, -, k4⟩ := fold_eye (A := A) (N := N) (List.range reps)
    (fun i => do A.matmul R (← (do A.layerU (← pyGet (basicObj N ws p pl reps).part1 ((i : ℕ) : ℤ)))))
    (fun i => ringOp 1 ws * layerOp [Y, Z, Y] ws (p.drop (i * (3 * ws.length))))
    (fun _ => layerCost A.u ws.length (rotsEps A.u A.δ 3)) (fun i hi => by
      have hi' := List.mem_range.1 hi
      have hg : pyGet (basicObj N ws p pl reps).part1 ((i : ℕ) : ℤ) = .ok ⟨.yzy, N, wires ws, block p ws.length i⟩ := by
        rw [pyGet_nat (by simpa [basicObj] using hi')]
        simp [basicObj]
      refine ⟨uR.mul (layerOp_unitary _ (axes_axis .yzy) ws _), ?_⟩
      obtain ⟨c1, c2⟩ := compG_rots (A := A) .yzy hN hw (p := block p ws.length i) (block_length hi' hp)
        (fun θ h => hθ θ (List.mem_of_mem_drop (List.mem_of_mem_take h)))
      rw [block, show 3 * ws.length = (LayerKind.yzy.axes).length * ws.length from rfl, layerOp_take] at c1
      refine CompG.perm rR sR mR uR c1 c2 ?_
      rw [hg, Py.ok_bind]
      rfl)
  have hu : IsUnitaryOp (basicOp ws p reps) := basicOp_unitary hw h2
  refine compG_cols (U := U) (W := W) ?_ k2 hu fun b => ?_
  · rw [← k1]
    unfold basicU
    have h0 : pyGet (basicObj N ws p pl reps).part2 0 = .ok ⟨.ring, N, wires ws⟩ := by
      have := pyGet_nat (l := (basicObj N ws p pl reps).part2) (k := 0) (by simp [basicObj]; omega)
      rw [show ((0 : ℕ) : ℤ) = 0 from rfl] at this
      rw [this]
      simp [basicObj]
    rw [h0, Py.ok_bind, hR, Py.ok_bind]
    simp [basicObj, bind_assoc]
  · have := k4 b
    simpa [basicOp] using this

theorem item_comp (A : Arith) (it : Item N) (h : it.WF) :
    ∃ o, A.buildItem it = .ok o ∧ CompG A (A.opU o) (it.mapAngles A.fl).op (it.cost A.u A.δ) := by
  have fl : ∀ p : List ℝ, ∀ θ ∈ p.map A.fl, A.fl θ = θ := fun p θ hθ => by
    obtain ⟨x, -, rfl⟩ := List.mem_map.1 hθ
    exact A.fl_fl x
  cases it with
  | gate ins =>
    obtain ⟨g, hg, U, G, hU, hR, hG⟩ := comp_ins A (ins.mapAngles A.fl) (wf_mapAngles _ ins h) (fun θ hθ => by
      rw [angles_mapAngles] at hθ
      exact fl _ θ hθ)
    rw [build_mapAngles] at hg
    refine ⟨.gate g, by simp [buildItem, hg], U, G, hU, hR, ?_, ?_⟩
    all_goals
      simp only [Item.cost, Item.mapAngles, Item.op]
      rw [← cost_mapAngles A.fl]
      unfold Instr.cost
      rcases hG with ⟨hx, h1, h2, h3⟩ | ⟨hx, h1, h2, h3⟩
    · rw [if_pos hx]
    · rw [if_neg (by simp [hx])]
      have := bnd_nonneg h3
      have := sumErr_nonneg A.u_nonneg 2
      positivity
    · exact Or.inl ⟨h1, h2, h3⟩
    · rw [if_neg (by simp [hx])]
      exact Or.inr ⟨2, _, _, h1, h2, h3, le_rfl⟩
  | layer k ws p =>
    obtain ⟨hN, hw, hp⟩ := h
    have hp' : (p.map A.fl).length = k.axes.length * ws.length := by simpa using hp
    exact ⟨.single ⟨layerCls k, N, wires ws, p.map A.fl⟩, by
      simp only [buildItem]
      rw [mkSLayer_ok hw (by rw [layerCls_arity]; exact hp'.symm)]
      rfl, (compG_rots k hN hw hp' (fl p)).1⟩
  | hlayer ws =>
    obtain ⟨hN, hw⟩ := h
    exact ⟨.single ⟨.h, N, wires ws, []⟩, by
      simp only [buildItem]
      rw [mkSLayer_ok hw (by simp [LayerCls.arity])]
      rfl, compG_h hN hw⟩
  | ring ws =>
    obtain ⟨hw, h2⟩ := h
    obtain ⟨U, h3, h4, h5, h6⟩ := ring_exact A .ring ws hw h2
    exact ⟨.ring ⟨.ring, N, wires ws⟩, by simp only [buildItem]; rw [mkRing_ok hw h2]; rfl,
      U, _, h3, h4, le_rfl, Or.inl ⟨rfl, h5, h6⟩⟩
  | ringDag ws =>
    obtain ⟨hw, h2⟩ := h
    obtain ⟨U, h3, h4, h5, h6⟩ := ring_exact A .dagger ws hw h2
    exact ⟨.ring ⟨.dagger, N, wires ws⟩, by simp only [buildItem]; rw [mkRing_ok hw h2]; rfl,
      U, _, h3, h4, le_rfl, Or.inl ⟨rfl, h5, h6⟩⟩
  | ring2 ws =>
    obtain ⟨hw, h2⟩ := h
    obtain ⟨U, h3, h4, h5, h6⟩ := ring_exact A .ring2 ws hw h2
    exact ⟨.ring ⟨.ring2, N, wires ws⟩, by simp only [buildItem]; rw [mkRing_ok hw h2]; rfl,
      U, _, h3, h4, le_rfl, Or.inl ⟨rfl, h5, h6⟩⟩
  | basic ws p reps =>
    obtain ⟨hw, h2, hr, hp⟩ := h
    have hp' : (p.map A.fl).length = 3 * ws.length * reps := by simpa using hp
    exact ⟨.basic (basicObj N ws (p.map A.fl) false reps), by
      simp only [buildItem]; rw [mkBasic_ok hw h2 hr hp']; rfl, compG_basic hw h2 hr hp'.ge (fl p)⟩

theorem item_mapAngles_WF (f : ℝ → ℝ) (it : Item N) (h : it.WF) : (it.mapAngles f).WF := by
  cases it <;> simp only [Item.mapAngles]
  case gate ins => exact wf_mapAngles f ins h
  case layer => exact ⟨h.1, h.2.1, by simpa using h.2.2⟩
  case basic => exact ⟨h.1, h.2.1, h.2.2.1, by simpa using h.2.2.2⟩
  all_goals exact h

theorem items_round (A : Arith) (l : List (Item N)) (hw : ∀ it ∈ l, it.WF) :
    ∃ ops U W, l.mapM A.buildItem = .ok ops ∧ A.itemsU N ops = .ok U ∧ Represents U W ∧ RepM A W ∧
      ∀ b, dist2 (column W b) (column (circuitOp (l.map (Item.mapAngles A.fl))) b) ≤ itemBound A.u A.δ l := by
  have h : ∀ it : Item N, ∃ o, it.WF → A.buildItem it = .ok o ∧ CompG A (A.opU o) (it.mapAngles A.fl).op (it.cost A.u A.δ) :=
    fun it => by
      by_cases hi : it.WF
      · obtain ⟨o, ho⟩ := item_comp A it hi; exact ⟨o, fun _ => ho⟩
      · exact ⟨.ring ⟨.ring, 0, []⟩, fun h => absurd h hi⟩
  choose o ho using h
  obtain ⟨U, W, k1, k2, k3, k4⟩ := fold_eye (A := A) (N := N) l (fun it => A.opU (o it)) (fun it => (it.mapAngles A.fl).op)
    (fun it => it.cost A.u A.δ) (fun it hi => ⟨item_unitary _ (item_mapAngles_WF _ it (hw it hi)), (ho it (hw it hi)).2⟩)
  refine ⟨l.map o, U, W, mapM_ok l _ o (fun it hi => (ho it (hw it hi)).1), ?_, k2, k3, fun b => ?_⟩
  · unfold itemsU
    rw [List.foldlM_map]
    exact k1
  · have := k4 b
    unfold itemBound circuitOp
    rw [List.map_map]
    exact this

/-! ## Rounding of the parameters -/

theorem item_mapAngles (f : ℝ → ℝ) (it : Item N) : it.mapAngles f = it.withParams (it.params.map f) := by
  cases it <;> try rfl
  case gate ins => cases ins <;> rfl

theorem paramDist_fl (A : Arith) (p : List ℝ) : paramDist p (p.map A.fl) ≤ A.u * (p.map abs).sum := by
  induction p with
  | nil => simp [paramDist]
  | cons x p ih =>
    have e : paramDist (x :: p) ((x :: p).map A.fl) = |x - A.fl x| + paramDist p (p.map A.fl) := by
      unfold paramDist
      rw [List.length_cons, Finset.sum_range_succ']
      simp [add_comm]
    rw [e, List.map_cons, List.sum_cons, mul_add]
    have := A.fl_err x
    rw [abs_sub_comm] at this
    linarith

theorem stateDist_fl (A : Arith) (l : List (Item N)) :
    stateDist l (l.map (Item.mapAngles A.fl)) ≤ A.u * itemAngles l := by
  induction l with
  | nil => simp [stateDist, itemAngles, allParams]
  | cons it l ih =>
    have e : stateDist (it :: l) ((it :: l).map (Item.mapAngles A.fl)) =
        it.speed * paramDist it.params (it.params.map A.fl) + stateDist l (l.map (Item.mapAngles A.fl)) := by
      have : (it.mapAngles A.fl).params = it.params.map A.fl := by
        rw [item_mapAngles, params_withParams _ _ (by simp)]
      simp [stateDist, this]
    have e2 : itemAngles (it :: l) = (it.params.map abs).sum + itemAngles l := by
      simp [itemAngles, allParams]
    rw [e, e2, mul_add]
    have h1 := paramDist_fl A it.params
    have h2 : 0 ≤ paramDist it.params (it.params.map A.fl) := Finset.sum_nonneg fun _ _ => abs_nonneg _
    have h3 : it.speed ≤ 1 := by unfold Item.speed; split <;> norm_num
    have := mul_le_of_le_one_left h2 h3
    linarith

theorem sameForm_fl (A : Arith) (l : List (Item N)) : SameForm l (l.map (Item.mapAngles A.fl)) := by
  unfold SameForm
  rw [List.forall₂_map_right_iff]
  exact List.forall₂_same.2 fun it _ => ⟨it.params.map A.fl, by simp, item_mapAngles _ it⟩

/-- The computed unitary of a circuit of gates and layers. -/
theorem items_round' (A : Arith) (l : List (Item N)) (hw : ∀ it ∈ l, it.WF) :
    ∃ ops U W, l.mapM A.buildItem = .ok ops ∧ A.itemsU N ops = .ok U ∧ Represents U W ∧ RepM A W ∧
      (∀ b, dist2 (column W b) (column (circuitOp (l.map (Item.mapAngles A.fl))) b) ≤ itemBound A.u A.δ l) ∧
      ∀ b, dist2 (column W b) (column (circuitOp l) b) ≤ itemBound A.u A.δ l + A.u * itemAngles l := by
  obtain ⟨ops, U, W, h1, h2, h3, h4, h5⟩ := items_round A l hw
  refine ⟨ops, U, W, h1, h2, h3, h4, h5, fun b => ?_⟩
  obtain ⟨⟨-, -, -, h6⟩, -⟩ := near_circuit (sameForm_fl A l) hw
  have e : ∀ M : QOp N, column M b = M *ᵥ Pi.single b 1 := fun M => by funext a; simp [column]
  have h7 := h6 (Pi.single b 1)
  rw [one_smul, ← e, ← e] at h7
  have h8 : norm2 (Pi.single b 1 : QState N) = 1 := by
    have := norm2_col (isUnitaryOp_one (N := N)) b
    rw [← this]; congr 1; funext a
    rw [Matrix.one_apply]
    by_cases hab : a = b
    · subst hab; simp
    · simp [hab]
  rw [h8, mul_one] at h7
  have h9 := norm2_add_le (column W b - column (circuitOp (l.map (Item.mapAngles A.fl))) b)
    (column (circuitOp (l.map (Item.mapAngles A.fl))) b - column (circuitOp l) b)
  rw [sub_add_sub_cancel] at h9
  have h10 : norm2 (column (circuitOp (l.map (Item.mapAngles A.fl))) b - column (circuitOp l) b) =
      norm2 (column (circuitOp l) b - column (circuitOp (l.map (Item.mapAngles A.fl))) b) := by
    unfold norm2; simp only [Pi.sub_apply, norm_sub_rev]
  have h11 := h5 b
  rw [dist2_eq] at h11 ⊢
  have h12 := stateDist_fl A l
  linarith

end Arith

end QTN
