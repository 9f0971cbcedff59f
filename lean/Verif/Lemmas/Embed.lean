import Verif.Lemmas.Gates

/-! # Operators on a few qubits placed on wires of a larger register -/

namespace QTN

open Finset Spec Matrix

variable {k N : ℕ}

/-- `M` on the wires `f 0, …, f (k-1)`, identity elsewhere. -/
noncomputable def embed (f : Fin k → Fin N) (M : QOp k) : QOp N := fun a b =>
  open Classical in if ∀ j, (∀ i, f i ≠ j) → a j = b j then M (a ∘ f) (b ∘ f) else 0

theorem extend_comp {f : Fin k → Fin N} (hf : Function.Injective f) (x : Bits k) (a : Bits N) :
    Function.extend f x a ∘ f = x := by
  funext i; exact hf.extend_apply x a i

theorem extend_off {f : Fin k → Fin N} (x : Bits k) (a : Bits N) {j : Fin N}
    (hj : ∀ i, f i ≠ j) : Function.extend f x a j = a j :=
  Function.extend_apply' x a j (fun ⟨i, hi⟩ => hj i hi)

theorem extend_self {f : Fin k → Fin N} (hf : Function.Injective f) {a b : Bits N}
    (h : ∀ j, (∀ i, f i ≠ j) → a j = b j) : Function.extend f (b ∘ f) a = b := by
  funext j
  by_cases hj : ∃ i, f i = j
  · obtain ⟨i, rfl⟩ := hj; exact hf.extend_apply _ _ i
  · push Not at hj
    rw [extend_off _ _ hj, h j hj]

/-- sums over the basis states that agree with `a` away from the wires -/
theorem sum_agree {β : Type} [AddCommMonoid β] {f : Fin k → Fin N} (hf : Function.Injective f)
    (a : Bits N) (F : Bits N → β) :
    (∑ b, open Classical in if ∀ j, (∀ i, f i ≠ j) → a j = b j then F b else 0) =
      ∑ x : Bits k, F (Function.extend f x a) := by
  classical
  rw [← Finset.sum_filter]
  symm
  apply Finset.sum_bij (fun x _ => Function.extend f x a)
  · intro x _
    simp only [mem_filter, mem_univ, true_and]
    intro j hj
    rw [extend_off _ _ hj]
  · intro x _ y _ h
    rw [← extend_comp hf x a, h, extend_comp hf]
  · intro b hb
    simp only [mem_filter, mem_univ, true_and] at hb
    exact ⟨b ∘ f, mem_univ _, extend_self hf hb⟩
  · intro x _; rfl

theorem embed_mulVec {f : Fin k → Fin N} (hf : Function.Injective f) (M : QOp k) (v : QState N)
    (a : Bits N) :
    (embed f M).mulVec v a = ∑ x : Bits k, M (a ∘ f) x * v (Function.extend f x a) := by
  have := sum_agree hf a (fun b => M (a ∘ f) (b ∘ f) * v b)
  simp only [extend_comp hf] at this
  rw [← this]
  simp only [Matrix.mulVec, dotProduct, embed, ite_mul, zero_mul]

theorem embed_mul {f : Fin k → Fin N} (hf : Function.Injective f) (M M' : QOp k) :
    embed f M * embed f M' = embed f (M * M') := by
  classical
  ext a b
  have h1 : (embed f M * embed f M') a b = (embed f M).mulVec (fun c => embed f M' c b) a := rfl
  rw [h1, embed_mulVec hf]
  have h2 : ∀ x, (∀ j, (∀ i, f i ≠ j) → Function.extend f x a j = b j) ↔
      (∀ j, (∀ i, f i ≠ j) → a j = b j) := by
    intro x
    constructor
    · intro h j hj; rw [← h j hj, extend_off _ _ hj]
    · intro h j hj; rw [← h j hj, extend_off _ _ hj]
  simp only [embed, h2, extend_comp hf]
  split_ifs
  · rfl
  · simp

theorem embed_one (f : Fin k → Fin N) : embed f (1 : QOp k) = 1 := by
  ext a b
  simp only [embed, Matrix.one_apply]
  by_cases hab : a = b
  · subst hab; simp
  · rw [if_neg hab]
    split_ifs with h1 h2
    · exact absurd (by
        funext j
        by_cases hj : ∃ i, f i = j
        · obtain ⟨i, rfl⟩ := hj; exact congrFun h2 i
        · push Not at hj; exact h1 j hj) hab
    · rfl
    · rfl

theorem embed_sub (f : Fin k → Fin N) (M M' : QOp k) :
    embed f (M - M') = embed f M - embed f M' := by
  ext a b; simp only [embed, Matrix.sub_apply]; split_ifs <;> simp

theorem embed_smul (f : Fin k → Fin N) (c : ℂ) (M : QOp k) : embed f (c • M) = c • embed f M := by
  ext a b; simp only [embed, Matrix.smul_apply]; split_ifs <;> simp

theorem embed_onQubit {f : Fin k → Fin N} (hf : Function.Injective f) (i : Fin k) (g : Mat2) :
    embed f (onQubit i g) = onQubit (f i) g := by
  ext a b
  simp only [embed, onQubit]
  by_cases h : ∀ j, j ≠ f i → a j = b j
  · have h' : ∀ j, j ≠ i → (a ∘ f) j = (b ∘ f) j := fun j hj => h (f j) (fun e => hj (hf e))
    rw [if_pos h, if_pos (fun j hj => h j (fun e => hj i e.symm)), if_pos h']
    rfl
  · rw [if_neg h]
    split_ifs with h1 h2
    · exact absurd (fun j hj => by
        by_cases hj' : ∃ i, f i = j
        · obtain ⟨l, rfl⟩ := hj'; exact h2 l (fun e => hj (by rw [e]))
        · push Not at hj'; exact h1 j hj') h
    · rfl
    · rfl

theorem embed_controlled {f : Fin k → Fin N} (hf : Function.Injective f) (cs : List (Fin k))
    (t : Fin k) (g : Mat2) :
    embed f (controlled cs t g) = controlled (cs.map f) (f t) g := by
  ext a b
  have h1 : (∀ c ∈ cs.map f, b c = 1) ↔ ∀ c ∈ cs, (b ∘ f) c = 1 := by simp
  have e1 := congrFun (congrFun (embed_onQubit hf t g) a) b
  have e2 := congrFun (congrFun (embed_one (N := N) f) a) b
  simp only [embed] at e1 e2 ⊢
  simp only [controlled]
  by_cases h : ∀ c ∈ cs, (b ∘ f) c = 1
  · rw [if_pos h, if_pos (h1.2 h), ← e1]
  · rw [if_neg h, if_neg (fun hh => h (h1.1 hh)), ← e2]

theorem embed_swap {f : Fin k → Fin N} (hf : Function.Injective f) (p q : Fin k) :
    embed f (Spec.swap p q) = Spec.swap (f p) (f q) := by
  ext a b
  simp only [embed, Spec.swap]
  by_cases h : a = b ∘ Equiv.swap (f p) (f q)
  · rw [if_pos h, if_pos, if_pos]
    · subst h
      funext i
      simp only [Function.comp]
      congr 1
      rw [hf.swap_apply]
    · subst h
      intro j hj
      simp [Equiv.swap_apply_of_ne_of_ne (hj p).symm (hj q).symm]
  · rw [if_neg h]
    split_ifs with h1 h2
    · refine absurd ?_ h
      funext j
      by_cases hj : ∃ i, f i = j
      · obtain ⟨i, rfl⟩ := hj
        have := congrFun h2 i
        simp only [Function.comp] at this ⊢
        rw [this, hf.swap_apply]
      · push Not at hj
        simp [h1 j hj, Equiv.swap_apply_of_ne_of_ne (hj p).symm (hj q).symm]
    · rfl
    · rfl

theorem embed_rot2 {f : Fin k → Fin N} (hf : Function.Injective f) (P : Mat2) (θ : ℝ)
    (p q : Fin k) : embed f (Spec.rot2 P θ p q) = Spec.rot2 P θ (f p) (f q) := by
  unfold Spec.rot2
  rw [embed_sub, embed_smul, embed_smul, embed_one, ← embed_mul hf, embed_onQubit hf,
    embed_onQubit hf]

/-! ## The stored matrices -/

theorem enc_two (b : Bits 2) : enc b = (b 0 : ℕ) * 2 + (b 1 : ℕ) := by
  simp [enc, Fin.sum_univ_two]

theorem enc_three (b : Bits 3) : enc b = (b 0 : ℕ) * 4 + (b 1 : ℕ) * 2 + (b 2 : ℕ) := by
  simp [enc, Fin.sum_univ_three]

theorem enc_one (b : Bits 1) : enc b = (b 0 : ℕ) := by simp [enc]

theorem bit_cases (x : Fin 2) : x = 0 ∨ x = 1 := by revert x; decide

theorem represents4 {t : Tensor ℂ} {M : QOp 2} (hs : t.shape = [4, 4])
    (h : ∀ x y z w : Fin 2, t.get [(x : ℕ) * 2 + y, (z : ℕ) * 2 + w] = M ![x, y] ![z, w]) :
    Represents t M := by
  refine ⟨hs, fun a b => ?_⟩
  have ea : a = ![a 0, a 1] := by ext i; fin_cases i <;> rfl
  have eb : b = ![b 0, b 1] := by ext i; fin_cases i <;> rfl
  rw [enc_two, enc_two, h, ← ea, ← eb]

theorem ofRows_get {rows : List (List ℂ)} {m n i j : ℕ} (hm : rows.length = m)
    (hn : (rows.headD []).length = n) (hi : i < m) (hj : j < n) :
    (Tensor.ofRows rows).get [i, j] = (rows.getD i []).getD j 0 := by
  refine (Tensor.get_ofFn (s := [rows.length, (rows.headD []).length]) ?_).trans rfl
  rw [hm, hn]; simp [hi, hj]

theorem ctrl4_rep (a b c d : ℂ) : Represents (N := 2)
    (Tensor.ofRows [[1, 0, 0, 0], [0, 1, 0, 0], [0, 0, a, b], [0, 0, c, d]])
    (controlled [0] 1 !![a, b; c, d]) := by
  apply represents4 rfl
  intro x y z w
  rw [ofRows_get (m := 4) (n := 4) rfl rfl (by omega) (by omega)]
  rcases bit_cases x with rfl | rfl <;> rcases bit_cases y with rfl | rfl <;>
  rcases bit_cases z with rfl | rfl <;> rcases bit_cases w with rfl | rfl <;>
  simp [controlled, onQubit, Fin.forall_fin_two, funext_iff]

theorem cnotMat_rep : Represents (N := 2) cnotMat (controlled [0] 1 Spec.X) := ctrl4_rep _ _ _ _
theorem czMat_rep : Represents (N := 2) czMat (controlled [0] 1 Spec.Z) := ctrl4_rep _ _ _ _
theorem cphaseMatUpd_rep (θ : ℝ) :
    Represents (N := 2) (cphaseMatUpd θ) (controlled [0] 1 (Spec.phase θ)) := by
  have := ctrl4_rep 1 0 0 (expI θ)
  rw [expI_eq] at this
  unfold cphaseMatUpd
  rw [expI_eq]
  exact this

theorem swapMat_rep : Represents (N := 2) swapMat (Spec.swap 0 1) := by
  apply represents4 rfl
  intro x y z w
  unfold swapMat
  rw [ofRows_get (m := 4) (n := 4) rfl rfl (by omega) (by omega)]
  simp only [Spec.swap, swap_apply_iff]
  rcases bit_cases x with rfl | rfl <;> rcases bit_cases y with rfl | rfl <;>
  rcases bit_cases z with rfl | rfl <;> rcases bit_cases w with rfl | rfl <;>
  simp [Fin.forall_fin_two]

theorem toffoliMat_rep : Represents (N := 3) toffoliMat (controlled [0, 1] 2 Spec.X) := by
  refine ⟨rfl, fun a b => ?_⟩
  rw [enc_three, enc_three]
  unfold toffoliMat
  rw [ofRows_get (m := 8) (n := 8) rfl rfl (by omega) (by omega)]
  simp only [controlled, onQubit, Matrix.one_apply, List.forall_mem_cons, funext_iff,
    Fin.forall_fin_succ, Spec.X]
  have h3 : (Fin.succ (Fin.succ 0) : Fin 3) = 2 := rfl
  have h2 : (Fin.succ 0 : Fin 3) = 1 := rfl
  simp only [h3, h2]
  rcases bit_cases (a 0) with h | h <;> rcases bit_cases (a 1) with h' | h' <;>
  rcases bit_cases (a 2) with h'' | h'' <;>
  rcases bit_cases (b 0) with k | k <;> rcases bit_cases (b 1) with k' | k' <;>
  rcases bit_cases (b 2) with k'' | k'' <;>
  simp [h, h', h'', k, k', k'']

theorem rot2Mat_rep {P : Tensor ℂ} {m : Mat2} (hP : Represents2 P m) (θ : ℝ) :
    Represents (N := 2) (rot2Mat P θ) (Spec.rot2 m θ 0 1) := by
  obtain ⟨t, ht, hr⟩ := multi_kron_rep' (N := 2) (by omega) (fun _ => P) (fun _ => m)
    (fun _ => hP)
  have ht' : t = Tensor.kron P P := by
    have : multi_kron (List.ofFn (fun _ : Fin 2 => P)) = .ok (Tensor.kron P P) := rfl
    rw [this] at ht
    cases ht; rfl
  subst ht'
  have he : (onEach (fun _ => m) : QOp 2) = onQubit 0 m * onQubit 1 m := by
    rw [onQubit_mul_onQubit (by decide)]
    congr 1
    funext i
    fin_cases i <;> rfl
  rw [he] at hr
  exact ((represents_eye (N := 2)).smul _).subT (hr.smul _)

end QTN
