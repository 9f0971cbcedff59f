import Verif.Lemmas.Embed

/-! # Amplitudes of a matrix product state -/

namespace QTN

open Finset Spec Matrix

/-- The sites have shapes `[2, l, m], [2, m, m'], …, [2, _, r]`. -/
def Chain : ℕ → List (Tensor ℂ) → ℕ → Prop
  | l, [], r => l = r
  | l, t :: ts, r => 0 < l ∧ ∃ m, t.shape = [2, l, m] ∧ Chain m ts r

/-- Product of the site matrices selected by the bits `xs`. -/
noncomputable def amp : List (Tensor ℂ) → List ℕ → ℕ → ℕ → ℂ
  | [], _, i, j => if i = j then 1 else 0
  | t :: ts, xs, i, j => ∑ k ∈ range (t.shape.getD 2 0), t.get [xs.headD 0, i, k] * amp ts xs.tail k j

theorem amp_cons {t : Tensor ℂ} {l m : ℕ} (h : t.shape = [2, l, m]) (ts : List (Tensor ℂ)) (x : ℕ)
    (xs : List ℕ) (i j : ℕ) :
    amp (t :: ts) (x :: xs) i j = ∑ k ∈ range m, t.get [x, i, k] * amp ts xs k j := by
  simp [amp, h]

theorem chain_append {l m r : ℕ} {ss ts : List (Tensor ℂ)} (h : Chain l ss m) (h' : Chain m ts r) :
    Chain l (ss ++ ts) r := by
  induction ss generalizing l with
  | nil => cases h; exact h'
  | cons t ss ih =>
    obtain ⟨hl, k, hk, hc⟩ := h
    exact ⟨hl, k, hk, ih hc⟩

theorem chain_split {l r : ℕ} {ss ts : List (Tensor ℂ)} (h : Chain l (ss ++ ts) r) :
    ∃ m, Chain l ss m ∧ Chain m ts r := by
  induction ss generalizing l with
  | nil => exact ⟨l, rfl, h⟩
  | cons t ss ih =>
    obtain ⟨hl, k, hk, hc⟩ := h
    obtain ⟨m, h1, h2⟩ := ih hc
    exact ⟨m, ⟨hl, k, hk, h1⟩, h2⟩

theorem chain_pos {l m : ℕ} {ts : List (Tensor ℂ)} (h : Chain l ts m) (hm : 0 < m) : 0 < l := by
  cases ts with
  | nil => cases h; exact hm
  | cons t ts => exact h.1

theorem amp_append {l m : ℕ} {ss : List (Tensor ℂ)} (h : Chain l ss m) (ts : List (Tensor ℂ))
    {xs : List ℕ} (hx : xs.length = ss.length) (ys : List ℕ) {i : ℕ} (hi : i < l) (j : ℕ) :
    amp (ss ++ ts) (xs ++ ys) i j = ∑ k ∈ range m, amp ss xs i k * amp ts ys k j := by
  induction ss generalizing l xs i with
  | nil =>
    have : xs = [] := List.length_eq_zero_iff.1 hx
    subst this
    cases h
    simp [amp, hi]
  | cons t ss ih =>
    obtain ⟨-, k, hk, hc⟩ := h
    cases xs with
    | nil => simp at hx
    | cons x xs =>
      simp only [List.cons_append, amp_cons hk]
      rw [Finset.sum_congr rfl (fun q hq => by
        rw [ih hc (by simpa using hx) (Finset.mem_range.1 hq), Finset.mul_sum])]
      rw [Finset.sum_comm]
      apply Finset.sum_congr rfl
      intro q _
      rw [Finset.sum_mul]
      apply Finset.sum_congr rfl
      intro q' _
      ring

/-- The list `mps` is a matrix product state of `N` sites with amplitudes `v`. -/
def IsMPS {N : ℕ} (mps : List (Tensor ℂ)) (v : QState N) : Prop :=
  mps.length = N ∧ Chain 1 mps 1 ∧ ∀ a : Bits N, amp mps (bl a) 0 0 = v a

theorem bl_extend {N k p : ℕ} {f : Fin k → Fin N} (hf : ∀ i, (f i : ℕ) = p + i) (x : Bits k)
    (a : Bits N) :
    bl (Function.extend f x a) = (bl a).take p ++ bl x ++ (bl a).drop (p + k) := by
  have hinj : Function.Injective f := by
    intro i j h
    have h1 := hf i; have h2 := hf j
    rw [h] at h1
    exact Fin.ext (by omega)
  have hpk : k = 0 ∨ p + k ≤ N := by
    rcases Nat.eq_zero_or_pos k with h | h
    · exact .inl h
    · right
      have h1 := hf ⟨k - 1, by omega⟩
      have h2 := (f ⟨k - 1, by omega⟩).2
      simp at h1; omega
  apply List.ext_getElem
  · simp; omega
  · intro n h1 h2
    simp at h1
    rw [bl_getElem]
    by_cases hn : n < p
    · rw [extend_off x a (j := ⟨n, h1⟩) (fun i h => by
        have := hf i; rw [h] at this; simp at this; omega)]
      rw [List.getElem_append_left (by simp; omega), List.getElem_append_left (by simp; omega)]
      simp [bl]
    · by_cases hn' : n < p + k
      · have e : (⟨n, h1⟩ : Fin N) = f ⟨n - p, by omega⟩ := by
          apply Fin.ext; rw [hf]; simp; omega
        rw [e, hinj.extend_apply]
        rw [List.getElem_append_left (by simp; omega), List.getElem_append_right (by simp; omega)]
        rw [bl_getElem]
        congr 2
        apply Fin.ext
        simp; omega
      · rw [extend_off x a (j := ⟨n, h1⟩) (fun i h => by
          have := hf i; rw [h] at this; simp at this; omega)]
        rw [List.getElem_append_right (by simp; omega)]
        simp only [List.getElem_drop, bl_getElem]
        congr 2
        apply Fin.ext
        simp; omega

/-- Replacing neighbouring sites by others whose local amplitudes are transformed by `M` transforms
the state by `M` on these qubits. -/
theorem isMPS_replace {N k l r : ℕ} {pre mid mid' post : List (Tensor ℂ)} {v : QState N}
    (h : IsMPS (pre ++ (mid ++ post)) v) (hpre : Chain 1 pre l) (hmid : Chain l mid r)
    (hpost : Chain r post 1) (hmid' : Chain l mid' r) (hk : mid.length = k) (hk' : mid'.length = k)
    {f : Fin k → Fin N} (hf : ∀ i, (f i : ℕ) = pre.length + i) {M : QOp k}
    (hM : ∀ (x : Bits k) (i j : ℕ), i < l → j < r →
      amp mid' (bl x) i j = ∑ y : Bits k, M x y * amp mid (bl y) i j) :
    IsMPS (pre ++ (mid' ++ post)) (embed f M *ᵥ v) := by
  have hinj : Function.Injective f := by
    intro i j h
    have h1 := hf i; have h2 := hf j
    rw [h] at h1
    exact Fin.ext (by omega)
  have hlen : pre.length + (k + post.length) = N := by
    have := h.1; simp [hk] at this; exact this
  refine ⟨by simp [hk']; exact hlen, chain_append hpre (chain_append hmid' hpost), fun a => ?_⟩
  rw [embed_mulVec hinj]
  have key : ∀ (md : List (Tensor ℂ)), Chain l md r → md.length = k → ∀ x : Bits k,
      amp (pre ++ (md ++ post)) (bl (Function.extend f x a)) 0 0 =
        ∑ i ∈ range l, ∑ j ∈ range r, amp pre ((bl a).take pre.length) 0 i *
          (amp md (bl x) i j * amp post ((bl a).drop (pre.length + k)) j 0) := by
    intro md hmd hl x
    rw [bl_extend hf, List.append_assoc, amp_append hpre _ (by simp; omega) _ (by omega)]
    apply Finset.sum_congr rfl
    intro i hi
    rw [amp_append hmd _ (by simp [hl]) _ (Finset.mem_range.1 hi), Finset.mul_sum]
  have ea : a = Function.extend f (a ∘ f) a := (extend_self hinj (fun _ _ => rfl)).symm
  conv_lhs => rw [ea]
  rw [key mid' hmid' hk']
  simp only [← h.2.2, key mid hmid hk]
  have e1 : ∀ i ∈ range l, ∀ j ∈ range r, amp pre ((bl a).take pre.length) 0 i *
      (amp mid' (bl (a ∘ f)) i j * amp post ((bl a).drop (pre.length + k)) j 0) =
      ∑ y : Bits k, M (a ∘ f) y * (amp pre ((bl a).take pre.length) 0 i *
      (amp mid (bl y) i j * amp post ((bl a).drop (pre.length + k)) j 0)) := by
    intro i hi j hj
    rw [hM _ i j (Finset.mem_range.1 hi) (Finset.mem_range.1 hj), Finset.sum_mul, Finset.mul_sum]
    apply Finset.sum_congr rfl
    intro y _
    ring
  rw [Finset.sum_congr rfl (fun i hi => Finset.sum_congr rfl (fun j hj => e1 i hi j hj))]
  simp only [Finset.mul_sum]
  rw [Finset.sum_congr rfl (fun i _ => Finset.sum_comm), Finset.sum_comm]

end QTN
