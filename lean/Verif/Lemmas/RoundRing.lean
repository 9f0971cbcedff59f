import Verif.Model.RoundLayers
import Verif.Lemmas.RoundMeasure
import Verif.Lemmas.Items

/-! # Rings of CNOTs make no rounding errors -/

namespace QTN

open Spec Matrix Complex Finset

variable {N : ℕ}

theorem mono_mul {G H : QOp N} (hG : Mono G) (hH : Mono H) : Mono (G * H) := fun a => by
  obtain ⟨c, hc⟩ := hG a
  obtain ⟨d, hd⟩ := hH c
  refine ⟨d, fun e he => ?_⟩
  rw [Matrix.mul_apply]
  refine Finset.sum_eq_zero fun x _ => ?_
  by_cases hx : x = c
  · rw [hx, hd e he, mul_zero]
  · rw [hc x hx, zero_mul]

theorem signM_mul {G H : QOp N} (hG : SignM G) (hm : Mono G) (hH : SignM H) : SignM (G * H) := fun a b => by
  obtain ⟨c, hc⟩ := hm a
  rw [Matrix.mul_apply, Finset.sum_eq_single c]
  · exact (hG a c).mul (hH c b)
  · intro x _ hx; rw [hc x hx, zero_mul]
  · intro h; exact absurd (mem_univ _) h

theorem signM_ext1 {G : QOp N} (h : SignM G) : SignM (ext1 G) := fun a b => by
  unfold ext1
  split_ifs
  exacts [h _ _, .zero]

theorem mono_ext1 {G : QOp N} (h : Mono G) : Mono (ext1 G) := fun a => by
  obtain ⟨c, hc⟩ := h (fun i => a i.castSucc)
  refine ⟨Fin.snoc c (a (Fin.last N)), fun d hd => ?_⟩
  unfold ext1
  split_ifs with hl
  · refine hc _ fun e => hd ?_
    have := Fin.snoc_init_self (n := N) (α := fun _ => Fin 2) d
    rw [← this]
    congr 1
    exact hl.symm
  · rfl

namespace Arith

variable {A : Arith}

/-- Whenever the exact computation succeeds, the rounded one gives the same matrix, with at most one entry 1, -1, i or
-i in every row. -/
def Twin (p q : Py (Tensor ℂ)) : Prop :=
  ∀ t, q = .ok t → ∃ s m, ∃ G : QOp m, p = .ok s ∧ Represents s G ∧ Represents t G ∧ SignM G ∧ Mono G

theorem Twin.bind {p q : Py (Tensor ℂ)} {f g : Tensor ℂ → Py (Tensor ℂ)} (h : Twin p q)
    (hf : ∀ s t, Twin (.ok s) (.ok t) → Twin (f s) (g t)) : Twin (p >>= f) (q >>= g) := by
  intro t ht
  cases q with
  | error e => simp [Bind.bind, Except.bind] at ht
  | ok t0 =>
    obtain ⟨s, m, G, rfl, h1, h2, h3, h4⟩ := h t0 rfl
    refine hf s t0 (fun t' e => ?_) t ht
    cases e
    exact ⟨s, m, G, rfl, h1, h2, h3, h4⟩

theorem Twin.matmul {s t s' t' : Tensor ℂ} (h : Twin (.ok s) (.ok t)) (h' : Twin (.ok s') (.ok t')) :
    Twin (A.matmul s s') (t.matmul t') := by
  obtain ⟨_, m, G, e, h1, h2, h3, h4⟩ := h t rfl
  cases e
  obtain ⟨_, m', H, e, k1, k2, k3, k4⟩ := h' t' rfl
  cases e
  intro r hr
  have hmm : m = m' := by
    by_contra hne
    have hne' : ¬ (2 : ℕ) ^ m = 2 ^ m' := fun e => hne (Nat.pow_right_injective le_rfl e)
    have : t.matmul t' = .error .runtimeError := by
      unfold Tensor.matmul Tensor.matmulND
      simp [Tensor.rank, h2.1, k2.1, hne']
    rw [this] at hr
    cases hr
  subst hmm
  obtain ⟨r', hr', hrep⟩ := matmul_rep (A := A) h1 k1
  rw [dotOp_exact h1 k1 h3 h4 k3.rep] at hrep
  obtain ⟨r2, hr2, hrep2⟩ := h2.matmul k2
  rw [hr] at hr2
  cases hr2
  exact ⟨r', m, _, hr', hrep, hrep2, signM_mul h3 h4 k3, mono_mul h4 k4⟩

theorem repT_of_rep {t : Tensor ℂ} {G : QOp N} (h : Represents t G) (hs : SignM G) : SignT t := fun idx => by
  by_cases hi : inB t.shape idx = true
  · rw [h.1] at hi
    match idx, hi with
    | [i, j], hi =>
      have h1 : i < 2 ^ N ∧ j < 2 ^ N := by simpa [inB] using hi
      obtain ⟨a, rfl⟩ := exists_enc h1.1
      obtain ⟨b, rfl⟩ := exists_enc h1.2
      rw [h.2]; exact hs _ _
    | [], hi => simp at hi
    | [_], hi => simp at hi
    | _ :: _ :: _ :: _, hi => simp at hi
  · rw [Tensor.get_out (by simpa using hi)]; exact .zero

theorem Twin.kron_eye {s t : Tensor ℂ} (h : Twin (.ok s) (.ok t)) :
    Twin (.ok (A.kron s (Tensor.eye 2))) (.ok (t.kron (Tensor.eye 2))) := by
  obtain ⟨_, m, G, e, h1, h2, h3, h4⟩ := h t rfl
  cases e
  intro r hr
  cases hr
  have hs := repT_of_rep h1 h3
  have he : SignT (Tensor.eye 2 : Tensor ℂ) := signT_of represents2_eye signM_one
  refine ⟨_, m + 1, ext1 G, rfl, ?_, h2.kron_eye, signM_ext1 h3, mono_ext1 h4⟩
  rw [kron_exact (by simp [Tensor.rank, h1.1, Tensor.eye_shape]) hs.rep he.rep (Or.inl hs)]
  exact h1.kron_eye

theorem Twin.foldlM {ι : Type} (l : List ι) {f g : Tensor ℂ → ι → Py (Tensor ℂ)}
    (h : ∀ i ∈ l, ∀ s t, Twin (.ok s) (.ok t) → Twin (f s i) (g t i)) {s t : Tensor ℂ} (h0 : Twin (.ok s) (.ok t)) :
    Twin (l.foldlM f s) (l.foldlM g t) := by
  induction l generalizing s t with
  | nil => exact h0
  | cons i l ih =>
    rw [List.foldlM_cons, List.foldlM_cons]
    exact (h i (by simp) s t h0).bind fun s' t' h' => ih (fun j hj => h j (by simp [hj])) h'

theorem twin_eye (n : ℕ) : Twin (.ok (Tensor.eye (2 ^ n))) (.ok (Tensor.eye (2 ^ n))) := fun t ht => by
  cases ht
  exact ⟨_, n, 1, rfl, represents_eye, represents_eye, signM_one, mono_one⟩

theorem twin_cnot {m a b : ℕ} (ha : a < m) (hb : b < m) (hab : a ≠ b) : Twin (A.cnotU m a b) (QTN.cnotU m a b) := by
  intro t ht
  have hne : (⟨a, ha⟩ : Fin m) ≠ ⟨b, hb⟩ := by simpa using hab
  obtain ⟨t', ht', hr⟩ := cnotU_rep' (⟨a, ha⟩ : Fin m) ⟨b, hb⟩ hne
  have e : QTN.cnotU m (wire (⟨a, ha⟩ : Fin m)) (wire (⟨b, hb⟩ : Fin m)) = QTN.cnotU m a b := rfl
  rw [e, ht] at ht'
  cases ht'
  obtain ⟨g, hg, hc⟩ := comp_ins A (.cnot (⟨a, ha⟩ : Fin m) ⟨b, hb⟩) hne (by simp [Instr.angles])
  obtain ⟨U, G, hU, hR, hG⟩ := hc
  rcases hG with ⟨-, rfl, hs, hm⟩ | ⟨h, -⟩
  · refine ⟨U, m, _, ?_, hR, hr, hs, hm⟩
    rw [← hU]
    cases hg
    rfl
  · simp [Instr.exact] at h

theorem twin_fused {N d : ℕ} (hd : 0 < d) (hdN : d < N) {f g : Tensor ℂ → ℤ → Py (Tensor ℂ)}
    (h : ∀ i : ℕ, 0 < i → i < N → ∀ s t, Twin (.ok s) (.ok t) →
      (∀ x y, Twin (.ok x) (.ok y) → Twin (A.matmul s x) (t.matmul y) ∧ Twin (A.matmul x s) (y.matmul t) ∧
        Twin (A.matmul (A.kron s (Tensor.eye 2)) x) ((t.kron (Tensor.eye 2)).matmul y) ∧
        Twin (A.matmul x (A.kron s (Tensor.eye 2))) (y.matmul (t.kron (Tensor.eye 2)))) →
      Twin (A.cnotU ((min (i + 1 + d) N : ℕ) : ℤ) i (((i + d) % N : ℕ) : ℤ))
        (QTN.cnotU ((min (i + 1 + d) N : ℕ) : ℤ) i (((i + d) % N : ℕ) : ℤ)) → Twin (f s i) (g t i))
    {s t : Tensor ℂ} (h0 : Twin (.ok s) (.ok t)) : Twin ((pyRange2 1 (N : ℤ)).foldlM f s) ((pyRange2 1 (N : ℤ)).foldlM g t) := by
  refine Twin.foldlM _ (fun i hi s t hst => ?_) h0
  obtain ⟨k, hk, rfl⟩ : ∃ k : ℕ, (0 < k ∧ k < N) ∧ (k : ℤ) = i := by
    unfold pyRange2 at hi
    obtain ⟨j, hj, rfl⟩ := List.mem_map.1 hi
    have := List.mem_range.1 hj
    exact ⟨j + 1, ⟨by omega, by omega⟩, by push_cast; ring⟩
  refine h k hk.1 hk.2 s t hst (fun x y hxy => ⟨hst.matmul hxy, hxy.matmul hst, hst.kron_eye.matmul hxy,
    hxy.matmul hst.kron_eye⟩) (twin_cnot ?_ ?_ (add_mod_ne hk.2 hd hdN))
  · have := hk.2; omega
  · have h1 : (k + d) % N < N := Nat.mod_lt _ (by omega)
    by_cases h2 : k + d < N
    · rw [Nat.mod_eq_of_lt h2]; omega
    · omega

theorem twin_fusion (k : RingKind) {N : ℕ} (h3 : 3 ≤ N) : Twin (A.fusion k N) (Ring.fusion k N) := by
  unfold fusion Ring.fusion
  rw [raiseIf_false (by simp; omega), Py.ok_bind, Py.ok_bind]
  refine (twin_cnot (m := 2) (a := 0) (b := 1) (by omega) (by omega) (by omega)).bind fun s t h0 => ?_
  refine twin_fused (A := A) (d := 1) (by omega) (by omega) (fun i _ hi s t _ hm hc => ?_) h0
  have e1 : min (2 + (i : ℤ)) N = ((min (i + 1 + 1) N : ℕ) : ℤ) := by omega
  have e2 : ((i : ℤ) + 1) % (N : ℤ) = (((i + 1) % N : ℕ) : ℤ) := by rw [cast_add_mod]; rfl
  simp only [e1, e2]
  refine hc.bind fun x y hxy => ?_
  obtain ⟨m1, m2, m3, m4⟩ := hm x y hxy
  by_cases h : (i : ℤ) = N - 1
  · cases k <;> simp only [if_pos h] <;> assumption
  · cases k <;> simp only [if_neg h] <;> assumption

theorem twin_fusion2 {N : ℕ} (h3 : 3 ≤ N) : Twin (A.fusion2 N) (Ring.fusion2 N) := by
  unfold fusion2 Ring.fusion2
  rw [raiseIf_false (by simp; omega), Py.ok_bind, Py.ok_bind]
  refine (twin_cnot (m := 3) (a := 0) (b := 2) (by omega) (by omega) (by omega)).bind fun s t h0 => ?_
  refine twin_fused (A := A) (d := 2) (by omega) (by omega) (fun i _ hi s t _ hm hc => ?_) h0
  have e1 : min (3 + (i : ℤ)) N = ((min (i + 1 + 2) N : ℕ) : ℤ) := by omega
  have e2 : ((i : ℤ) + 2) % (N : ℤ) = (((i + 2) % N : ℕ) : ℤ) := by rw [cast_add_mod]; rfl
  simp only [e1, e2]
  refine hc.bind fun x y hxy => ?_
  obtain ⟨m1, m2, m3, m4⟩ := hm x y hxy
  by_cases h : (i : ℤ) = N - 2 ∨ (i : ℤ) = N - 1
  · simp only [if_pos h]; assumption
  · simp only [if_neg h]; assumption

theorem twin_generic {k : RingKind} {ws : List (Fin N)} {d : ℕ} (hw : ws.Nodup) (hd : 0 < d) (hdw : d < ws.length) :
    Twin (A.genericRing ⟨k, N, wires ws⟩ d) ((⟨k, N, wires ws⟩ : Ring).generic d) := by
  unfold genericRing Ring.generic
  refine Twin.foldlM _ (fun i hi s t hst => ?_) (twin_eye _)
  have hi' : i < ws.length := by simpa using hi
  have hm : (i + d) % ws.length < ws.length := Nat.mod_lt _ (by omega)
  have hne := get_ne_of_nodup hw hi' hm (add_mod_ne hi' hd hdw)
  have hl : (wires ws).length = ws.length := by simp
  have g1 : pyGet (wires ws) ((i : ℕ) : ℤ) = .ok (wire ws[i]) := by
    rw [pyGet_nat (by simpa using hi')]; simp
  have g2 : pyGet (wires ws) (((i + d) % ws.length : ℕ) : ℤ) = .ok (wire (ws[(i + d) % ws.length])) := by
    rw [pyGet_nat (by simpa using hm)]; simp
  simp only [hl, g1, g2, Py.ok_bind]
  refine (twin_cnot (A := A) (ws[i]).2 (ws[(i + d) % ws.length]).2 (fun e => hne (Fin.ext e))).bind fun x y hxy => ?_
  cases k <;> simp only
  exacts [hxy.matmul hst, hst.matmul hxy, hxy.matmul hst]

/-- A ring of CNOTs is computed without error. -/
theorem ring_exact (A : Arith) (k : RingKind) (ws : List (Fin N)) (hw : ws.Nodup) (h2 : 2 ≤ ws.length) :
    ∃ U, A.ringU ⟨k, N, wires ws⟩ = .ok U ∧ Represents U (ringKindOp k ws) ∧ SignM (ringKindOp k ws) ∧
      Mono (ringKindOp k ws) := by
  have tw : Twin (A.ringU ⟨k, N, wires ws⟩) (⟨k, N, wires ws⟩ : Ring).U_expand := by
    by_cases hl : ws.length = 2
    · obtain ⟨a, b, rfl⟩ := List.length_eq_two.1 hl
      have hab : a ≠ b := by simpa using hw
      unfold ringU Ring.U_expand
      rw [if_pos (by simp), if_pos (by simp)]
      exact twin_cnot a.2 b.2 (fun e => hab (Fin.ext e))
    · have hne : (wires ws).length ≠ 2 := by simpa using hl
      by_cases hr : wires ws = pyRange (N : ℤ)
      · have h3 : 3 ≤ N := by
          have := congrArg List.length (wires_eq_pyRange hr)
          simp at this; omega
        unfold ringU Ring.U_expand
        rw [if_neg hne, if_pos hr, if_neg hne, if_pos hr]
        cases k
        exacts [twin_fusion _ h3, twin_fusion _ h3, twin_fusion2 h3]
      · unfold ringU Ring.U_expand
        rw [if_neg hne, if_neg hr, if_neg hne, if_neg hr]
        cases k
        · exact twin_generic hw (by omega) (by omega)
        · exact twin_generic hw (by omega) (by omega)
        · exact twin_generic hw (by omega) (by omega)
  obtain ⟨t, ht, hr⟩ := ring_rep k ws hw h2
  obtain ⟨s, m, G, h1, h3, h4, h5, h6⟩ := tw t ht
  have hm : m = N := by
    have := h4.1.symm.trans hr.1
    simp at this
    exact this
  subst hm
  have : G = ringKindOp k ws := by
    ext a b; rw [← h4.2, hr.2]
  subst this
  exact ⟨s, h1, h3, h5, h6⟩

end Arith

end QTN
