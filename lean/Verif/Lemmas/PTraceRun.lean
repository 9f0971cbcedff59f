import Verif.Lemmas.PTrace
import Verif.Lemmas.Expval
import Mathlib.Data.List.Sort
import Mathlib.Data.List.GetD
import Verif.BuildLayer

/-! # Runs of the partial trace functions -/

namespace QTN

open Finset Spec Matrix

variable {N M : ℕ}

theorem enc_insertNth (i : Fin (N + 1)) (b : Fin 2) (x : Bits N) :
    enc (i.insertNth b x : Bits (N + 1)) =
      (enc x / 2 ^ (N - (i : ℕ))) * 2 ^ (N + 1 - (i : ℕ)) + (b : ℕ) * 2 ^ (N - (i : ℕ)) +
        enc x % 2 ^ (N - (i : ℕ)) := by
  induction N with
  | zero =>
    have : i = 0 := by omega
    subst this
    rw [enc_succ]
    simp [enc_zero]
  | succ n ih =>
    refine Fin.cases ?_ (fun j => ?_) i
    · rw [enc_succ]
      have e : (fun k : Fin (n + 1) => (Fin.insertNth 0 b x : Bits (n + 1 + 1)) k.succ) = x := by
        funext k
        have := Fin.insertNth_apply_succAbove (α := fun _ => Fin 2) 0 b x k
        simp
      rw [e]
      simp only [Fin.val_zero, Nat.sub_zero, Fin.insertNth_apply_same]
      rw [Nat.div_eq_of_lt (enc_lt x), Nat.mod_eq_of_lt (enc_lt x)]
      simp
    · rw [enc_succ]
      have e0 : (Fin.insertNth j.succ b x : Bits (n + 1 + 1)) 0 = x 0 := by
        have := Fin.insertNth_apply_succAbove (α := fun _ => Fin 2) j.succ b x 0
        simpa using this
      have e1 : (fun k : Fin (n + 1) => (Fin.insertNth j.succ b x : Bits (n + 1 + 1)) k.succ) =
          j.insertNth b (fun k => x k.succ) := by
        symm
        rw [Fin.insertNth_eq_iff]
        refine ⟨by simp, ?_⟩
        funext k
        have := Fin.insertNth_apply_succAbove (α := fun _ => Fin 2) j.succ b x k.succ
        rw [Fin.succ_succAbove_succ] at this
        exact this.symm
      rw [e0, e1, ih, enc_succ x]
      have hj : (j : ℕ) ≤ n := by omega
      have s1 : n + 1 - (j.succ : ℕ) = n - j := by simp
      have s2 : n + 1 + 1 - (j.succ : ℕ) = n + 1 - j := by simp
      rw [s1, s2]
      have s3 : 2 ^ n = 2 ^ (j : ℕ) * 2 ^ (n - j) := by rw [← pow_add]; congr 1; omega
      have s4 : 2 ^ (n + 1) = 2 ^ (j : ℕ) * 2 ^ (n + 1 - j) := by rw [← pow_add]; congr 1; omega
      have hp : 0 < 2 ^ (n - (j : ℕ)) := by positivity
      have d1 : ((x 0 : ℕ) * 2 ^ n + enc (fun k => x k.succ)) / 2 ^ (n - (j : ℕ)) =
          (x 0 : ℕ) * 2 ^ (j : ℕ) + enc (fun k => x k.succ) / 2 ^ (n - (j : ℕ)) := by
        rw [s3, ← mul_assoc, add_comm, Nat.add_mul_div_right _ _ hp, add_comm]
      have d2 : ((x 0 : ℕ) * 2 ^ n + enc (fun k => x k.succ)) % 2 ^ (n - (j : ℕ)) =
          enc (fun k => x k.succ) % 2 ^ (n - (j : ℕ)) := by
        rw [s3, ← mul_assoc, add_comm, Nat.add_mul_mod_self_right]
      rw [d1, d2, s4]
      ring

theorem flatMap_getD {β : Type} (m n : ℕ) (f : ℕ → ℕ → β) (d : β) {a b : ℕ} (ha : a < m) (hb : b < n) :
    ((List.range m).flatMap (fun x => (List.range n).map (f x))).getD (a * n + b) d = f a b := by
  induction m with
  | zero => omega
  | succ m ih =>
    rw [List.range_succ, List.flatMap_append]
    have hl : ∀ m, ((List.range m).flatMap (fun x => (List.range n).map (f x))).length = m * n := by
      intro m
      simp [List.length_flatMap]
    by_cases h : a < m
    · rw [List.getD_append _ _ _ _ (by rw [hl]; nlinarith), ih h]
    · have : a = m := by omega
      subst this
      rw [List.getD_append_right _ _ _ _ (by rw [hl]; omega), hl]
      simp [hb]

theorem traceIdx_length (i : Fin (N + 1)) (b : ℕ) : (traceIdx (N + 1) i b).length = 2 ^ N := by
  unfold traceIdx
  simp [List.length_flatMap]
  rw [← pow_add]
  congr 1
  omega

theorem traceIdx_getD (i : Fin (N + 1)) (b : Fin 2) (x : Bits N) :
    (traceIdx (N + 1) i b).getD (enc x) 0 = enc (i.insertNth b x : Bits (N + 1)) := by
  have hp : 0 < 2 ^ (N - (i : ℕ)) := by positivity
  have hs : N + 1 - (i : ℕ) - 1 = N - i := by omega
  unfold traceIdx
  rw [hs, enc_insertNth]
  have hdiv : enc x / 2 ^ (N - (i : ℕ)) < 2 ^ (i : ℕ) := by
    rw [Nat.div_lt_iff_lt_mul hp, ← pow_add]
    refine lt_of_lt_of_eq (enc_lt x) ?_
    congr 1; omega
  have := flatMap_getD (2 ^ (i : ℕ)) (2 ^ (N - (i : ℕ)))
    (fun idx idy => idx * 2 ^ (N + 1 - (i : ℕ)) + idy + (b : ℕ) * 2 ^ (N - (i : ℕ))) 0 hdiv (Nat.mod_lt (enc x) hp)
  rw [Nat.div_add_mod'] at this
  rw [this]
  ring

theorem traceIdx_lt (i : Fin (N + 1)) (b : Fin 2) : (traceIdx (N + 1) i b).all (· < 2 ^ (N + 1)) = true := by
  rw [List.all_eq_true]
  intro k hk
  obtain ⟨j, hj, rfl⟩ := List.getElem_of_mem hk
  have hj' := hj
  rw [traceIdx_length] at hj'
  obtain ⟨x, rfl⟩ := exists_enc hj'
  have := traceIdx_getD i b x
  rw [List.getD_eq_getElem _ _ hj] at this
  rw [this]
  simpa using enc_lt _

/-- one step of `partial_trace` -/
theorem select_rep {rho : Tensor ℂ} {r : QOp (N + 1)} (h : Represents rho r) (i : Fin (N + 1)) (b : Fin 2) :
    ∃ m0 m00, rho.indexSelect0 (traceIdx (N + 1) i b) = .ok m0 ∧
      m0.indexSelect1 (traceIdx (N + 1) i b) = .ok m00 ∧
      Represents m00 (fun x y : Bits N => r (i.insertNth b x) (i.insertNth b y)) := by
  have e0 : rho.indexSelect0 (traceIdx (N + 1) i b) = .ok (Tensor.ofFn [2 ^ N, 2 ^ (N + 1)] (fun idx => match idx with
        | k :: is => rho.get ((traceIdx (N + 1) i b).getD k 0 :: is)
        | [] => 0)) := by
    unfold Tensor.indexSelect0
    rw [h.1]
    simp only
    rw [if_pos (traceIdx_lt i b), traceIdx_length]
    rfl
  generalize hm : Tensor.ofFn [2 ^ N, 2 ^ (N + 1)] (fun idx => match idx with
        | k :: is => rho.get ((traceIdx (N + 1) i b).getD k 0 :: is)
        | [] => 0) = m0 at e0
  have sm : m0.shape = [2 ^ N, 2 ^ (N + 1)] := by rw [← hm]; rfl
  have gm : ∀ (x : Bits N) (c : Bits (N + 1)), m0.get [enc x, enc c] = r (i.insertNth b x) c := by
    intro x c
    rw [← hm, Tensor.get_ofFn (by simp [enc_lt])]
    simp only [traceIdx_getD]
    exact h.2 _ _
  have e1 : m0.indexSelect1 (traceIdx (N + 1) i b) = .ok (Tensor.ofFn [2 ^ N, 2 ^ N] (fun idx => match idx with
        | j :: k :: is => m0.get (j :: (traceIdx (N + 1) i b).getD k 0 :: is)
        | _ => 0)) := by
    unfold Tensor.indexSelect1
    rw [sm]
    simp only
    rw [if_pos (traceIdx_lt i b), traceIdx_length]
    rfl
  refine ⟨_, _, e0, e1, rfl, fun x y => ?_⟩
  rw [Tensor.get_ofFn (by simp [enc_lt])]
  simp only [traceIdx_getD]
  exact gm _ _

theorem trace_rep {rho : Tensor ℂ} {r : QOp N} (h : Represents rho r) : rho.trace = .ok (tr r) := by
  unfold Tensor.trace
  rw [h.1]
  simp only [min_self, tr]
  rw [sum_enc]
  simp only [h.2]

theorem traceChecks_ok {rho : Tensor ℂ} {r : QOp N} (h : Represents rho r) (ht : ‖tr r - 1‖ ≤ 1e-4)
    (l : List ℤ) (hl : ∀ x ∈ l, x ≤ (N : ℤ) - 1) : traceChecks rho N l = .ok () := by
  unfold traceChecks
  rw [trace_rep h, Py.ok_bind, raiseIf_false (not_lt.2 ht), Py.ok_bind, raiseIf_false, Py.ok_bind, raiseIf_false]
  · rintro ⟨-, x, hx, hgt⟩
    have := hl x hx
    omega
  · simp [h.1]

theorem exists_preimage (i : Fin (N + 1)) (l : List (Fin (N + 1))) (h : ∀ j ∈ l, j ≠ i) :
    ∃ l' : List (Fin N), l = l'.map i.succAbove := by
  induction l with
  | nil => exact ⟨[], rfl⟩
  | cons j l ih =>
    obtain ⟨l', rfl⟩ := ih (fun k hk => h k (by simp [hk]))
    obtain ⟨j', hj⟩ := Fin.exists_succAbove_eq (h j (by simp))
    exact ⟨j' :: l', by simp [hj]⟩

theorem wires_pred (i : Fin (N + 1)) (l : List (Fin N)) (h : ∀ j ∈ l.map i.succAbove, i < j) :
    (wires (l.map i.succAbove)).map (· - 1) = wires l := by
  unfold wires
  rw [List.map_map, List.map_map]
  refine List.map_congr_left fun j hj => ?_
  have h1 := h _ (List.mem_map_of_mem hj)
  have : i ≤ j.castSucc := by
    by_contra hc
    rw [Fin.succAbove_of_castSucc_lt i j (not_le.1 hc)] at h1
    exact hc h1.le
  simp [wire, Fin.succAbove_of_le_castSucc i j this]

theorem keeps_cons {i : Fin (N + 1)} {l : List (Fin N)} {keep : Fin M → Fin N} (h : Keeps keep l) :
    Keeps (i.succAbove ∘ keep) (i :: l.map i.succAbove) := by
  refine ⟨(Fin.strictMono_succAbove i).comp h.1, fun j => ?_⟩
  rw [Set.range_comp]
  rcases eq_or_ne j i with rfl | hj
  · simp
  · obtain ⟨k, rfl⟩ := Fin.exists_succAbove_eq hj
    simp [h.2 k, Fin.succAbove_ne]

theorem keeps_card {keep : Fin M → Fin N} {l : List (Fin N)} (h : Keeps keep l) (hl : l.Nodup) :
    M + l.length = N := by
  have h1 : (univ.image keep) = l.toFinsetᶜ := by
    ext i
    rw [mem_compl, List.mem_toFinset, h.2 i]
    simp
  have h2 := congrArg card h1
  rw [card_image_of_injective _ h.1.injective, card_compl, List.toFinset_card_of_nodup hl] at h2
  simp at h2
  have : l.length ≤ N := by
    have := List.Nodup.length_le_card hl
    simpa using this
  omega

theorem keeps_unique {keep keep' : Fin M → Fin N} {l l' : List (Fin N)} (h : Keeps keep l) (h' : Keeps keep' l')
    (hl : ∀ i, i ∈ l ↔ i ∈ l') : keep = keep' := by
  rw [← StrictMono.range_inj h.1 h'.1]
  ext i
  have := h.2 i
  have := h'.2 i
  have := hl i
  tauto

/-- the first step of `partial_trace` on a list that passes the checks -/
theorem sorted_step {rho : Tensor ℂ} {r : QOp (N + 1)} (h : Represents rho r) (ht : ‖tr r - 1‖ ≤ 1e-4)
    (i : Fin (N + 1)) (rest : List ℤ) (hr : ∀ x ∈ wire i :: rest, x ≤ ((N + 1 : ℕ) : ℤ) - 1) :
    ∃ nxt, Represents nxt (ptr i.succAbove r) ∧
      partial_trace_sorted rho (N + 1 : ℕ) (wire i :: rest) = partial_trace_sorted nxt N (rest.map (· - 1)) := by
  obtain ⟨a0, a00, ha0, ha00, ra⟩ := select_rep h i 0
  obtain ⟨b0, b00, hb0, hb00, rb⟩ := select_rep h i 1
  obtain ⟨nxt, hn, rn⟩ := ra.add rb
  refine ⟨nxt, rn.congr ?_, ?_⟩
  · rw [ptr_one]
    funext x y
    rw [Fin.sum_univ_two]
    rfl
  · rw [partial_trace_sorted, traceChecks_ok h ht _ hr, Py.ok_bind, raiseIf_false (by simp [wire]), Py.ok_bind]
    have e1 : ((N + 1 : ℕ) : ℤ).toNat = N + 1 := rfl
    have e2 : (wire i).toNat = (i : ℕ) := rfl
    simp only [e1, e2]
    have ha0' : rho.indexSelect0 (traceIdx (N + 1) i 0) = .ok a0 := ha0
    have hb0' : rho.indexSelect0 (traceIdx (N + 1) i 1) = .ok b0 := hb0
    have ha00' : a0.indexSelect1 (traceIdx (N + 1) i 0) = .ok a00 := ha00
    have hb00' : b0.indexSelect1 (traceIdx (N + 1) i 1) = .ok b00 := hb00
    simp only [ha0', hb0', ha00', hb00', hn, Py.ok_bind]
    have e3 : ((N + 1 : ℕ) : ℤ) - 1 = (N : ℤ) := by push_cast; ring
    rw [e3]

theorem sorted_run {rho : Tensor ℂ} {r : QOp N} (l : List (Fin N)) (hl : l.Pairwise (· < ·)) (h : Represents rho r)
    (ht : ‖tr r - 1‖ ≤ 1e-4) :
    ∃ (M : ℕ) (keep : Fin M → Fin N), Keeps keep l ∧
      Computes (partial_trace_sorted rho N (wires l)) (ptr keep r) := by
  induction hk : l.length generalizing N rho r with
  | zero =>
    have : l = [] := List.length_eq_zero_iff.1 hk
    subst this
    refine ⟨N, id, ⟨strictMono_id, by simp⟩, rho, ?_, by rwa [ptr_id]⟩
    rw [wires, List.map_nil, partial_trace_sorted, traceChecks_ok h ht _ (by simp), Py.ok_bind]
  | succ k ih =>
    match N, l, hl, hk, r, h, ht with
    | 0, i :: _, _, _, _, _, _ => exact i.elim0
    | N + 1, i :: rest, hl, hk, r, h, ht =>
      rw [List.pairwise_cons] at hl
      obtain ⟨rest', rfl⟩ := exists_preimage i rest (fun j hj => (hl.1 j hj).ne')
      obtain ⟨nxt, hr, hstep⟩ := sorted_step h ht i (wires (rest'.map i.succAbove)) (by
        intro x hx
        have : x ∈ wires (i :: rest'.map i.succAbove) := hx
        obtain ⟨j, -, rfl⟩ := List.mem_map.1 this
        simp only [wire]
        have := j.2
        omega)
      have hsm : rest'.Pairwise (· < ·) := by
        have := hl.2
        rw [List.pairwise_map] at this
        exact this.imp (fun h => (Fin.strictMono_succAbove i).lt_iff_lt.1 h)
      obtain ⟨M, keep, hkeep, hc⟩ := ih rest' hsm hr (by rwa [tr_ptr]) (by simpa using hk)
      refine ⟨M, i.succAbove ∘ keep, keeps_cons hkeep, ?_⟩
      rw [ptr_comp (Fin.succAbove_right_injective)] at hc
      have hw : wires (i :: rest'.map i.succAbove) = wire i :: wires (rest'.map i.succAbove) := rfl
      rw [hw, hstep, wires_pred i rest' hl.1]
      exact hc

theorem wires_sort (l : List (Fin N)) : (wires l).mergeSort (· ≤ ·) = wires (l.mergeSort (· ≤ ·)) := by
  unfold wires
  symm
  apply List.map_mergeSort
  intro a _ b _
  simp [wire]

theorem partial_trace_run {rho : Tensor ℂ} {r : QOp N} (l : List (Fin N)) (hl : l.Nodup) (h : Represents rho r)
    (ht : ‖tr r - 1‖ ≤ 1e-4) {keep : Fin M → Fin N} (hk : Keeps keep l) :
    Computes (partial_trace rho N (wires l)) (ptr keep r) := by
  have hp : (l.mergeSort (· ≤ ·)).Perm l := List.mergeSort_perm _ _
  have hs : (l.mergeSort (· ≤ ·)).Pairwise (· < ·) := by
    have h1 : (l.mergeSort (· ≤ ·)).Pairwise (· ≤ ·) := by
      have := List.pairwise_mergeSort' (· ≤ ·) l
      exact this
    have h2 : (l.mergeSort (· ≤ ·)).Nodup := hp.nodup_iff.2 hl
    exact (h1.and h2).imp (fun ⟨a, b⟩ => lt_of_le_of_ne a b)
  obtain ⟨M', keep', hk', hc⟩ := sorted_run _ hs h ht
  have hM : M' = M := by
    have := keeps_card hk hl
    have := keeps_card hk' (hp.nodup_iff.2 hl)
    have := hp.length_eq
    omega
  subst hM
  have : keep' = keep := keeps_unique hk' hk (fun i => hp.mem_iff)
  subst this
  unfold partial_trace
  rw [traceChecks_ok h ht _ ?_, Py.ok_bind, wires_sort]
  · exact hc
  · intro x hx
    obtain ⟨j, -, rfl⟩ := List.mem_map.1 hx
    simp only [wire]
    have := j.2
    omega

end QTN
