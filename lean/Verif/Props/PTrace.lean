import Verif.Lemmas.PTraceOld

/-! # Properties C33, C34 and C35: the partial trace -/

namespace QTN.Props

open QTN QTN.Spec Matrix
open scoped ComplexOrder

variable {N M : ℕ}

/-! ## C33 -/

/-- C33: `partial_trace(rho, N, lst)` is the partial trace over the qubits of `lst`, for every list of
distinct qubits in any order. `keep` enumerates the remaining qubits in increasing order. -/
theorem C33_partial_trace (rho : Tensor ℂ) (r : QOp N) (h : Represents rho r) (ht : ‖tr r - 1‖ ≤ 1e-4)
    (lst : List (Fin N)) (hl : lst.Nodup) (keep : Fin M → Fin N) (hk : Keeps keep lst) :
    M + lst.length = N ∧ Computes (partial_trace rho N (wires lst)) (ptr keep r) :=
  ⟨keeps_card hk hl, partial_trace_run lst hl h ht hk⟩

/-- The enumeration of C33 exists for every list of distinct qubits and is unique. -/
theorem C33_keep_exists (lst : List (Fin N)) (hl : lst.Nodup) :
    ∃! keep : Fin (N - lst.length) → Fin N, Keeps keep lst := by
  have hc : (lst.toFinsetᶜ).card = N - lst.length := by
    rw [Finset.card_compl, List.toFinset_card_of_nodup hl, Fintype.card_fin]
  have hk : Keeps ((lst.toFinsetᶜ).orderEmbOfFin hc) lst := by
    refine ⟨((lst.toFinsetᶜ).orderEmbOfFin hc).strictMono, fun i => ?_⟩
    rw [Finset.range_orderEmbOfFin]
    simp
  exact ⟨_, hk, fun k' hk' => keeps_unique hk' hk (fun _ => Iff.rfl)⟩

/-- C33, error branches, for every `N` and list: a trace further than `1e-4` from one, a wrong number of
rows and a too large index each raise ValueError. -/
theorem C33_rejects (rho : Tensor ℂ) (a b : ℕ) (hs : rho.shape = [a, b]) (n : ℤ) (lst : List ℤ)
    (h : (∃ c, rho.trace = .ok c ∧ 1e-4 < ‖c - 1‖) ∨ a ≠ 2 ^ n.toNat ∨ n < 0 ∨ ∃ x ∈ lst, n ≤ x) :
    partial_trace rho n lst = .error .valueError := by
  have : traceChecks rho n lst = .error .valueError := by
    have ht : ∃ c, rho.trace = .ok c := by unfold Tensor.trace; rw [hs]; exact ⟨_, rfl⟩
    obtain ⟨c, hc⟩ := ht
    unfold traceChecks
    rw [hc, Py.ok_bind]
    by_cases h1 : ‖c - 1‖ > (1e-4 : ℝ)
    · rw [raiseIf_true h1, Py.error_bind]
    rw [raiseIf_false h1, Py.ok_bind]
    by_cases h2 : n < 0 ∨ rho.shape.getD 0 0 ≠ 2 ^ n.toNat
    · rw [raiseIf_true h2, Py.error_bind]
    rw [raiseIf_false h2, Py.ok_bind]
    rw [hs] at h2
    push Not at h2
    rw [raiseIf_true]
    rcases h with ⟨c', hc', hgt⟩ | h | h | ⟨x, hx, hle⟩
    · rw [hc] at hc'
      cases hc'
      exact absurd hgt h1
    · exact absurd h2.2 h
    · omega
    · exact ⟨List.ne_nil_of_mem hx, x, hx, by omega⟩
  unfold partial_trace
  rw [this, Py.error_bind]

/-- C33: a negative index raises TypeError (it makes `2**i` a fraction). -/
theorem C33_negative_raises (rho : Tensor ℂ) (r : QOp N) (h : Represents rho r) (ht : ‖tr r - 1‖ ≤ 1e-4)
    (lst : List ℤ) (hl : ∀ x ∈ lst, x < N) (hneg : ∃ x ∈ lst, x < 0) :
    partial_trace rho N lst = .error .typeError := by
  have hp : (lst.mergeSort (· ≤ ·)).Perm lst := List.mergeSort_perm _ _
  have hs : (lst.mergeSort (· ≤ ·)).Pairwise (· ≤ ·) := List.pairwise_mergeSort' (· ≤ ·) lst
  have hle : ∀ x ∈ lst.mergeSort (· ≤ ·), x ≤ (N : ℤ) - 1 := fun x hx => by
    have := hl x (hp.mem_iff.1 hx)
    omega
  unfold partial_trace
  rw [traceChecks_ok h ht lst (fun x hx => by have := hl x hx; omega), Py.ok_bind]
  obtain ⟨x, hx, hx0⟩ := hneg
  have hx' := hp.mem_iff.2 hx
  generalize lst.mergeSort (· ≤ ·) = l at hs hle hx'
  match l, hs, hle, hx' with
  | i :: rest, hs, hle, hx' =>
    rw [partial_trace_sorted, traceChecks_ok h ht _ hle, Py.ok_bind, raiseIf_true, Py.error_bind]
    rcases List.mem_cons.1 hx' with rfl | hm
    · exact hx0
    · have := (List.pairwise_cons.1 hs).1 x hm
      omega

/-- C33 needs distinct qubits: a list with a repeated qubit is accepted and traces out a neighbouring
qubit as well. -/
theorem C33_repeated (rho : Tensor ℂ) (r : QOp (N + 2)) (h : Represents rho r) (ht : ‖tr r - 1‖ ≤ 1e-4)
    (i : Fin (N + 1)) :
    partial_trace rho (N + 2 : ℕ) [wire i.succ, wire i.succ] =
      partial_trace rho (N + 2 : ℕ) (wires [i.castSucc, i.succ]) := by
  have hi := i.2
  have hle : ∀ x ∈ [wire i.succ, wire i.succ], x ≤ ((N + 2 : ℕ) : ℤ) - 1 := by
    intro x hx
    simp only [List.mem_cons, List.not_mem_nil, or_false, or_self] at hx
    rw [hx]
    simp [wire]
    omega
  obtain ⟨nxt, rn, hstep⟩ := sorted_step (N := N + 1) h ht i.succ [wire i.succ] hle
  obtain ⟨nxt2, rn2, hstep2⟩ := sorted_step rn (by rwa [tr_ptr]) i [] (by
    intro x hx
    simp only [List.mem_cons, List.not_mem_nil, or_false] at hx
    rw [hx]
    simp [wire]
    omega)
  rw [ptr_comp Fin.succAbove_right_injective] at rn2
  have hsort : [wire i.succ, wire i.succ].mergeSort (· ≤ ·) = [wire i.succ, wire i.succ] :=
    List.mergeSort_of_pairwise (by simp)
  have e : [wire i.succ].map (· - 1) = [wire i] := by simp [wire]
  have hk : Keeps (i.succ.succAbove ∘ i.succAbove) [i.castSucc, i.succ] := by
    refine ⟨(Fin.strictMono_succAbove _).comp (Fin.strictMono_succAbove _), fun j => ?_⟩
    rw [Set.range_comp, Fin.range_succAbove]
    rcases eq_or_ne j i.succ with rfl | hj
    · simp
    · obtain ⟨k, rfl⟩ := Fin.exists_succAbove_eq hj
      have hc : i.castSucc = i.succ.succAbove i := by
        rw [Fin.succAbove_of_castSucc_lt _ _ (Fin.castSucc_lt_succ)]
      simp only [List.mem_cons, List.not_mem_nil, or_false, hj]
      rw [hc, Fin.succAbove_right_injective.eq_iff, Function.Injective.mem_set_image Fin.succAbove_right_injective]
      simp
  have hn : [i.castSucc, i.succ].Nodup := by simp [Fin.castSucc_lt_succ.ne]
  obtain ⟨s, hs, rs⟩ := (C33_partial_trace rho r h ht _ hn _ hk).2
  rw [hs]
  unfold partial_trace
  rw [traceChecks_ok h ht _ hle, Py.ok_bind, hsort, hstep, e, hstep2, List.map_nil, partial_trace_sorted,
    traceChecks_ok rn2 (by rwa [tr_ptr]) _ (by simp), Py.ok_bind, rn2.ext rs]

/-! ## C34 -/

/-- C34: the result of `partial_trace` has the trace of `rho`, is Hermitian if `rho` is and positive
semidefinite if `rho` is. -/
theorem C34_preserves (rho : Tensor ℂ) (r : QOp N) (h : Represents rho r) (ht : ‖tr r - 1‖ ≤ 1e-4)
    (lst : List (Fin N)) (hl : lst.Nodup) :
    ∃ (s : Tensor ℂ) (q : QOp (N - lst.length)), partial_trace rho N (wires lst) = .ok s ∧ Represents s q ∧
      tr q = tr r ∧ (rᴴ = r → qᴴ = q) ∧ (r.PosSemidef → q.PosSemidef) := by
  obtain ⟨keep, hk, -⟩ := C33_keep_exists lst hl
  obtain ⟨s, hs, rs⟩ := (C33_partial_trace rho r h ht lst hl keep hk).2
  exact ⟨s, _, hs, rs, tr_ptr _ _, ptr_hermitian keep, ptr_posSemidef keep⟩

/-- C34: the result does not depend on the order of the list. -/
theorem C34_order (rho : Tensor ℂ) (r : QOp N) (h : Represents rho r) (ht : ‖tr r - 1‖ ≤ 1e-4)
    (lst lst' : List (Fin N)) (hl : lst.Nodup) (hp : lst'.Perm lst) :
    partial_trace rho N (wires lst') = partial_trace rho N (wires lst) := by
  obtain ⟨keep, hk, -⟩ := C33_keep_exists lst hl
  have hk' : Keeps keep lst' := ⟨hk.1, fun i => by rw [hp.mem_iff]; exact hk.2 i⟩
  obtain ⟨s, hs, rs⟩ := (C33_partial_trace rho r h ht lst hl keep hk).2
  obtain ⟨s', hs', rs'⟩ := (C33_partial_trace rho r h ht lst' (hp.nodup_iff.2 hl) keep hk').2
  rw [hs, hs', rs.ext rs']

/-- C34: tracing out `l1` and then the qubits `l2` of what remains is the same as tracing out both
groups at once. `keep` numbers the qubits remaining after the first stage. -/
theorem C34_two_stages (rho : Tensor ℂ) (r : QOp N) (h : Represents rho r) (ht : ‖tr r - 1‖ ≤ 1e-4)
    (l1 : List (Fin N)) (h1 : l1.Nodup) (keep : Fin M → Fin N) (hk : Keeps keep l1)
    (l2 : List (Fin M)) (h2 : l2.Nodup) :
    (do partial_trace (← partial_trace rho N (wires l1)) M (wires l2)) =
      partial_trace rho N (wires (l1 ++ l2.map keep)) := by
  obtain ⟨s1, hs1, rs1⟩ := (C33_partial_trace rho r h ht l1 h1 keep hk).2
  obtain ⟨keep2, hk2, -⟩ := C33_keep_exists l2 h2
  obtain ⟨s2, hs2, rs2⟩ := (C33_partial_trace s1 _ rs1 (by rwa [tr_ptr]) l2 h2 keep2 hk2).2
  have hdis : (l1 ++ l2.map keep).Nodup := by
    rw [List.nodup_append]
    refine ⟨h1, h2.map hk.1.injective, ?_⟩
    rintro a ha b hb rfl
    obtain ⟨j, -, rfl⟩ := List.mem_map.1 hb
    exact (hk.2 _).1 ha ⟨j, rfl⟩
  have hk12 : Keeps (keep ∘ keep2) (l1 ++ l2.map keep) := by
    refine ⟨hk.1.comp hk2.1, fun i => ?_⟩
    rw [List.mem_append, List.mem_map]
    by_cases hi : i ∈ Set.range keep
    · obtain ⟨j, rfl⟩ := hi
      have e1 : keep j ∉ l1 := fun hm => (hk.2 _).1 hm ⟨j, rfl⟩
      have e2 := hk2.2 j
      constructor
      · rintro (hm | ⟨k, hk', he⟩)
        · exact absurd hm e1
        · have := hk.1.injective he
          subst this
          rintro ⟨l, hl⟩
          exact e2.1 hk' ⟨l, hk.1.injective hl⟩
      · intro hn
        refine .inr ⟨j, e2.2 ?_, rfl⟩
        rintro ⟨l, rfl⟩
        exact hn ⟨l, rfl⟩
    · constructor
      · rintro - ⟨l, rfl⟩
        exact hi ⟨_, rfl⟩
      · intro _
        exact .inl ((hk.2 i).2 hi)
  obtain ⟨s3, hs3, rs3⟩ := (C33_partial_trace rho r h ht _ hdis _ hk12).2
  rw [hs1, Py.ok_bind, hs2, hs3]
  rw [ptr_comp hk.1.injective] at rs2
  rw [rs2.ext rs3]

/-! ## C35 -/

/-- C35: `partial_trace_old` and `partial_trace` agree on every square matrix, every `N` and every list,
including which exception they raise. -/
theorem C35_old_agrees (rho : Tensor ℂ) (d : ℕ) (hs : rho.shape = [d, d]) (n : ℤ) (lst : List ℤ) :
    partial_trace_old rho n lst = partial_trace rho n lst := by
  unfold partial_trace_old partial_trace
  rw [old_sorted_eq _ hs]

/-- C35: `ptrace(rho, A, B)` equals `partial_trace(rho, A+B, [A, …, A+B-1])`. -/
theorem C35_ptrace_agrees (A B : ℕ) (rho : Tensor ℂ) (r : QOp (A + B)) (h : Represents rho r)
    (ht : ‖tr r - 1‖ ≤ 1e-4) :
    ptrace rho A B = partial_trace rho (A + B : ℕ) (wires (List.ofFn (Fin.natAdd A : Fin B → Fin (A + B)))) := by
  have hk : Keeps (Fin.castAdd B : Fin A → Fin (A + B)) (List.ofFn (Fin.natAdd A : Fin B → Fin (A + B))) := by
    refine ⟨Fin.strictMono_castAdd B, fun i => ?_⟩
    rw [List.mem_ofFn]
    constructor
    · rintro ⟨k, rfl⟩ ⟨l, hl⟩
      have := congrArg Fin.val hl
      simp at this
      omega
    · intro hi
      refine Fin.addCases (motive := fun i => i ∉ Set.range (Fin.castAdd B) → i ∈ Set.range (Fin.natAdd A))
        (fun k hk => absurd ⟨k, rfl⟩ hk) (fun k _ => ⟨k, rfl⟩) i hi
  have hn : (List.ofFn (Fin.natAdd A : Fin B → Fin (A + B))).Nodup :=
    List.nodup_ofFn.2 (Fin.strictMono_natAdd A).injective
  obtain ⟨s, hs', rs⟩ := (C33_partial_trace rho r h ht _ hn _ hk).2
  obtain ⟨s', hs'', rs'⟩ := ptrace_rep h
  rw [hs', hs'', rs.ext rs']

/-- The list of C35 is the Python list `[A, …, A+B-1]`. -/
theorem C35_list (A B : ℕ) : wires (List.ofFn (Fin.natAdd A : Fin B → Fin (A + B))) =
    (List.range B).map (fun k : ℕ => ((A + k : ℕ) : ℤ)) := by
  unfold wires
  rw [List.map_ofFn]
  apply List.ext_getElem
  · simp
  · intro k _ _
    simp [wire]

/-! ## Non-vacuity -/

/-- A Hermitian positive matrix of trace one that is not diagonal: `|+><+|` on the first qubit. -/
noncomputable def plusRho : QOp 2 := fun a b => if a 1 = 0 ∧ b 1 = 0 then 1 / 2 else 0

theorem sum_bits2 (f : Bits 2 → ℂ) : ∑ a, f a = f ![0, 0] + f ![0, 1] + f ![1, 0] + f ![1, 1] := by
  rw [← (finTwoArrowEquiv (Fin 2)).symm.sum_comp, Fintype.sum_prod_type]
  simp [Fin.sum_univ_two, finTwoArrowEquiv]
  ring

theorem plusRho_trace : tr plusRho = 1 := by
  unfold tr
  rw [sum_bits2]
  simp [plusRho]
  norm_num

example : ‖tr plusRho - 1‖ ≤ 1e-4 ∧ plusRhoᴴ = plusRho ∧ ptr (fun _ : Fin 1 => (0 : Fin 2)) plusRho 0 1 = 1 / 2 := by
  refine ⟨by rw [plusRho_trace]; norm_num, ?_, ?_⟩
  · funext a b
    rw [conjTranspose_apply]
    unfold plusRho
    by_cases h1 : a 1 = 0 <;> by_cases h2 : b 1 = 0 <;> simp [h1, h2]
  · have e : (fun _ : Fin 1 => (0 : Fin 2)) = Fin.succAbove (1 : Fin 2) := by
      funext i; fin_cases i; rfl
    rw [e, ptr_one]
    show ∑ b, plusRho (Fin.insertNth 1 b 0) (Fin.insertNth 1 b 1) = 1 / 2
    rw [Fin.sum_univ_two]
    simp [plusRho]

/-- Every operator is held by a tensor. -/
theorem exists_represents (r : QOp N) : ∃ t, Represents t r := by
  choose dec hdec using fun (k : ℕ) (hk : k < 2 ^ N) => exists_enc (N := N) hk
  refine ⟨Tensor.ofFn [2 ^ N, 2 ^ N] (fun idx =>
    if h : idx.getD 0 0 < 2 ^ N ∧ idx.getD 1 0 < 2 ^ N then r (dec _ h.1) (dec _ h.2) else 0), rfl, fun a b => ?_⟩
  rw [Tensor.get_ofFn (inB_enc2 a b)]
  have e : ∀ c : Bits N, dec (enc c) (enc_lt c) = c := fun c => enc_injective (hdec _ _).symm
  have hc : [enc a, enc b].getD 0 0 < 2 ^ N ∧ [enc a, enc b].getD 1 0 < 2 ^ N := ⟨enc_lt a, enc_lt b⟩
  rw [dif_pos hc]
  exact congrArg₂ r (e a) (e b)

example : ∃ rho : Tensor ℂ, Represents rho plusRho := exists_represents _
example : ∃ keep : Fin 1 → Fin 3, Keeps keep [2, 0] ∧ [2, 0].Nodup :=
  ⟨fun _ => 1, ⟨Subsingleton.strictMono _, by decide⟩, by decide⟩
example : ∃ rho : Tensor ℂ, rho.shape = [4, 4] ∧ ∃ x ∈ ([5] : List ℤ), (2 : ℤ) ≤ x := ⟨Tensor.eye 4, rfl, 5, by simp⟩

end QTN.Props
