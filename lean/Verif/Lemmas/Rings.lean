import Verif.Lemmas.Layers

/-! # Rings of CNOTs -/

namespace QTN

open Finset Spec Complex

variable {N : ℕ}

/-! ## Adding a qubit at the end -/

/-- `M` on the first `N` qubits, identity on the last one -/
def ext1 (M : QOp N) : QOp (N + 1) := fun a b =>
  if a (Fin.last N) = b (Fin.last N) then M (fun i => a i.castSucc) (fun i => b i.castSucc) else 0

theorem sum_bits_snoc {M : Type*} [AddCommMonoid M] (f : Bits (N + 1) → M) :
    ∑ b : Bits (N + 1), f b = ∑ x : Fin 2, ∑ b : Bits N, f (Fin.snoc b x) := by
  rw [← (Fin.snocEquiv (fun _ : Fin (N + 1) => Fin 2)).sum_comp, Fintype.sum_prod_type]
  rfl

theorem ext1_mul (A B : QOp N) : ext1 (A * B) = ext1 A * ext1 B := by
  ext a b
  simp only [ext1, Matrix.mul_apply]
  rw [sum_bits_snoc, Finset.sum_eq_single (a (Fin.last N))]
  · simp only [Fin.snoc_last, Fin.snoc_castSucc, if_true]
    split_ifs
    · rfl
    · simp
  · intro x _ hx
    apply Finset.sum_eq_zero
    intro c _
    rw [Fin.snoc_last, if_neg (fun h => hx h.symm), zero_mul]
  · simp

theorem ext1_one : ext1 (1 : QOp N) = 1 := by
  ext a b
  simp only [ext1, Matrix.one_apply, funext_iff, Fin.forall_fin_succ']
  by_cases h : a (Fin.last N) = b (Fin.last N) <;> simp [h]

theorem ext1_controlled (c t : Fin N) (g : Mat2) :
    ext1 (controlled [c] t g) = controlled [c.castSucc] t.castSucc g := by
  ext a b
  simp only [ext1, controlled, onQubit, Matrix.one_apply, funext_iff, Fin.forall_fin_succ',
    List.mem_singleton, forall_eq, Ne, Fin.castSucc_inj]
  have hl : ¬ Fin.last N = t.castSucc := fun e => (Fin.castSucc_lt_last t).ne e.symm
  by_cases h : a (Fin.last N) = b (Fin.last N) <;> by_cases h1 : b c.castSucc = 1 <;>
    simp [h, h1, hl]

theorem Spec.Represents.kron_eye {t : Tensor ℂ} {M : QOp N} (h : Represents t M) :
    Represents (t.kron (Tensor.eye 2)) (ext1 M) := by
  refine ⟨?_, fun a b => ?_⟩
  · rw [Tensor.kron_shape2 h.1 rfl, pow_succ]
  · rw [enc_snoc, enc_snoc, Tensor.kron_get2 h.1 (Tensor.eye_shape 2) (enc_lt _) (enc_lt _)
      (Fin.is_lt _) (Fin.is_lt _), h.2,
      Tensor.eye_get (Fin.is_lt _) (Fin.is_lt _)]
    simp only [ext1]
    by_cases e : a (Fin.last N) = b (Fin.last N)
    · simp [e]
    · simp [e, Fin.val_inj]

/-! ## Products of CNOTs given by natural-number wires -/

/-- CNOT with control `a` and target `b` -/
noncomputable def cn (m : ℕ) (ab : ℕ × ℕ) : QOp m :=
  if h : ab.1 < m ∧ ab.2 < m then controlled [⟨ab.1, h.1⟩] ⟨ab.2, h.2⟩ X else 1

theorem ext1_cn {m : ℕ} {ab : ℕ × ℕ} (h : ab.1 < m ∧ ab.2 < m) : ext1 (cn m ab) = cn (m + 1) ab := by
  unfold cn
  rw [dif_pos h, dif_pos ⟨by omega, by omega⟩, ext1_controlled]
  rfl

theorem ext1_timeOrdered_cn {m : ℕ} (l : List (ℕ × ℕ)) (h : ∀ ab ∈ l, ab.1 < m ∧ ab.2 < m) :
    ext1 (timeOrdered (l.map (cn m))) = timeOrdered (l.map (cn (m + 1))) := by
  induction l with
  | nil => simp [ext1_one]
  | cons x l ih =>
    rw [List.map_cons, List.map_cons, timeOrdered_cons, timeOrdered_cons, ext1_mul,
      ih (fun ab hab => h ab (by simp [hab])), ext1_cn (h x (by simp))]

theorem cnotU_rep {m : ℕ} {a b : ℕ} (ha : a < m) (hb : b < m) (hab : a ≠ b) :
    Computes (cnotU m a b) (cn m (a, b)) := by
  unfold cn
  rw [dif_pos ⟨ha, hb⟩]
  have := build_ok (N := m) (.cnot ⟨a, ha⟩ ⟨b, hb⟩) (by simpa [Instr.WF] using hab)
  obtain ⟨g, hg, h⟩ := this
  simp only [build, Except.ok.injEq] at hg
  subst hg
  exact h

theorem cnotU_rep' {m : ℕ} (a b : Fin m) (hab : a ≠ b) :
    Computes (cnotU m (wire a) (wire b)) (controlled [a] b X) := by
  have := cnotU_rep a.2 b.2 (fun h => hab (Fin.ext h))
  unfold cn at this
  rwa [dif_pos ⟨a.2, b.2⟩] at this

/-! ## The fused products -/

/-- the first `k` CNOTs of a ring with offset `d` -/
def ringPairs (N d k : ℕ) : List (ℕ × ℕ) := (List.range k).map (fun j => (j, (j + d) % N))

theorem ringPairs_succ (N d k : ℕ) : ringPairs N d (k + 1) = ringPairs N d k ++ [(k, (k + d) % N)] := by
  simp [ringPairs, List.range_succ]

theorem pyRange2_one_succ (k : ℕ) :
    pyRange2 1 ((k + 1 + 1 : ℕ) : ℤ) = pyRange2 1 ((k + 1 : ℕ) : ℤ) ++ [((k + 1 : ℕ) : ℤ)] := by
  unfold pyRange2
  have h1 : (((k + 1 + 1 : ℕ) : ℤ) - 1).toNat = k + 1 := by omega
  have h2 : (((k + 1 : ℕ) : ℤ) - 1).toNat = k := by omega
  rw [h1, h2, List.range_succ, List.map_append]
  simp; omega

theorem add_mod_ne {N i d : ℕ} (hi : i < N) (hd : 0 < d) (hdN : d < N) : i ≠ (i + d) % N := by
  intro h
  by_cases h1 : i + d < N
  · rw [Nat.mod_eq_of_lt h1] at h; omega
  · rw [Nat.mod_eq_sub_mod (by omega), Nat.mod_eq_of_lt (by omega)] at h; omega

/-- Running a fused loop: `step` multiplies the current CNOT onto the (extended) product. -/
theorem fused_rep {N d : ℕ} (hd : 0 < d) (hdN : d < N) (dag : Bool)
    (step : Tensor ℂ → ℤ → Py (Tensor ℂ))
    (hstep : ∀ (i : ℕ) (rst : Tensor ℂ) (cur : Tensor ℂ), 0 < i → i < N →
      cnotU ((min (i + 1 + d) N : ℕ) : ℤ) (i : ℤ) (((i + d) % N : ℕ) : ℤ) = .ok cur →
      step rst i = (if dag then (if N ≤ i + d then rst else rst.kron (Tensor.eye 2)).matmul cur
        else cur.matmul (if N ≤ i + d then rst else rst.kron (Tensor.eye 2))))
    (rst : Tensor ℂ) (h0 : Represents rst (cn (d + 1) (0, d))) :
    Computes ((pyRange2 1 (N : ℤ)).foldlM step rst)
      (if dag then timeOrdered ((ringPairs N d N).reverse.map (cn N))
        else timeOrdered ((ringPairs N d N).map (cn N))) := by
  have key : ∀ k : ℕ, k < N → ∃ r, (pyRange2 1 ((k + 1 : ℕ) : ℤ)).foldlM step rst = .ok r ∧
      Represents r (if dag then timeOrdered ((ringPairs N d (k + 1)).reverse.map
          (cn (min (k + 1 + d) N)))
        else timeOrdered ((ringPairs N d (k + 1)).map (cn (min (k + 1 + d) N)))) := by
    intro k
    induction k with
    | zero =>
      intro _
      refine ⟨rst, by simp [pyRange2, pure, Except.pure], ?_⟩
      have e : min (0 + 1 + d) N = d + 1 := by omega
      have e2 : ringPairs N d (0 + 1) = [(0, d)] := by simp [ringPairs, Nat.mod_eq_of_lt hdN]
      rw [e, e2]
      simpa [timeOrdered_singleton] using h0
    | succ k ih =>
      intro hk
      obtain ⟨r, hr, rr⟩ := ih (by omega)
      have hlt : (k + 1 + d) % N < min (k + 1 + 1 + d) N := by
        have h1 := Nat.mod_lt (k + 1 + d) (show 0 < N by omega)
        have h2 := Nat.mod_le (k + 1 + d) N
        omega
      obtain ⟨cur, hcur, rcur⟩ := cnotU_rep (m := min (k + 1 + 1 + d) N) (a := k + 1)
        (b := (k + 1 + d) % N) (by omega) hlt (add_mod_ne hk hd hdN)
      have hpair : ∀ ab ∈ ringPairs N d (k + 1), ab.1 < min (k + 1 + d) N ∧
          ab.2 < min (k + 1 + d) N := by
        intro ab hab
        simp only [ringPairs, List.mem_map, List.mem_range] at hab
        obtain ⟨j, hj, rfl⟩ := hab
        have h1 := Nat.mod_lt (j + d) (show 0 < N by omega)
        have h2 := Nat.mod_le (j + d) N
        constructor <;> dsimp only <;> omega
      have hext : Represents (if N ≤ k + 1 + d then r else r.kron (Tensor.eye 2))
          (if dag then timeOrdered ((ringPairs N d (k + 1)).reverse.map
            (cn (min (k + 1 + 1 + d) N)))
          else timeOrdered ((ringPairs N d (k + 1)).map (cn (min (k + 1 + 1 + d) N)))) := by
        by_cases hc : N ≤ k + 1 + d
        · rw [show min (k + 1 + 1 + d) N = min (k + 1 + d) N by omega, if_pos hc]; exact rr
        · rw [show min (k + 1 + 1 + d) N = min (k + 1 + d) N + 1 by omega, if_neg hc]
          have := rr.kron_eye
          cases dag
          · simp only [Bool.false_eq_true, if_false] at this ⊢
            rwa [ext1_timeOrdered_cn _ hpair] at this
          · simp only [if_true] at this ⊢
            rwa [ext1_timeOrdered_cn _ (fun ab h => hpair ab (List.mem_reverse.1 h))] at this
      rw [pyRange2_one_succ, List.foldlM_append, hr, Py.ok_bind]
      simp only [List.foldlM_cons, List.foldlM_nil]
      rw [hstep (k + 1) r cur (by omega) hk hcur, ringPairs_succ N d (k + 1)]
      cases dag
      · simp only [Bool.false_eq_true, if_false] at hext ⊢
        obtain ⟨v, hv, rv⟩ := rcur.matmul hext
        refine ⟨v, by rw [hv]; rfl, ?_⟩
        rw [List.map_append, timeOrdered_append]
        simpa [timeOrdered_singleton] using rv
      · simp only [if_true] at hext ⊢
        obtain ⟨v, hv, rv⟩ := hext.matmul rcur
        refine ⟨v, by rw [hv]; rfl, ?_⟩
        rw [List.reverse_append, List.reverse_singleton, List.singleton_append, List.map_cons,
          timeOrdered_cons]
        exact rv
  obtain ⟨r, hr, rr⟩ := key (N - 1) (by omega)
  have e1 : N - 1 + 1 = N := by omega
  have e2 : min (N + d) N = N := by omega
  rw [e1] at hr rr
  rw [e2] at rr
  exact ⟨r, hr, rr⟩

theorem ringGates_finRange (hN : 0 < N) (d : ℕ) :
    ringGates d (List.finRange N) = (ringPairs N d N).map (cn N) := by
  apply List.ext_getElem
  · simp [ringGates, ringPairs]
  · intro k hk hk'
    simp only [ringGates, ringPairs, List.length_map, List.length_range] at hk hk'
    have h2 : (k + d) % N < N := Nat.mod_lt _ hN
    simp [ringGates, ringPairs, cn, hk', h2]

theorem wires_eq_pyRange {ws : List (Fin N)} (h : wires ws = pyRange (N : ℤ)) :
    ws = List.finRange N := by
  have hl := congrArg List.length h
  simp [pyRange] at hl
  apply List.ext_getElem
  · simpa using hl
  · intro k hk hk'
    have := List.getElem_of_eq h (i := k) (by simpa using hk)
    simp [pyRange] at this
    apply Fin.ext
    simpa using this

theorem ringOp_of_ne {d : ℕ} {ws : List (Fin N)} (h : ws.length ≠ 2) :
    ringOp d ws = timeOrdered (ringGates d ws) := by
  unfold ringOp
  split
  · simp at h
  · rfl

theorem ringDagOp_of_ne {ws : List (Fin N)} (h : ws.length ≠ 2) :
    ringDagOp ws = timeOrdered (ringGates 1 ws).reverse := by
  unfold ringDagOp
  split
  · simp at h
  · rfl

theorem get_ne_of_nodup {ws : List (Fin N)} (h : ws.Nodup) {i j : ℕ} (hi : i < ws.length)
    (hj : j < ws.length) (hij : i ≠ j) : ws[i] ≠ ws[j] := by
  intro e
  exact hij ((h.getElem_inj_iff).1 e)

theorem generic_step {r : Ring} {ws : List (Fin N)} {d : ℕ} (hw : ws.Nodup) (hd : 0 < d)
    (hdw : d < ws.length) (hn : r.nqubits = N) (hr : r.wires = wires ws) (i : ℕ) (hi : i < ws.length) :
    ∃ u, (do
      let c ← pyGet r.wires (i : ℤ)
      let t ← pyGet r.wires (((i + d) % r.wires.length : ℕ) : ℤ)
      cnotU r.nqubits c t) = .ok u ∧ Represents u (controlled [ws[i]]
        (ws[(i + d) % ws.length]'(Nat.mod_lt _ (by omega))) X) := by
  have hm : (i + d) % ws.length < ws.length := Nat.mod_lt _ (by omega)
  have hl : r.wires.length = ws.length := by simp [hr]
  obtain ⟨u, hu, ru⟩ := cnotU_rep' _ _ (get_ne_of_nodup hw hi hm (add_mod_ne hi hd hdw))
  refine ⟨u, ?_, ru⟩
  rw [hl, hr, hn, pyGet_wires ws i hi, Py.ok_bind, pyGet_wires ws _ hm, Py.ok_bind]
  exact hu


theorem ringGates_eq_map (d : ℕ) (ws : List (Fin N)) (h : 0 < ws.length) :
    ringGates d ws = (List.range ws.length).map (fun i => if hi : i < ws.length then
      controlled [ws[i]] (ws[(i + d) % ws.length]'(Nat.mod_lt _ h)) X else 1) := by
  apply List.ext_getElem
  · simp [ringGates]
  · intro k hk hk'
    simp only [ringGates, List.length_ofFn] at hk
    simp [ringGates, hk]

theorem generic_rep {k : RingKind} {ws : List (Fin N)} {d : ℕ} (hw : ws.Nodup) (hd : 0 < d)
    (hdw : d < ws.length) :
    Computes ((⟨k, N, wires ws⟩ : Ring).generic d)
      (match k with
        | .dagger => timeOrdered (ringGates d ws).reverse
        | _ => timeOrdered (ringGates d ws)) := by
  have hstep := generic_step (r := ⟨k, N, wires ws⟩) hw hd hdw rfl rfl
  have hf : ∀ i ∈ List.range ws.length, Computes (do
      let c ← pyGet (wires ws) (i : ℤ)
      let t ← pyGet (wires ws) (((i + d) % (wires ws).length : ℕ) : ℤ)
      cnotU (N : ℤ) c t) (if hi : i < ws.length then
      controlled [ws[i]] (ws[(i + d) % ws.length]'(Nat.mod_lt _ (by omega))) X else 1) := by
    intro i hi
    have hi' := List.mem_range.1 hi
    rw [dif_pos hi']
    exact hstep i hi'
  rw [ringGates_eq_map d ws (by omega)]
  cases k
  case dagger =>
    rw [← foldl_right_timeOrdered]
    obtain ⟨r, hr, rr⟩ := foldlM_right _ _ _ hf _ _ (represents_eye (N := N))
    refine ⟨r, ?_, rr⟩
    rw [← hr]
    simp [Ring.generic, bind_assoc]
  all_goals
    simp only
    rw [← foldl_left_timeOrdered]
    obtain ⟨r, hr, rr⟩ := foldlM_left _ _ _ hf _ _ (represents_eye (N := N))
    refine ⟨r, ?_, rr⟩
    rw [← hr]
    simp [Ring.generic, bind_assoc]

theorem cast_add_mod (i d N : ℕ) : (((i + d) % N : ℕ) : ℤ) = ((i : ℤ) + (d : ℤ)) % (N : ℤ) := by
  push_cast; rfl

theorem fusion_rep (h3 : 3 ≤ N) : Computes (Ring.fusion .ring N)
    (timeOrdered (ringGates 1 (List.finRange N))) := by
  obtain ⟨u, hu, ru⟩ := cnotU_rep (m := 1 + 1) (a := 0) (b := 1) (by omega) (by omega) (by omega)
  obtain ⟨r, hr, rr⟩ := fused_rep (N := N) (d := 1) (by omega) (by omega) false
    (fun rst i => do
      let cur ← cnotU (min (2 + i) N) i ((i + 1) % N)
      if i = (N : ℤ) - 1 then cur.matmul rst else cur.matmul (rst.kron (Tensor.eye 2)))
    (by
      intro i rst cur h0 hi hc
      have e1 : min (2 + (i : ℤ)) N = ((min (i + 1 + 1) N : ℕ) : ℤ) := by omega
      have e2 : ((i : ℤ) + 1) % (N : ℤ) = (((i + 1) % N : ℕ) : ℤ) := by
        rw [cast_add_mod]; rfl
      simp only [e1, e2, hc, Py.ok_bind, Bool.false_eq_true, if_false]
      by_cases h : N ≤ i + 1
      · rw [if_pos (by omega), if_pos h]
      · rw [if_neg (by omega), if_neg h]) u ru
  refine ⟨r, ?_, ?_⟩
  · unfold Ring.fusion
    rw [raiseIf_false (by simp; omega), Py.ok_bind]
    have hu' : cnotU 2 0 1 = .ok u := hu
    rw [hu', Py.ok_bind]
    exact hr
  · rw [ringGates_finRange (by omega)]
    exact rr

theorem fusionDag_rep (h3 : 3 ≤ N) : Computes (Ring.fusion .dagger N)
    (timeOrdered (ringGates 1 (List.finRange N)).reverse) := by
  obtain ⟨u, hu, ru⟩ := cnotU_rep (m := 1 + 1) (a := 0) (b := 1) (by omega) (by omega) (by omega)
  obtain ⟨r, hr, rr⟩ := fused_rep (N := N) (d := 1) (by omega) (by omega) true
    (fun rst i => do
      let cur ← cnotU (min (2 + i) N) i ((i + 1) % N)
      if i = (N : ℤ) - 1 then rst.matmul cur else (rst.kron (Tensor.eye 2)).matmul cur)
    (by
      intro i rst cur h0 hi hc
      have e1 : min (2 + (i : ℤ)) N = ((min (i + 1 + 1) N : ℕ) : ℤ) := by omega
      have e2 : ((i : ℤ) + 1) % (N : ℤ) = (((i + 1) % N : ℕ) : ℤ) := by
        rw [cast_add_mod]; rfl
      simp only [e1, e2, hc, Py.ok_bind, if_true]
      by_cases h : N ≤ i + 1
      · rw [if_pos (by omega), if_pos h]
      · rw [if_neg (by omega), if_neg h]) u ru
  refine ⟨r, ?_, ?_⟩
  · unfold Ring.fusion
    rw [raiseIf_false (by simp; omega), Py.ok_bind]
    have hu' : cnotU 2 0 1 = .ok u := hu
    rw [hu', Py.ok_bind]
    exact hr
  · rw [ringGates_finRange (by omega), ← List.map_reverse]
    exact rr

theorem fusion2_rep (h3 : 3 ≤ N) : Computes (Ring.fusion2 N)
    (timeOrdered (ringGates 2 (List.finRange N))) := by
  obtain ⟨u, hu, ru⟩ := cnotU_rep (m := 2 + 1) (a := 0) (b := 2) (by omega) (by omega) (by omega)
  obtain ⟨r, hr, rr⟩ := fused_rep (N := N) (d := 2) (by omega) (by omega) false
    (fun rst i => do
      let cur ← cnotU (min (3 + i) N) i ((i + 2) % N)
      if i = (N : ℤ) - 2 ∨ i = (N : ℤ) - 1 then cur.matmul rst
      else cur.matmul (rst.kron (Tensor.eye 2)))
    (by
      intro i rst cur h0 hi hc
      have e1 : min (3 + (i : ℤ)) N = ((min (i + 1 + 2) N : ℕ) : ℤ) := by omega
      have e2 : ((i : ℤ) + 2) % (N : ℤ) = (((i + 2) % N : ℕ) : ℤ) := by
        rw [cast_add_mod]; rfl
      simp only [e1, e2, hc, Py.ok_bind, Bool.false_eq_true, if_false]
      by_cases h : N ≤ i + 2
      · rw [if_pos (by omega), if_pos h]
      · rw [if_neg (by omega), if_neg h]) u ru
  refine ⟨r, ?_, ?_⟩
  · unfold Ring.fusion2
    rw [raiseIf_false (by simp; omega), Py.ok_bind]
    have hu' : cnotU 3 0 2 = .ok u := hu
    rw [hu', Py.ok_bind]
    exact hr
  · rw [ringGates_finRange (by omega)]
    exact rr

theorem mkRing_ok {k : RingKind} {ws : List (Fin N)} (hw : ws.Nodup) (h2 : 2 ≤ ws.length) :
    mkRing k N (wires ws) = .ok ⟨k, N, wires ws⟩ := by
  have := nodup_length_le hw
  unfold mkRing
  rw [raiseIf_false (by simp; omega), Py.ok_bind, raiseIf_false (by simp; omega), Py.ok_bind]

/-- the operator of a ring object -/
noncomputable def ringKindOp (k : RingKind) (ws : List (Fin N)) : QOp N :=
  match k with
  | .ring => ringOp 1 ws
  | .dagger => ringDagOp ws
  | .ring2 => ringOp 2 ws

theorem ring_rep (k : RingKind) (ws : List (Fin N)) (hw : ws.Nodup) (h2 : 2 ≤ ws.length) :
    Computes (⟨k, N, wires ws⟩ : Ring).U_expand (ringKindOp k ws) := by
  by_cases hl : ws.length = 2
  · obtain ⟨a, b, rfl⟩ := List.length_eq_two.1 hl
    have hab : a ≠ b := by simpa using hw
    obtain ⟨u, hu, ru⟩ := cnotU_rep' a b hab
    refine ⟨u, ?_, ?_⟩
    · unfold Ring.U_expand
      rw [if_pos (by simp)]
      exact hu
    · cases k <;> exact ru
  · have hne : (wires ws).length ≠ 2 := by simpa using hl
    by_cases hr : wires ws = pyRange (N : ℤ)
    · have hf := wires_eq_pyRange hr
      have h3 : 3 ≤ N := by
        have := congrArg List.length hf
        simp at this; omega
      unfold Ring.U_expand
      rw [if_neg hne, if_pos hr]
      have hl' : (List.finRange N).length ≠ 2 := hf ▸ hl
      cases k <;> simp only [ringKindOp, hf, ringOp_of_ne hl', ringDagOp_of_ne hl']
      · exact fusion_rep h3
      · exact fusionDag_rep h3
      · exact fusion2_rep h3
    · unfold Ring.U_expand
      rw [if_neg hne, if_neg hr]
      cases k <;> simp only [ringKindOp, ringOp_of_ne hl, ringDagOp_of_ne hl]
      · exact generic_rep (k := .ring) hw (by omega) (by omega)
      · exact generic_rep (k := .dagger) hw (by omega) (by omega)
      · exact generic_rep (k := .ring2) hw (by omega) (by omega)

/-! ## Unitarity and adjoint -/

theorem cnot_unitary {a b : Fin N} (h : a ≠ b) : IsUnitaryOp (controlled [a] b X) :=
  controlled_unitary X_u2 (by simpa using h.symm)

open Matrix in
theorem cnot_conjTranspose {a b : Fin N} (h : a ≠ b) :
    (controlled [a] b X)ᴴ = controlled [a] b X := by
  rw [controlled_conjTranspose (by simpa using h.symm), X_conj]

theorem ringGates_mem {d : ℕ} {ws : List (Fin N)} (hw : ws.Nodup) (hd : 0 < d) (hdw : d < ws.length)
    {u : QOp N} (hu : u ∈ ringGates d ws) : ∃ a b, a ≠ b ∧ u = controlled [a] b X := by
  unfold ringGates at hu
  rw [List.mem_ofFn] at hu
  obtain ⟨i, rfl⟩ := hu
  exact ⟨_, _, get_ne_of_nodup hw i.2 (Nat.mod_lt _ i.pos) (add_mod_ne i.2 hd hdw), rfl⟩

theorem ringGates_unitary {d : ℕ} {ws : List (Fin N)} (hw : ws.Nodup) (hd : 0 < d)
    (hdw : d < ws.length) : ∀ u ∈ ringGates d ws, IsUnitaryOp u := by
  intro u hu
  obtain ⟨a, b, hab, rfl⟩ := ringGates_mem hw hd hdw hu
  exact cnot_unitary hab

open Matrix in
theorem ringGates_conj {d : ℕ} {ws : List (Fin N)} (hw : ws.Nodup) (hd : 0 < d)
    (hdw : d < ws.length) : (ringGates d ws).map (fun u => uᴴ) = ringGates d ws := by
  conv_rhs => rw [← List.map_id (ringGates d ws)]
  apply List.map_congr_left
  intro u hu
  obtain ⟨a, b, hab, rfl⟩ := ringGates_mem hw hd hdw hu
  exact cnot_conjTranspose hab

theorem ringKindOp_unitary (k : RingKind) {ws : List (Fin N)} (hw : ws.Nodup) (h2 : 2 ≤ ws.length) :
    IsUnitaryOp (ringKindOp k ws) := by
  by_cases hl : ws.length = 2
  · obtain ⟨a, b, rfl⟩ := List.length_eq_two.1 hl
    have hab : a ≠ b := by simpa using hw
    cases k <;> exact cnot_unitary hab
  · cases k <;> simp only [ringKindOp, ringOp_of_ne hl, ringDagOp_of_ne hl]
    · exact timeOrdered_unitary (ringGates_unitary hw (by omega) (by omega))
    · exact timeOrdered_unitary (fun u hu =>
        ringGates_unitary hw (by omega) (by omega) u (List.mem_reverse.1 hu))
    · exact timeOrdered_unitary (ringGates_unitary hw (by omega) (by omega))

open Matrix in
theorem ringOp_conjTranspose {ws : List (Fin N)} (hw : ws.Nodup) (h2 : 2 ≤ ws.length) :
    (ringOp 1 ws)ᴴ = ringDagOp ws := by
  by_cases hl : ws.length = 2
  · obtain ⟨a, b, rfl⟩ := List.length_eq_two.1 hl
    have hab : a ≠ b := by simpa using hw
    exact cnot_conjTranspose hab
  · rw [ringOp_of_ne hl, ringDagOp_of_ne hl, timeOrdered_conjTranspose,
      ringGates_conj hw (by omega) (by omega)]

end QTN
