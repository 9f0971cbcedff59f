import Verif.Lemmas.RoundShift

/-! # The loop of `cal_params_grad` in rounded arithmetic -/

namespace QTN

open Spec Matrix Complex Finset Props

namespace Arith

variable {N : ℕ} {A : Arith}

/-- `ev` evaluates all circuits of the form of `l0` with the error `E`. -/
def EvalOK (A : Arith) (ev : Circuit → Py ℝ) (O : QOp N) (v : QState N) (l0 : List (Item N)) (E : ℝ) : Prop :=
  ∀ (c : Circuit) (l : List (Item N)), c.nqubits = N → SameForm l0 l → List.Forall₂ (Good A) l c.gate →
    ∃ e, ev c = .ok e ∧ |e - energy O v l| ≤ E

theorem update_at {c : Circuit} {opre opost : List Op} {o o' : Op} {p : List ℝ} (h : A.opUpdate o p = .ok o') :
    A.update { c with gate := opre ++ o :: opost } opre.length p = .ok { c with gate := opre ++ o' :: opost } := by
  unfold update
  simp [h]

theorem good_update {it : Item N} {o : Op} {p q : List ℝ} (hp : p.length = it.params.length) (hne : it.params ≠ [])
    (hg : Good A (it.withParams p) o) (hq : q.length = it.params.length) (hf : Fixed A q) :
    ∃ o', A.opUpdate o q = .ok o' ∧ Good A (it.withParams q) o' := by
  have e := params_withParams it p hp
  obtain ⟨o', h1, h2⟩ := (good_facts hg).2.2 q (by rw [e, hq, hp]) (by
    rw [e]; intro h; rw [h] at hp; exact hne (List.length_eq_zero_iff.1 hp.symm)) hf
  rw [withParams_twice it p q hp hq] at h2
  exact ⟨o', h1, h2⟩

theorem modify_set {p : List ℝ} {k : ℕ} {y : ℝ} {f : ℝ → ℝ} : (p.set k y).modify k f = p.set k (f y) := by
  apply List.ext_getElem (by simp)
  intro n h1 h2
  rw [List.getElem_modify, List.getElem_set, List.getElem_set]
  by_cases h : k = n <;> simp [h]

theorem modify_eq {p : List ℝ} {k : ℕ} {f : ℝ → ℝ} (hk : k < p.length) : p.modify k f = p.set k (f p[k]) := by
  apply List.ext_getElem (by simp)
  intro n h1 h2
  rw [List.getElem_modify, List.getElem_set]
  by_cases h : k = n
  · subst h; simp
  · simp [h]

/-- The parameters after the first `k` have been shifted and put back. -/
noncomputable def part (A : Arith) (x : List ℝ) (k : ℕ) : List ℝ :=
  x.mapIdx (fun n a => if n < k then restored A.fl a else a)

theorem part_length (x : List ℝ) (k : ℕ) : (A.part x k).length = x.length := by simp [part]

theorem part_zero (x : List ℝ) : A.part x 0 = x := by
  apply List.ext_getElem (by simp [part])
  intro n h1 h2
  simp [part]

theorem part_all (x : List ℝ) : A.part x x.length = x.map (restored A.fl) := by
  apply List.ext_getElem (by simp [part])
  intro n h1 h2
  have : n < x.length := by simpa [part] using h1
  simp [part, this]

theorem part_succ (x : List ℝ) (k : ℕ) (hk : k < x.length) :
    A.part x (k + 1) = (A.part x k).set k (restored A.fl x[k]) := by
  apply List.ext_getElem (by simp [part])
  intro n h1 h2
  have : n < x.length := by simpa [part] using h1
  rw [List.getElem_set]
  by_cases h : k = n
  · subst h; simp [part]
  · have : (n ≤ k) = (n < k) := by
      apply propext; omega
    simp [part, h, this]

theorem part_get (x : List ℝ) (k : ℕ) (hk : k < x.length) :
    (A.part x k)[k]'(by rw [part_length]; exact hk) = x[k] := by simp [part]

theorem fixed_part {x : List ℝ} (h : Fixed A x) (k : ℕ) : Fixed A (A.part x k) := by
  intro y hy
  obtain ⟨n, hn, rfl⟩ := List.mem_iff_getElem.1 hy
  have hn' : n < x.length := by simpa [part] using hn
  have e : (A.part x k)[n] = if n < k then restored A.fl x[n] else x[n] := by simp [part]
  rw [e]
  split
  · exact A.fl_fl _
  · exact h _ (List.getElem_mem hn')

theorem fixed_set {p : List ℝ} (h : Fixed A p) (k : ℕ) {y : ℝ} (hy : A.fl y = y) : Fixed A (p.set k y) := by
  intro z hz
  rcases List.mem_or_eq_of_mem_set hz with h1 | rfl
  · exact h z h1
  · exact hy

theorem fl_plus (x d : ℝ) : A.fl (A.plus x d) = A.plus x d := A.fl_fl _

/-- The shifted parameters are close to the exactly shifted ones. -/
theorem part_near {x : List ℝ} {k : ℕ} (hk : k < x.length) {t y : ℝ} (h : |y - t| ≤ drift A.u x[k]) :
    ∀ n < x.length, |(x.set k t).getD n 0 - ((A.part x k).set k y).getD n 0| ≤ drift A.u (x.getD n 0) := by
  intro n hn
  rw [List.getD_eq_getElem _ _ (by simpa using hn), List.getD_eq_getElem _ _ (by simpa [part] using hn),
    List.getD_eq_getElem _ _ hn, List.getElem_set, List.getElem_set]
  by_cases hkn : k = n
  · subst hkn
    rw [if_pos rfl, if_pos rfl, abs_sub_comm]
    exact h
  · rw [if_neg hkn, if_neg hkn]
    have e : (A.part x k)[n]'(by rw [part_length]; exact hn) = if n < k then restored A.fl x[n] else x[n] := by simp [part]
    rw [e]
    split
    · rw [abs_sub_comm]; exact restored_err A _
    · rw [sub_self, abs_zero]; exact drift_nonneg A _

section run

variable {ev : Circuit → Py ℝ} {O : QOp N} {v : QState N} {E B : ℝ} {pre post : List (Item N)} {it : Item N}
  {c : Circuit} {opre opost : List Op}

/-- One evaluation in the course of the computation. -/
theorem eval_at (hev : EvalOK A ev O v (pre ++ it :: post) E) (hn : c.nqubits = N) (hv : norm2 v = 1) (hB0 : 0 ≤ B)
    (hB : ∀ w : QState N, norm2 (O *ᵥ w) ≤ B * norm2 w) (hw : ∀ x ∈ pre ++ it :: post, x.WF)
    (hpre : List.Forall₂ (Good A) (pre.map (afterItem A)) opre) (hpost : List.Forall₂ (Good A) post opost)
    {i : ℕ} (hi : i < it.params.length) {t : ℝ} {p : List ℝ} (hp : p.length = it.params.length)
    (h : ∀ k < it.params.length, |(it.params.set i t).getD k 0 - p.getD k 0| ≤ drift A.u (it.params.getD k 0))
    {o : Op} (ho : Good A (it.withParams p) o) :
    ∃ e, ev { c with gate := opre ++ o :: opost } = .ok e ∧
      |e - energy O v (setParam (pre ++ it :: post) ((allParams pre).length + i) t)| ≤
        E + B * driftSum A.u (pre ++ it :: post) := by
  obtain ⟨e, h1, h2⟩ := hev { c with gate := opre ++ o :: opost } _ hn (sameForm_mid (sameForm_after (A := A) pre) hp)
    (List.rel_append hpre (.cons ho hpost))
  exact ⟨e, h1, (abs_sub_le _ _ _).trans (add_le_add h2 (near_shift hv hB0 hB hw hi hp h))⟩

theorem shift_wf (hw : ∀ x ∈ pre ++ it :: post, x.WF) (i : ℕ) (t : ℝ) :
    ∀ x ∈ setParam (pre ++ it :: post) ((allParams pre).length + i) t, x.WF :=
  sameForm_wf (sameForm_setParam _ _ _) hw

theorem shiftValue_at {i : ℕ} (hi : i < it.params.length) :
    shiftValue O v (pre ++ it :: post) ((allParams pre).length + i) =
      0.5 * (energy O v (setParam (pre ++ it :: post) ((allParams pre).length + i) (it.params[i] + 0.5 * Real.pi)) -
        energy O v (setParam (pre ++ it :: post) ((allParams pre).length + i) (it.params[i] - 0.5 * Real.pi))) := by
  unfold shiftValue
  rw [allParams_getD _ _ _ _ hi, List.getD_eq_getElem _ _ hi]

theorem gradVec_run (hev : EvalOK A ev O v (pre ++ it :: post) E) (hn : c.nqubits = N) (hv : norm2 v = 1) (hB0 : 0 ≤ B)
    (hB : ∀ w : QState N, norm2 (O *ᵥ w) ≤ B * norm2 w) (hw : ∀ x ∈ pre ++ it :: post, x.WF)
    (hpre : List.Forall₂ (Good A) (pre.map (afterItem A)) opre) (hpost : List.Forall₂ (Good A) post opost)
    (hf : Fixed A it.params) (m : ℕ) : ∀ (k : ℕ) (o : Op), k + m = it.params.length →
      Good A (it.withParams (A.part it.params k)) o →
      ∃ gs o', A.gradVec ev opre.length (List.range' k m) (A.part it.params k) { c with gate := opre ++ o :: opost } =
          .ok (gs, { c with gate := opre ++ o' :: opost }) ∧
        Good A (it.withParams (it.params.map (restored A.fl))) o' ∧ gs.length = m ∧
        ∀ i < m, |gs.getD i 0 - shiftValue O v (pre ++ it :: post) ((allParams pre).length + (k + i))| ≤
          E + B * driftSum A.u (pre ++ it :: post) + A.u * (B + (E + B * driftSum A.u (pre ++ it :: post))) := by
  induction m with
  | zero =>
    intro k o hk ho
    refine ⟨[], o, rfl, ?_, rfl, by simp⟩
    rw [← part_all, ← hk]
    exact ho
  | succ m ih =>
    intro k o hk ho
    have hkl : k < it.params.length := by omega
    have hne : it.params ≠ [] := by intro h; rw [h] at hkl; simp at hkl
    set x := it.params[k] with hx
    set P := A.part it.params k with hP
    have hPl : P.length = it.params.length := part_length _ _
    have hPf : Fixed A P := fixed_part hf k
    obtain ⟨s1, s2, s3, -⟩ := shifts_err A x
    have l : ∀ y, (P.set k y).length = it.params.length := fun y => by rw [List.length_set, hPl]
    obtain ⟨o1, u1, g1⟩ := good_update (q := P.set k (A.plus x (0.5 * Real.pi))) hPl hne ho (l _)
      (fixed_set hPf k (fl_plus _ _))
    obtain ⟨e1, v1, d1⟩ := eval_at (c := c) hev hn hv hB0 hB hw hpre hpost hkl (l _) (part_near hkl s1) g1
    obtain ⟨o2, u2, g2⟩ := good_update (q := P.set k (A.plus (A.plus x (0.5 * Real.pi)) (-(1.0 * Real.pi)))) (l _) hne g1
      (l _) (fixed_set hPf k (fl_plus _ _))
    obtain ⟨e2, v2, d2⟩ := eval_at (c := c) hev hn hv hB0 hB hw hpre hpost hkl (l _) (part_near hkl s2) g2
    obtain ⟨o3, u3, g3⟩ := good_update
      (q := P.set k (A.plus (A.plus (A.plus x (0.5 * Real.pi)) (-(1.0 * Real.pi))) (0.5 * Real.pi))) (l _) hne g2
      (l _) (fixed_set hPf k (fl_plus _ _))
    have e3 : P.set k (A.plus (A.plus (A.plus x (0.5 * Real.pi)) (-(1.0 * Real.pi))) (0.5 * Real.pi)) =
        A.part it.params (k + 1) := by rw [restored_eq, part_succ _ _ hkl]
    obtain ⟨gs, o', r1, r2, r3, r4⟩ := ih (k + 1) o3 (by omega) (by rw [← e3]; exact g3)
    refine ⟨A.halfDiff e1 e2 :: gs, o', ?_, r2, by simp [r3], fun i hi => ?_⟩
    · have b1 : A.bump P k (0.5 * Real.pi) = P.set k (A.plus x (0.5 * Real.pi)) := by
        unfold bump
        rw [modify_eq (by rw [hPl]; exact hkl), part_get _ _ hkl]
      have b2 : ∀ y d, A.bump (P.set k y) k d = P.set k (A.plus y d) := fun y d => by
        unfold bump; rw [modify_set]
      rw [List.range'_succ]
      unfold gradVec
      simp only [b1, b2, e3] at u3 ⊢
      rw [update_at u1, Py.ok_bind, v1, Py.ok_bind, update_at u2, Py.ok_bind, v2, Py.ok_bind, update_at u3, Py.ok_bind,
        r1, Py.ok_bind]
    · cases i with
      | zero =>
        rw [List.getD_cons_zero, Nat.add_zero, shiftValue_at hkl]
        exact halfDiff_err d1 d2 (energy_le hv hB (shift_wf hw _ _)) (energy_le hv hB (shift_wf hw _ _))
      | succ i =>
        rw [List.getD_cons_succ, show k + (i + 1) = k + 1 + i by omega]
        exact r4 i (by omega)

theorem gradScalar_run (hev : EvalOK A ev O v (pre ++ it :: post) E) (hn : c.nqubits = N) (hv : norm2 v = 1) (hB0 : 0 ≤ B)
    (hB : ∀ w : QState N, norm2 (O *ᵥ w) ≤ B * norm2 w) (hw : ∀ x ∈ pre ++ it :: post, x.WF)
    (hpre : List.Forall₂ (Good A) (pre.map (afterItem A)) opre) (hpost : List.Forall₂ (Good A) post opost)
    (hf : Fixed A it.params) {x : ℝ} (hx : it.params = [x]) {o : Op} (ho : Good A it o) :
    ∃ g o', A.gradScalar ev { c with gate := opre ++ o :: opost } opre.length x =
        .ok (g, { c with gate := opre ++ o' :: opost }) ∧ Good A it o' ∧
      |g - shiftValue O v (pre ++ it :: post) ((allParams pre).length + 0)| ≤
        E + B * driftSum A.u (pre ++ it :: post) + A.u * (B + (E + B * driftSum A.u (pre ++ it :: post))) := by
  have hkl : 0 < it.params.length := by rw [hx]; simp
  have hne : it.params ≠ [] := by rw [hx]; simp
  have hl : ∀ y : ℝ, [y].length = it.params.length := fun y => by rw [hx]; rfl
  have hx0 : it.params[0] = x := by simp [hx]
  obtain ⟨s1, -, -, s4, s5⟩ := shifts_err A x
  have f1 : ∀ y d, Fixed A [A.plus y d] := fun y d z hz => by
    rw [List.mem_singleton.1 hz]; exact fl_plus _ _
  have near : ∀ t y, |y - t| ≤ drift A.u x → ∀ k < it.params.length,
      |(it.params.set 0 t).getD k 0 - [y].getD k 0| ≤ drift A.u (it.params.getD k 0) := fun t y h k hk => by
    rw [hx] at hk ⊢
    obtain rfl : k = 0 := by simpa using hk
    simpa [abs_sub_comm] using h
  have ho0 : Good A (it.withParams it.params) o := by rw [withParams_self]; exact ho
  obtain ⟨o1, u1, g1⟩ := good_update (q := [A.plus x (0.5 * Real.pi)]) rfl hne ho0 (hl _) (f1 _ _)
  obtain ⟨e1, v1, d1⟩ := eval_at (c := c) hev hn hv hB0 hB hw hpre hpost hkl (hl _) (near _ _ s1) g1
  obtain ⟨o2, u2, g2⟩ := good_update (q := [A.plus x (-(0.5 * Real.pi))]) (hl _) hne g1 (hl _) (f1 _ _)
  obtain ⟨e2, v2, d2⟩ := eval_at (c := c) hev hn hv hB0 hB hw hpre hpost hkl (hl _) (near _ _ s4) g2
  obtain ⟨o3, u3, g3⟩ := good_update (q := [x]) (hl _) hne g2 (hl _) (by rw [← hx]; exact hf)
  rw [← hx, withParams_self] at g3
  refine ⟨A.halfDiff e1 e2, o3, ?_, g3, ?_⟩
  · unfold gradScalar
    rw [update_at u1, Py.ok_bind, v1, Py.ok_bind, update_at u2, Py.ok_bind, v2, Py.ok_bind, update_at u3, Py.ok_bind]
  · rw [shiftValue_at hkl, hx0]
    exact halfDiff_err d1 d2 (energy_le hv hB (shift_wf hw _ _)) (energy_le hv hB (shift_wf hw _ _))

theorem gradAt_run (hev : EvalOK A ev O v (pre ++ it :: post) E) (hn : c.nqubits = N) (hv : norm2 v = 1) (hB0 : 0 ≤ B)
    (hB : ∀ w : QState N, norm2 (O *ᵥ w) ≤ B * norm2 w) (hw : ∀ x ∈ pre ++ it :: post, x.WF)
    (hpre : List.Forall₂ (Good A) (pre.map (afterItem A)) opre) (hpost : List.Forall₂ (Good A) post opost)
    (hf : Fixed A it.params) {o : Op} (ho : Good A it o)
    (hrec : it.params ≠ [] → ∃ o', Good A it o' ∧ c.cir_params opre.length = some (some o'.params)) :
    ∃ gs o', A.gradAt ev { c with gate := opre ++ o :: opost } opre.length =
        .ok (gs, { c with gate := opre ++ o' :: opost }) ∧ Good A (afterItem A it) o' ∧ gs.length = it.params.length ∧
      ∀ i < it.params.length, |gs.getD i 0 - shiftValue O v (pre ++ it :: post) ((allParams pre).length + i)| ≤
        E + B * driftSum A.u (pre ++ it :: post) + A.u * (B + (E + B * driftSum A.u (pre ++ it :: post))) := by
  have hnum := (good_facts ho).1
  have hget : ({ c with gate := opre ++ o :: opost } : Circuit).gate[opre.length]? = some o := by simp
  by_cases hne : it.params = []
  · refine ⟨[], o, ?_, ?_, by simp [hne], by simp [hne]⟩
    · unfold gradAt
      rw [hget]
      simp [hnum, hne]
    · have : it.after A.fl = it.params := by unfold Item.after; simp [hne]
      unfold afterItem
      rw [this, withParams_self]
      exact ho
  · have hnz : o.numParams ≠ 0 := by rw [hnum]; exact fun h => hne (List.length_eq_zero_iff.1 h)
    obtain ⟨o0, hg0, hc0⟩ := hrec hne
    have hpar := (good_facts hg0).2.1 hne
    by_cases hs : it.single
    · rw [if_pos hs] at hpar
      obtain ⟨x, hx, hp⟩ := hpar
      obtain ⟨g, o', r1, r2, r3⟩ := gradScalar_run (c := c) hev hn hv hB0 hB hw hpre hpost hf hx ho
      refine ⟨[g], o', ?_, ?_, by rw [hx]; rfl, fun i hi => ?_⟩
      · unfold gradAt
        rw [hget]
        dsimp only
        rw [if_neg hnz]
        have : PShift.readParams { c with gate := opre ++ o :: opost } opre.length = .ok (.scalar x) := by
          unfold PShift.readParams
          dsimp only
          rw [hc0, hp]
        rw [this, Py.ok_bind]
        dsimp only
        rw [r1, Py.ok_bind]
      · unfold afterItem Item.after
        rw [if_pos hs, withParams_self]
        exact r2
      · obtain rfl : i = 0 := by rw [hx] at hi; simpa using hi
        exact r3
    · rw [if_neg hs] at hpar
      obtain ⟨gs, o', r1, r2, r3, r4⟩ := gradVec_run (c := c) hev hn hv hB0 hB hw hpre hpost hf it.params.length 0 o
        (by omega) (by rw [part_zero, withParams_self]; exact ho)
      rw [part_zero] at r1
      refine ⟨gs, o', ?_, ?_, r3, fun i hi => ?_⟩
      · unfold gradAt
        rw [hget]
        dsimp only
        rw [if_neg hnz]
        have : PShift.readParams { c with gate := opre ++ o :: opost } opre.length = .ok (.vec it.params) := by
          unfold PShift.readParams
          dsimp only
          rw [hc0, hpar]
        rw [this, Py.ok_bind]
        dsimp only
        rw [List.range_eq_range', r1]
      · unfold afterItem Item.after
        rw [if_neg hs]
        exact r2
      · have := r4 i hi
        rwa [Nat.zero_add] at this

end run

theorem gradLoop_run {ev : Circuit → Py ℝ} {O : QOp N} {v : QState N} {E B : ℝ} {l0 : List (Item N)} {c : Circuit}
    (hev : EvalOK A ev O v l0 E) (hn : c.nqubits = N) (hv : norm2 v = 1) (hB0 : 0 ≤ B)
    (hB : ∀ w : QState N, norm2 (O *ᵥ w) ≤ B * norm2 w) (hw : ∀ x ∈ l0, x.WF) (hf : ∀ it ∈ l0, Fixed A it.params) :
    ∀ (cur pre : List (Item N)) (opre ocur : List Op), l0 = pre ++ cur →
      List.Forall₂ (Good A) (pre.map (afterItem A)) opre → List.Forall₂ (Good A) cur ocur →
      (∀ k it, cur[k]? = some it → it.params ≠ [] →
        ∃ o, Good A it o ∧ c.cir_params (opre.length + k) = some (some o.params)) →
      ∃ gs ops', A.gradLoop ev (List.range' opre.length cur.length) { c with gate := opre ++ ocur } =
          .ok (gs, { c with gate := ops' }) ∧ List.Forall₂ (Good A) (l0.map (afterItem A)) ops' ∧
        gs.length = (allParams cur).length ∧
        ∀ i < (allParams cur).length, |gs.getD i 0 - shiftValue O v l0 ((allParams pre).length + i)| ≤
          E + B * driftSum A.u l0 + A.u * (B + (E + B * driftSum A.u l0)) := by
  intro cur
  induction cur with
  | nil =>
    intro pre opre ocur e hpre hcur _
    cases hcur
    rw [List.append_nil] at e
    subst e
    exact ⟨[], opre, by simp [gradLoop], hpre, by simp [allParams], by simp [allParams]⟩
  | cons it cur ih =>
    intro pre opre ocur e hpre hcur hrec
    cases hcur with
    | @cons _ o _ ocur ho hcur =>
      subst e
      obtain ⟨g1, o1, r1, r2, r3, r4⟩ := gradAt_run (c := c) hev hn hv hB0 hB hw hpre hcur (hf it (by simp)) ho
        (hrec 0 it rfl)
      obtain ⟨g2, ops', q1, q2, q3, q4⟩ := ih (pre ++ [it]) (opre ++ [o1]) ocur (by simp)
        (by rw [List.map_append]; exact List.rel_append hpre (.cons r2 .nil)) hcur (fun k x hk hx => by
          obtain ⟨y, h1, h2⟩ := hrec (k + 1) x (by simpa using hk) hx
          refine ⟨y, h1, ?_⟩
          rw [← h2]
          congr 1
          simp; omega)
      have ea : allParams (it :: cur) = it.params ++ allParams cur := by simp [allParams]
      have eb : allParams (pre ++ [it]) = allParams pre ++ it.params := by simp [allParams]
      refine ⟨g1 ++ g2, ops', ?_, q2, by rw [ea, List.length_append, List.length_append, r3, q3], fun i hi => ?_⟩
      · rw [List.length_cons, List.range'_succ]
        unfold gradLoop
        rw [r1, Py.ok_bind]
        dsimp only
        have : opre ++ o1 :: ocur = (opre ++ [o1]) ++ ocur := by simp
        rw [this]
        rw [List.length_append, List.length_singleton] at q1
        rw [q1, Py.ok_bind]
      · by_cases h : i < it.params.length
        · rw [List.getD_append _ _ _ _ (by rw [r3]; exact h)]
          exact r4 i h
        · push Not at h
          rw [List.getD_append_right _ _ _ _ (by rw [r3]; exact h), r3]
          rw [ea, List.length_append] at hi
          have := q4 (i - it.params.length) (by omega)
          rw [eb, List.length_append] at this
          rwa [show (allParams pre).length + it.params.length + (i - it.params.length) = (allParams pre).length + i by
            omega] at this

theorem good_count {l : List (Item N)} {ops : List Op} (hb : List.Forall₂ (Good A) l ops) :
    (allParams l).length = (circ N ops).cir_num_params := by
  rw [(C39_adds_partial N ops).1, circ_gate]
  induction hb with
  | nil => rfl
  | @cons a b l m h _ ih =>
    have e : allParams (a :: l) = a.params ++ allParams l := by simp [allParams]
    rw [e, List.length_append, ih, List.map_cons, List.sum_cons, (good_facts h).1]

/-- `cal_params_grad` on a circuit evaluated by its matrix. -/
theorem grad_run {l : List (Item N)} {ops : List Op} (hg : List.Forall₂ (Good A) l ops) (hw : ∀ x ∈ l, x.WF)
    (hf : ∀ it ∈ l, Fixed A it.params) (hu : ∃ it ∈ l, Unflagged it) {init M : Tensor ℂ} {v : QState N}
    (hi : IsRow init v) (hv : norm2 v = 1) {O : QOp N} (hM : Represents M O) {B : ℝ} (hB0 : 0 ≤ B)
    (hB : ∀ w : QState N, norm2 (O *ᵥ w) ≤ B * norm2 w) (tn : Circuit → Tensor ℂ → Tensor ℂ → Py ℝ) :
    ∃ g ops', A.cal_params_grad tn (circ N ops) init M = .ok (g, { circ N ops with gate := ops' }) ∧
      List.Forall₂ (Good A) (l.map (afterItem A)) ops' ∧ g.length = (allParams l).length ∧
      ∀ j < (allParams l).length, |g.getD j 0 - shiftValue O v l j| ≤ gradErr A.u A.δ B l := by
  have hev : EvalOK A (fun c => A.cirExpectation tn c init M) O v l
      (expErr A.u N B (prodErr A.u N (itemBound A.u A.δ l))) := by
    intro c l' hn hs hg'
    have hu' : ∃ it ∈ l', Unflagged it := by
      obtain ⟨it, hit, hx⟩ := hu
      obtain ⟨it', hit', p, -, rfl⟩ := forall₂_mem hs hit
      exact ⟨_, hit', unflagged_withParams hx p⟩
    have := expec_round (A := A) hn hg' (sameForm_wf hs hw) hu' hi hv hM hB0 hB tn
    rwa [itemBound_sameForm hs] at this
  have hlen := hg.length_eq
  obtain ⟨gs, ops', h1, h2, h3, h4⟩ := gradLoop_run (c := circ N ops) hev (circ_nqubits N ops) hv hB0 hB hw hf l [] [] ops
    rfl .nil hg (fun k it hk hne => by
      obtain ⟨o, ho, hgo⟩ : ∃ o, ops[k]? = some o ∧ Good A it o := by
        have hkl : k < l.length := (List.getElem?_eq_some_iff.1 hk).1
        have := (List.forall₂_iff_get.1 hg).2 k hkl (hlen ▸ hkl)
        refine ⟨ops[k]'(hlen ▸ hkl), List.getElem?_eq_getElem _, ?_⟩
        have e : l[k] = it := (List.getElem?_eq_some_iff.1 hk).2
        simpa [e] using this
      refine ⟨o, hgo, ?_⟩
      rw [circ_params, List.length_nil, Nat.zero_add, ho, Option.map_some, if_pos]
      rw [(good_facts hgo).1]
      exact fun h => hne (List.length_eq_zero_iff.1 h))
  have hc : ({ circ N ops with gate := ([] : List Op) ++ ops } : Circuit) = circ N ops := by
    conv_rhs => rw [show circ N ops = { circ N ops with gate := (circ N ops).gate } from rfl, circ_gate]
    rfl
  rw [hc] at h1
  refine ⟨gs, ops', ?_, h2, h3, fun j hj => ?_⟩
  · unfold cal_params_grad
    rw [circ_gate, List.range_eq_range', ← hlen]
    rw [List.length_nil] at h1
    rw [h1, Py.ok_bind]
    dsimp only
    rw [h3, good_count hg]
    simp [pyAssert]
  · have := h4 j hj
    simp only [allParams, List.flatMap_nil, List.length_nil, Nat.zero_add] at this
    exact this

end Arith

end QTN
