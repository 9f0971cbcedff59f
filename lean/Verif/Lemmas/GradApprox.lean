import Verif.Lemmas.GradEx
import Verif.Props.Grad
import Verif.Props.Accuracy

/-! # Runs of `cal_params_grad` when the evaluations have an error -/

namespace QTN

open Spec Matrix QTN.Props

variable {N : ℕ}

/-- Every evaluation of the circuit returns the expectation value up to `ε`. -/
def EvalWithin (svd : SVDOracle) (ps : PShift) (O : QOp N) (v : QState N) (ε : ℝ) (l : List (Item N)) : Prop :=
  ∀ c : Circuit, c.nqubits = N → List.Forall₂ Built l c.gate → ∀ s, ∃ r s',
    ps.expec svd (c, s) = (.ok r, (c, s')) ∧ |r - energy O v l| ≤ ε

theorem sibling_set (pre post : List (Item N)) (it : Item N) {p : List ℝ} (hp : p.length = it.params.length) :
    List.Forall₂ Sibling (pre ++ it :: post) (pre ++ it.withParams p :: post) :=
  List.rel_append (sibling_refl pre) (.cons ⟨p, hp, rfl⟩ (sibling_refl post))

section
variable {svd : SVDOracle} {v : QState N} {ps : PShift} {O : QOp N} {c : Circuit} {ε : ℝ}

theorem eval_within (hn : c.nqubits = N) {pre post : List (Item N)} {it : Item N} {opre opost : List Op}
    (hw : it.WF) (hE : ∀ l', List.Forall₂ Sibling (pre ++ it :: post) l' → EvalWithin svd ps O v ε l')
    (hpre : List.Forall₂ Built pre opre) (hpost : List.Forall₂ Built post opost) {o : Op} {p0 : List ℝ}
    (hp0 : p0.length = it.params.length) (ho : Built (it.withParams p0) o)
    (x : List ℝ) (hx : x.length = it.params.length) (hne : it.params ≠ [])
    {β : Type} (f : ℝ → CM β) (s : List (Tensor ℂ)) :
    ∃ o' r s', Built (it.withParams x) o' ∧ |r - energy O v (pre ++ it.withParams x :: post)| ≤ ε ∧
      (do CM.update opre.length x; let e ← ps.expec svd; f e) ({ c with gate := opre ++ o :: opost }, s) =
        f r ({ c with gate := opre ++ o' :: opost }, s') := by
  obtain ⟨-, -, hup⟩ := built_facts (wf_withParams hw hp0) ho
  rw [params_withParams it p0 hp0] at hup
  obtain ⟨o', e1, hb⟩ := hup x (by rw [hx, hp0]) (by
    intro h; rw [h] at hp0; exact hne (List.length_eq_zero_iff.1 hp0.symm))
  rw [withParams_twice it p0 x hp0 hx] at hb
  rw [CM.bind_ok (update_ok x e1 s)]
  have hb2 : List.Forall₂ Built (pre ++ it.withParams x :: post) (opre ++ o' :: opost) :=
    List.rel_append hpre (.cons hb hpost)
  obtain ⟨r, s', e2, he⟩ := hE _ (sibling_set pre post it hx) { c with gate := opre ++ o' :: opost } hn hb2 s
  exact ⟨o', r, s', hb, he, CM.bind_ok e2⟩

theorem half_diff {a b x y : ℝ} (h1 : |a - x| ≤ ε) (h2 : |b - y| ≤ ε) :
    |0.5 * (a - b) - 0.5 * (x - y)| ≤ ε := by
  rw [abs_le] at *
  constructor <;> norm_num <;> linarith

theorem gradVec_within (hn : c.nqubits = N) {pre post : List (Item N)} {it : Item N} {opre opost : List Op}
    (hw : it.WF) (hE : ∀ l', List.Forall₂ Sibling (pre ++ it :: post) l' → EvalWithin svd ps O v ε l')
    (hpre : List.Forall₂ Built pre opre) (hpost : List.Forall₂ Built post opost) (hne : it.params ≠ []) :
    ∀ (is : List ℕ) (_ : ∀ i ∈ is, i < it.params.length) (o : Op) (p0 : List ℝ)
      (_ : p0.length = it.params.length) (_ : Built (it.withParams p0) o) (_ : is = [] → p0 = it.params)
      (s : List (Tensor ℂ)),
    ∃ o' g s', Built it o' ∧
      List.Forall₂ (fun i y => |y - shiftValue O v (pre ++ it :: post) ((allParams pre).length + i)| ≤ ε) is g ∧
      ps.gradVec svd opre.length is it.params ({ c with gate := opre ++ o :: opost }, s) =
        (.ok g, ({ c with gate := opre ++ o' :: opost }, s')) := by
  intro is
  induction is with
  | nil =>
    intro _ o p0 hp0 ho h0 s
    rw [h0 rfl, withParams_self] at ho
    exact ⟨o, [], s, ho, .nil, rfl⟩
  | cons i is ih =>
    intro his o p0 hp0 ho _ s
    have hil := his i (by simp)
    set p := it.params with hp
    have hb1 : PShift.bump p i (0.5 * Real.pi) = p.set i (p.getD i 0 + 0.5 * Real.pi) := bump_eq _ _ _ hil
    have hb2 : PShift.bump (PShift.bump p i (0.5 * Real.pi)) i (-(1.0 * Real.pi)) =
        p.set i (p.getD i 0 - 0.5 * Real.pi) := by
      rw [hb1, bump_eq _ _ _ (by simpa using hil), List.set_set]
      congr 1
      rw [List.getD_eq_getElem?_getD, List.getElem?_set_self (by simpa using hil), Option.getD_some,
        show (0.5 : ℝ) = 1 / 2 by norm_num, show (1.0 : ℝ) = 1 by norm_num]
      ring
    have hb3 : PShift.bump (PShift.bump (PShift.bump p i (0.5 * Real.pi)) i (-(1.0 * Real.pi))) i
        (0.5 * Real.pi) = p := by
      rw [hb2, bump_eq _ _ _ (by simpa using hil), List.set_set]
      rw [List.getD_eq_getElem?_getD (l := p.set _ _), List.getElem?_set_self (by simpa using hil), Option.getD_some]
      rw [sub_add_cancel, List.getD_eq_getElem?_getD, List.getElem?_eq_getElem hil, Option.getD_some,
        List.set_getElem_self]
    unfold PShift.gradVec
    dsimp only
    rw [hb3, hb2, hb1]
    obtain ⟨o1, r1, s1, ho1, d1, e1⟩ := eval_within (O := O) hn hw hE hpre hpost hp0 ho
      (p.set i (p.getD i 0 + 0.5 * Real.pi)) (by simp [hp]) hne _ s
    rw [e1]
    obtain ⟨o2, r2, s2, ho2, d2, e2⟩ := eval_within (O := O) hn hw hE hpre hpost (by simp [hp]) ho1
      (p.set i (p.getD i 0 - 0.5 * Real.pi)) (by simp [hp]) hne _ s1
    rw [e2]
    obtain ⟨-, -, hup⟩ := built_facts (wf_withParams hw (p := p.set i (p.getD i 0 - 0.5 * Real.pi))
      (by simp [hp])) ho2
    rw [params_withParams it _ (by simp [hp])] at hup
    obtain ⟨o3, e3, ho3⟩ := hup p (by simp) (by
      intro h; exact hne (by simpa using congrArg List.length h))
    rw [withParams_twice it _ p (by simp [hp]) rfl] at ho3
    rw [CM.bind_ok (update_ok p e3 s2)]
    obtain ⟨o4, g, s4, ho4, hg, e4⟩ := ih (fun i h => his i (by simp [h])) o3 p rfl ho3 (fun _ => rfl) s2
    rw [CM.bind_ok e4]
    refine ⟨o4, _, s4, ho4, .cons ?_ hg, rfl⟩
    unfold shiftValue
    rw [setParam_append _ _ _ _ hil, setParam_append _ _ _ _ hil, allParams_getD _ _ _ _ hil]
    exact half_diff d1 d2

theorem gradScalar_within (hn : c.nqubits = N) {pre post : List (Item N)} {it : Item N} {opre opost : List Op}
    (hw : it.WF) (hE : ∀ l', List.Forall₂ Sibling (pre ++ it :: post) l' → EvalWithin svd ps O v ε l')
    (hpre : List.Forall₂ Built pre opre) (hpost : List.Forall₂ Built post opost) {x : ℝ}
    (hp : it.params = [x]) (o : Op) (p0 : List ℝ)
    (hp0 : p0.length = it.params.length) (ho : Built (it.withParams p0) o) (s : List (Tensor ℂ)) :
    ∃ o' y s', Built it o' ∧
      |y - shiftValue O v (pre ++ it :: post) ((allParams pre).length + 0)| ≤ ε ∧
      ps.gradScalar svd opre.length x ({ c with gate := opre ++ o :: opost }, s) =
        (.ok y, ({ c with gate := opre ++ o' :: opost }, s')) := by
  have hne : it.params ≠ [] := by rw [hp]; simp
  have hil : 0 < it.params.length := by rw [hp]; simp
  unfold PShift.gradScalar
  obtain ⟨o1, r1, s1, ho1, d1, e1⟩ := eval_within (O := O) hn hw hE hpre hpost hp0 ho
    [x + 0.5 * Real.pi] (by simp [hp]) hne _ s
  rw [e1]
  obtain ⟨o2, r2, s2, ho2, d2, e2⟩ := eval_within (O := O) hn hw hE hpre hpost (by simp [hp]) ho1
    [x - 0.5 * Real.pi] (by simp [hp]) hne _ s1
  rw [e2]
  obtain ⟨-, -, hup⟩ := built_facts (wf_withParams hw (p := [x - 0.5 * Real.pi]) (by simp [hp])) ho2
  rw [params_withParams it _ (by simp [hp])] at hup
  obtain ⟨o3, e3, ho3⟩ := hup [x] (by simp) (by simp)
  rw [withParams_twice it _ [x] (by simp [hp]) (by simp [hp]), ← hp, withParams_self] at ho3
  rw [CM.bind_ok (update_ok [x] e3 s2)]
  refine ⟨o3, _, s2, ho3, ?_, rfl⟩
  unfold shiftValue
  rw [setParam_append _ _ _ _ hil, setParam_append _ _ _ _ hil, allParams_getD _ _ _ _ hil]
  have h0 : it.params.getD 0 0 = x := by rw [hp]; rfl
  have hset : ∀ y, it.params.set 0 y = [y] := fun y => by rw [hp]; rfl
  rw [h0, hset, hset]
  exact half_diff d1 d2

theorem gradAt_within (hn : c.nqubits = N) {pre post : List (Item N)} {it : Item N} {opre opost : List Op}
    (hw : it.WF) (hE : ∀ l', List.Forall₂ Sibling (pre ++ it :: post) l' → EvalWithin svd ps O v ε l')
    (hpre : List.Forall₂ Built pre opre) (hpost : List.Forall₂ Built post opost)
    {o : Op} (ho : Built it o) (hrec : Recorded c opre.length it) (s : List (Tensor ℂ)) :
    ∃ g s', List.Forall₂ (fun i y => |y - shiftValue O v (pre ++ it :: post) ((allParams pre).length + i)| ≤ ε)
        (List.range it.params.length) g ∧
      ps.gradAt svd opre.length ({ c with gate := opre ++ o :: opost }, s) =
        (.ok g, ({ c with gate := opre ++ o :: opost }, s')) := by
  obtain ⟨hnum, -, -⟩ := built_facts hw ho
  have hg : ({ c with gate := opre ++ o :: opost } : Circuit).gate[opre.length]? = some o := by
    dsimp only
    rw [List.getElem?_append_right (le_refl _), Nat.sub_self]
    rfl
  have uniq : ∀ o', Built it o' → o' = o := by
    intro o' h
    have : (Except.ok o' : Py Op) = .ok o := h.symm.trans ho
    cases this
    rfl
  by_cases hp : it.params = []
  · have h0 : o.numParams = 0 := by rw [hnum, hp]; rfl
    rw [gradAt_zero svd ps (s := s) hg h0, hp]
    exact ⟨[], s, .nil, rfl⟩
  · have h0 : o.numParams ≠ 0 := by
      rw [hnum]; exact fun h => hp (List.length_eq_zero_iff.1 h)
    obtain ⟨or, hor, hcp⟩ := hrec hp
    obtain ⟨-, hpv, -⟩ := built_facts hw hor
    have ho' : Built (it.withParams it.params) o := by rw [withParams_self]; exact ho
    rcases hpv hp with hv | ⟨x, hx, hv⟩
    · have e1 : PShift.readParams { c with gate := opre ++ o :: opost } opre.length = .ok (.vec it.params) := by
        unfold PShift.readParams
        dsimp only
        rw [hcp, hv]
      rw [gradAt_vec svd ps (s := s) hg h0 e1]
      obtain ⟨o', g, s', h1, h2, h3⟩ := gradVec_within (c := c) hn hw hE hpre hpost hp _
        (fun i h => List.mem_range.1 h) o _ rfl ho' (fun _ => rfl) s
      obtain rfl := uniq o' h1
      exact ⟨g, s', h2, h3⟩
    · have e1 : PShift.readParams { c with gate := opre ++ o :: opost } opre.length = .ok (.scalar x) := by
        unfold PShift.readParams
        dsimp only
        rw [hcp, hv]
      rw [gradAt_scalar svd ps (s := s) hg h0 e1]
      obtain ⟨o', y, s', h1, h2, h3⟩ := gradScalar_within (c := c) hn hw hE hpre hpost hx o _ rfl ho' s
      obtain rfl := uniq o' h1
      refine ⟨[y], s', ?_, ?_⟩
      · rw [hx]
        exact .cons h2 .nil
      · rw [CM.bind_ok h3, CM.pure_apply]

theorem gradLoop_within (hn : c.nqubits = N) {l : List (Item N)} (hw : ∀ it ∈ l, it.WF)
    (hE : ∀ l', List.Forall₂ Sibling l l' → EvalWithin svd ps O v ε l') :
    ∀ (cur pre : List (Item N)) (opre ocur : List Op), l = pre ++ cur →
      List.Forall₂ Built pre opre → List.Forall₂ Built cur ocur →
      (∀ k it, cur[k]? = some it → Recorded c (opre.length + k) it) → ∀ s : List (Tensor ℂ),
      ∃ g s', List.Forall₂ (fun j y => |y - shiftValue O v l j| ≤ ε)
          (List.range' (allParams pre).length (allParams cur).length) g ∧
        ps.gradLoop svd (List.range' opre.length cur.length) ({ c with gate := opre ++ ocur }, s) =
          (.ok g, ({ c with gate := opre ++ ocur }, s')) := by
  intro cur
  induction cur with
  | nil =>
    intro pre opre ocur _ _ hc _ s
    cases hc
    exact ⟨[], s, .nil, rfl⟩
  | cons a cur ih =>
    intro pre opre ocur hl hpre hc hrec s
    cases hc with
    | @cons _ o _ ocur ho hc =>
      rw [List.length_cons, List.range'_succ]
      unfold PShift.gradLoop
      obtain ⟨g1, s1, h1, e1⟩ := gradAt_within (c := c) hn (hw a (by rw [hl]; simp)) (by rw [← hl]; exact hE)
        hpre hc ho (by have := hrec 0 a rfl; simpa using this) s
      rw [CM.bind_ok e1]
      have hpre1 : List.Forall₂ Built (pre ++ [a]) (opre ++ [o]) := List.rel_append hpre (.cons ho .nil)
      obtain ⟨g2, s2, h2, e2⟩ := ih (pre ++ [a]) (opre ++ [o]) ocur (by rw [hl]; simp) hpre1 hc (fun k it hk => by
        have := hrec (k + 1) it (by simpa using hk)
        rw [List.length_append, List.length_singleton, Nat.add_right_comm]
        exact this) s1
      rw [List.length_append, List.length_singleton, List.append_assoc, List.singleton_append] at e2
      rw [CM.bind_ok e2]
      refine ⟨g1 ++ g2, s2, ?_, rfl⟩
      have ea : allParams (a :: cur) = a.params ++ allParams cur := by simp [allParams]
      have e1 : (allParams (pre ++ [a])).length = (allParams pre).length + a.params.length := by
        simp [allParams]
      rw [ea, List.length_append, ← List.range'_append_1]
      rw [e1] at h2
      refine List.rel_append ?_ h2
      rw [List.range'_eq_map_range, List.forall₂_map_left_iff, hl]
      exact h1

/-- The whole call on a circuit whose dictionary is up to date. -/
theorem grad_within {l : List (Item N)} {ops : List Op} (hw : ∀ it ∈ l, it.WF)
    (hE : ∀ l', List.Forall₂ Sibling l l' → EvalWithin svd ps O v ε l')
    (hb : List.Forall₂ Built l ops) (s : List (Tensor ℂ)) :
    ∃ g s', ps.cal_params_grad svd (circ N ops, s) = (.ok g, (circ N ops, s')) ∧
      List.Forall₂ (fun j y => |y - shiftValue O v l j| ≤ ε) (List.range (allParams l).length) g := by
  have hc : ∀ c : Circuit, c.gate = ops → { c with gate := ops } = c := by rintro c rfl; rfl
  have hcirc := hc _ (circ_gate N ops)
  have e0 : (CM.read (fun c => TNM.lift (.ok c.gate.length)) : CM ℕ) (circ N ops, s) =
      (.ok ops.length, (circ N ops, s)) := by
    unfold CM.read TNM.lift
    dsimp only
    rw [circ_gate]
  unfold PShift.cal_params_grad
  rw [CM.bind_ok e0]
  have hlen : ops.length = l.length := hb.length_eq.symm
  rw [hlen, List.range_eq_range']
  obtain ⟨g, s', h1, h2⟩ := gradLoop_within (c := circ N ops) (circ_nqubits N ops) hw hE l [] [] ops rfl .nil hb
    (by simpa using circ_recorded hw hb) s
  rw [List.nil_append, hcirc, List.length_nil] at h2
  rw [CM.bind_ok h2]
  refine ⟨g, s', ?_, by rw [List.range_eq_range']; exact h1⟩
  have hgl : g.length = (circ N ops).cir_num_params := by
    rw [← h1.length_eq, List.length_range', circ_count hw hb]
  have e3 : (CM.read (fun c => TNM.lift (pyAssert (g.length = c.cir_num_params))) : CM Unit)
      (circ N ops, s') = (.ok (), (circ N ops, s')) := by
    unfold CM.read TNM.lift
    dsimp only
    rw [hgl]
    simp [pyAssert]
  rw [CM.bind_ok e3]
  rfl

end

theorem decomps_withParams (it : Item N) (p : List ℝ) : (it.withParams p).decomps = it.decomps := by
  cases it with
  | gate ins =>
    cases ins <;> rcases p with _ | ⟨a, _ | ⟨b, _ | ⟨c, _ | ⟨d, p⟩⟩⟩⟩ <;> rfl
  | _ => rfl

theorem accuracy_sibling {l l' : List (Item N)} (h : List.Forall₂ Sibling l l') : accuracy l' = accuracy l := by
  have : (l'.map Item.decomps).sum = (l.map Item.decomps).sum := by
    induction h with
    | nil => rfl
    | @cons a b l m hab _ ih =>
      obtain ⟨p, -, rfl⟩ := hab
      rw [List.map_cons, List.map_cons, List.sum_cons, List.sum_cons, ih, decomps_withParams]
  unfold accuracy svdCount
  rw [this]

theorem sibling_all {P : Item N → Prop} {l l' : List (Item N)} (h : List.Forall₂ Sibling l l')
    (hP : ∀ it p, p.length = it.params.length → P it → P (it.withParams p)) (hl : ∀ it ∈ l, P it) :
    ∀ it ∈ l', P it := by
  induction h with
  | nil => simp
  | @cons a b l m hab _ ih =>
    obtain ⟨p, hp, rfl⟩ := hab
    intro it hit
    rcases List.mem_cons.1 hit with rfl | hit
    · exact hP a p hp (hl a (by simp))
    · exact ih (fun it h => hl it (by simp [h])) it hit

theorem evalWithin_tn {svd : SVDOracle} (hv : ValidSVD svd) (hN : 0 < N) (l : List (Item N))
    (h : ∀ it ∈ l, it.WF) (hc : ∀ it ∈ l, HasTN it) {ps : PShift} {v : QState N} (hi : IsRow ps.init_state v)
    (hn : norm2 v ≤ 1) (ha : accuracy l < norm2 v) {O : QOp N} (hM : Represents ps.M O) {B : ℝ}
    (hB : ∀ w : QState N, norm2 (O *ᵥ w) ≤ B * norm2 w) :
    EvalWithin svd ps O v (2 * B * accuracy l) l := by
  intro c hcn hb s
  obtain ⟨ops, hops, hr⟩ := C60_expectation hv hN l h hc ps.init_state ps.M v hi hn ha O hM B hB
  obtain rfl : ops = c.gate := by
    have := mapM_of_forall₂ hb
    rw [hops] at this
    cases this; rfl
  obtain ⟨r, r', s', e1, -, e2, hd⟩ := hr s
  refine ⟨r, s', ?_, ?_⟩
  · have : c.cir_expectation svd ps.init_state ps.M true s =
        (circ N c.gate).cir_expectation svd ps.init_state ps.M true s := by
      unfold Circuit.cir_expectation Circuit.TN_check Circuit.U Circuit.TN_evolution
      rw [circ_gate, circ_nqubits, hcn]
    unfold PShift.expec CM.read
    dsimp only
    rw [this, e1]
  · unfold energy
    rw [braket_mul, ← e2]
    exact hd

end QTN
