import Verif.Model.BornScript
import Verif.SpecKL
import Verif.Props.Qnn
import Mathlib.Analysis.SpecialFunctions.Trigonometric.Bounds
import Mathlib.Tactic.Positivity

/-!
# C88: the script of the Born machine
-/

namespace QTN.Props

open QTN QTN.Spec Finset

variable {N : ℕ}

/-! ## The target -/

theorem born_func_pos {x : ℝ} (h0 : 0 ≤ x) (h1 : x ≤ 1) : 0 < Born.rand_func x := by
  have hs := Real.neg_one_le_sin (4 * Born.a0 * Real.pi * x)
  unfold Born.rand_func
  set s := Real.sin (4 * Born.a0 * Real.pi * x)
  simp only [Born.a1, Born.a2, Born.a3, Born.a4]
  have h3 : x ^ 3 ≤ x := by nlinarith [mul_nonneg h0 (sub_nonneg.2 h1), sq_nonneg x, mul_nonneg h0 (mul_nonneg h0 (sub_nonneg.2 h1))]
  have h2 : 0 ≤ x ^ 2 := by positivity
  have h4 : 0 ≤ x ^ 4 := by positivity
  norm_num
  linarith

/-- The grid: `1/2^N, 2/2^N, …, 1`. -/
theorem born_grid (N : ℕ) : Born.xx N = (List.range (2 ^ N)).map (fun k : ℕ => ((k : ℝ) + 1) / 2 ^ N) := by
  have hp : (0 : ℝ) < 2 ^ N := by positivity
  have hc : ⌈((1 + 1.0 / 2 ^ N : ℝ) - 1.0 / 2 ^ N) / (1.0 / 2 ^ N)⌉₊ = 2 ^ N := by
    have : ((1 + 1.0 / 2 ^ N : ℝ) - 1.0 / 2 ^ N) / (1.0 / 2 ^ N) = ((2 ^ N : ℕ) : ℝ) := by
      push_cast
      norm_num
    rw [this, Nat.ceil_natCast]
  unfold Born.xx Born.arange
  dsimp only
  rw [hc]
  refine List.map_congr_left fun k _ => ?_
  norm_num
  ring

/-- The specified target: the values of the function at the grid points divided by their sum. -/
noncomputable def bornTarget (N : ℕ) (k : ℕ) : ℝ :=
  Born.rand_func (((k : ℝ) + 1) / 2 ^ N) / ∑ j ∈ range (2 ^ N), Born.rand_func (((j : ℝ) + 1) / 2 ^ N)

theorem born_point_pos {k : ℕ} (hk : k < 2 ^ N) : 0 < Born.rand_func (((k : ℝ) + 1) / 2 ^ N) := by
  have hp : (0 : ℝ) < 2 ^ N := by positivity
  refine born_func_pos (by positivity) ?_
  rw [div_le_one hp]
  exact_mod_cast hk

theorem born_sum_pos (N : ℕ) : 0 < ∑ j ∈ range (2 ^ N), Born.rand_func (((j : ℝ) + 1) / 2 ^ N) :=
  Finset.sum_pos (fun _ hj => born_point_pos (Finset.mem_range.1 hj)) ⟨0, by simp⟩

theorem list_map_range_sum (n : ℕ) (f : ℕ → ℝ) : ((List.range n).map f).sum = ∑ k ∈ range n, f k := by
  induction n with
  | zero => simp
  | succ n ih => rw [List.range_succ, List.map_append, List.sum_append, ih, Finset.sum_range_succ]; simp

theorem forM_assert_ok {p : ℝ → Prop} [DecidablePred p] (l : List ℝ) (h : ∀ x ∈ l, p x) :
    l.forM (fun x => pyAssert (p x)) = .ok () := by
  induction l with
  | nil => rfl
  | cons x l ih =>
    show (pyAssert (p x) >>= fun _ => l.forM (fun x => pyAssert (p x))) = _
    rw [pyAssert_true (h x (by simp)), Py.ok_bind, ih fun y hy => h y (by simp [hy])]

theorem bornTarget_pos {k : ℕ} (hk : k < 2 ^ N) : 0 < bornTarget N k :=
  div_pos (born_point_pos hk) (born_sum_pos N)

theorem bornTarget_sum (N : ℕ) : ∑ k ∈ range (2 ^ N), bornTarget N k = 1 := by
  unfold bornTarget
  rw [← Finset.sum_div, div_self (born_sum_pos N).ne']

/-- C88: none of the assertions on the target fails, for any number of qubits, and the target has a positive
probability at each of the `2^N` points; the probabilities sum to one. -/
theorem C88_target (N : ℕ) : Born.target N = .ok ((List.range (2 ^ N)).map (bornTarget N)) ∧
    IsDist (2 ^ N) (bornTarget N) ∧ ∀ k < 2 ^ N, 0 < bornTarget N k := by
  refine ⟨?_, ⟨fun k hk => (bornTarget_pos hk).le, bornTarget_sum N⟩, fun k hk => bornTarget_pos hk⟩
  have hy : (Born.xx N).map Born.rand_func =
      (List.range (2 ^ N)).map (fun k : ℕ => Born.rand_func (((k : ℝ) + 1) / 2 ^ N)) := by
    rw [born_grid, List.map_map]
    rfl
  have ht : (((Born.xx N).map Born.rand_func).map (fun y => 1.0 * y / ((Born.xx N).map Born.rand_func).sum)) =
      (List.range (2 ^ N)).map (bornTarget N) := by
    rw [hy, list_map_range_sum, List.map_map]
    refine List.map_congr_left fun k _ => ?_
    simp only [Function.comp, bornTarget]
    norm_num
  unfold Born.target
  dsimp only
  rw [pyAssert_true (by rw [hy]; simp), Py.ok_bind, ht, list_map_range_sum, bornTarget_sum,
    pyAssert_true (by norm_num), Py.ok_bind, forM_assert_ok, Py.ok_bind]
  intro x hx
  obtain ⟨k, hk, rfl⟩ := List.mem_map.1 hx
  have := bornTarget_pos (N := N) (List.mem_range.1 hk)
  norm_num
  exact this

/-! ## The loss -/

/-- Gibbs' inequality at one point. -/
theorem gibbs_point {p q : ℝ} (hp : 0 < p) (hq : 0 < q) : p - q ≤ p * Real.log (p / q) ∧
    (p * Real.log (p / q) = p - q → p = q) := by
  have hpos : 0 < q / p := div_pos hq hp
  have e : Real.log (p / q) = - Real.log (q / p) := by rw [← Real.log_inv, inv_div]
  have h1 : p * (q / p) = q := by field_simp
  refine ⟨?_, fun h => ?_⟩
  · have := Real.log_le_sub_one_of_pos hpos
    rw [e]
    nlinarith
  · by_contra hne
    have hn : q / p ≠ 1 := fun h' => hne ((div_eq_one_iff_eq hp.ne').1 h').symm
    have := Real.log_lt_sub_one_of_pos hpos hn
    rw [e] at h
    nlinarith

/-- The relative entropy to a positive distribution's competitor is not negative, zero for equal distributions
only, and infinite if and only if a point is missed. -/
theorem relEntropy_facts {n : ℕ} {p q : ℕ → ℝ} (hp : ∀ k < n, 0 < p k) (sp : ∑ k ∈ range n, p k = 1)
    (hq : IsDist n q) : 0 ≤ relEntropy n p q ∧ (relEntropy n p q = 0 ↔ ∀ k < n, p k = q k) ∧
      (relEntropy n p q = ⊤ ↔ ∃ k < n, q k = 0) := by
  unfold relEntropy
  split_ifs with h
  · obtain ⟨k, hk, -, h0⟩ := h
    refine ⟨le_top, ⟨fun h => absurd h (by simp), fun h => ?_⟩, fun _ => ⟨k, hk, h0⟩, fun _ => rfl⟩
    have := hp k hk
    rw [h k hk, h0] at this
    exact absurd this (lt_irrefl _)
  · have hpos : ∀ k < n, 0 < q k := fun k hk =>
      lt_of_le_of_ne (hq.1 k hk) (fun e => h ⟨k, hk, (hp k hk).ne', e.symm⟩)
    have hs : ∑ k ∈ range n, (p k - q k) = 0 := by rw [Finset.sum_sub_distrib, sp, hq.2, sub_self]
    have hle : ∀ k ∈ range n, p k - q k ≤ p k * Real.log (p k / q k) := fun k hk =>
      (gibbs_point (hp k (Finset.mem_range.1 hk)) (hpos k (Finset.mem_range.1 hk))).1
    refine ⟨?_, ⟨fun h0 => ?_, fun he => ?_⟩, ⟨fun h0 => absurd h0 (EReal.coe_ne_top _), ?_⟩⟩
    · rw [EReal.coe_nonneg, ← hs]
      exact Finset.sum_le_sum hle
    · rw [EReal.coe_eq_zero, ← hs] at h0
      intro k hk
      exact (gibbs_point (hp k hk) (hpos k hk)).2
        ((Finset.sum_eq_sum_iff_of_le hle).1 h0.symm k (Finset.mem_range.2 hk)).symm
    · rw [EReal.coe_eq_zero]
      refine Finset.sum_eq_zero fun k hk => ?_
      rw [← he k (Finset.mem_range.1 hk), div_self (hp k (Finset.mem_range.1 hk)).ne', Real.log_one, mul_zero]
    · rintro ⟨k, hk, e⟩
      exact absurd e (hpos k hk).ne'

theorem ereal_sum_coe (n : ℕ) (f : ℕ → ℝ) : ((List.range n).map (fun k => (f k : EReal))).sum =
    ((∑ k ∈ range n, f k : ℝ) : EReal) := by
  induction n with
  | zero => simp
  | succ n ih =>
    rw [List.range_succ, List.map_append, List.sum_append, ih, Finset.sum_range_succ, EReal.coe_add]
    simp

theorem ereal_sum_ne_bot (l : List EReal) (h : ∀ x ∈ l, x ≠ ⊥) : l.sum ≠ ⊥ := by
  induction l with
  | nil => simp
  | cons x l ih =>
    rw [List.sum_cons, Ne, EReal.add_eq_bot_iff, not_or]
    exact ⟨h x (by simp), ih fun y hy => h y (by simp [hy])⟩

theorem ereal_sum_top (l : List EReal) (h : ∀ x ∈ l, x ≠ ⊥) (ht : ⊤ ∈ l) : l.sum = ⊤ := by
  induction l with
  | nil => simp at ht
  | cons x l ih =>
    rw [List.sum_cons]
    rcases List.mem_cons.1 ht with rfl | ht
    · exact EReal.top_add_of_ne_bot (ereal_sum_ne_bot l fun y hy => h y (by simp [hy]))
    · rw [ih (fun y hy => h y (by simp [hy])) ht]
      exact EReal.add_top_of_ne_bot (h x (by simp))

theorem zipWith_map_range {α β γ : Type} (n : ℕ) (f : ℕ → α) (g : ℕ → β) (h : α → β → γ) :
    List.zipWith h ((List.range n).map f) ((List.range n).map g) = (List.range n).map (fun k => h (f k) (g k)) := by
  rw [List.zipWith_map, List.zipWith_self]

theorem kl_term_zero {p : ℝ} (hp : 0 < p) : (p : EReal) * (Born.torchLog p - Born.torchLog 0) = ⊤ := by
  simp only [Born.torchLog, if_pos, if_neg hp.ne']
  rw [EReal.coe_sub_bot, EReal.coe_mul_top_of_pos hp]

theorem kl_term_pos {p q : ℝ} (hp : 0 < p) (hq : 0 < q) : (p : EReal) * (Born.torchLog p - Born.torchLog q) =
    ((p * Real.log (p / q) : ℝ) : EReal) := by
  simp only [Born.torchLog, if_neg hp.ne', if_neg hq.ne']
  rw [← EReal.coe_sub, ← EReal.coe_mul, Real.log_div hp.ne' hq.ne']

/-- The loss of the script is the relative entropy of the target to the output. -/
theorem loss_relEntropy {n : ℕ} {p : ℕ → ℝ} (hp : ∀ k < n, 0 < p k) {t : Tensor ℝ} (ht : t.shape = [n])
    (hq : ∀ k < n, 0 ≤ t.get [k]) :
    Born.loss t ((List.range n).map p) = .ok (relEntropy n p (fun k => t.get [k])) := by
  unfold Born.loss Born.KLDivLoss
  rw [raiseIf_false (by simp [ht]), Py.ok_bind, List.map_map]
  refine congrArg Except.ok ?_
  rw [show t.shape.getD 0 0 = n from by rw [ht]; rfl, zipWith_map_range]
  simp only [Function.comp]
  unfold relEntropy
  split_ifs with h
  · obtain ⟨k, hk, -, h0⟩ := h
    refine ereal_sum_top _ ?_ (List.mem_map.2 ⟨k, List.mem_range.2 hk, ?_⟩)
    · intro x hx
      obtain ⟨j, hj, rfl⟩ := List.mem_map.1 hx
      have hj := List.mem_range.1 hj
      rcases eq_or_lt_of_le (hq j hj) with e | e
      · rw [← e, kl_term_zero (hp j hj)]
        simp
      · rw [kl_term_pos (hp j hj) e]
        exact EReal.coe_ne_bot _
    · rw [show t.get [k] = 0 from h0, kl_term_zero (hp k hk)]
  · rw [← ereal_sum_coe]
    refine congrArg List.sum (List.map_congr_left fun k hk => ?_)
    have hk := List.mem_range.1 hk
    exact kl_term_pos (hp k hk) (lt_of_le_of_ne (hq k hk) fun e => h ⟨k, hk, (hp k hk).ne', e.symm⟩)

/-- C88: the loss of the script is the relative entropy of the target to the distribution of the circuit,
so it is not negative, zero only if the circuit produces exactly the target, and infinite exactly if the
circuit never produces one of the outcomes. -/
theorem C88_loss (hN : 2 ≤ N) (w : List ℝ) (hw : w.length = 18 * N) :
    ∃ t l, Born.forward N w = .ok t ∧ (do Born.loss t (← Born.target N)) = .ok l ∧
      l = relEntropy (2 ^ N) (bornTarget N) (fun k => t.get [k]) ∧ 0 ≤ l ∧
      (l = 0 ↔ ∀ a : Bits N, ‖(circuitOp (bornItems N w)).mulVec (ket0 N) a‖ ^ 2 = bornTarget N (enc a)) ∧
      (l = ⊤ ↔ ∃ a : Bits N, (circuitOp (bornItems N w)).mulVec (ket0 N) a = 0) := by
  obtain ⟨t, et, st, gt⟩ := C76_born hN w hw
  obtain ⟨t', et', -, hpos, hsum⟩ := C76_distribution hN w hw
  rw [et] at et'
  cases et'
  obtain ⟨e, ⟨-, hs⟩, hp⟩ := C88_target N
  obtain ⟨f1, f2, f3⟩ := relEntropy_facts hp hs (q := fun k => t.get [k]) ⟨hpos, hsum⟩
  refine ⟨t, _, et, by rw [e, Py.ok_bind, loss_relEntropy hp st hpos], rfl, f1, f2.trans ⟨fun h a => ?_, fun h k hk => ?_⟩,
    f3.trans ⟨?_, ?_⟩⟩
  · rw [← gt, h _ (enc_lt a)]
  · obtain ⟨a, rfl⟩ := exists_enc hk
    rw [gt, h]
  · rintro ⟨k, hk, h⟩
    obtain ⟨a, rfl⟩ := exists_enc hk
    rw [gt] at h
    exact ⟨a, by simpa using h⟩
  · rintro ⟨a, h⟩
    refine ⟨enc a, enc_lt a, ?_⟩
    rw [gt, h]
    simp

/-! ## The training loop -/

/-- The learning rate after `e` epochs: 0.5, reduced by a fifth at each milestone that has passed. -/
noncomputable def bornRate (e : ℕ) : ℝ :=
  0.5 * 0.8 ^ ([50, 100, 150, 250, 350, 500, 800, 1000, 2300].filter (fun m : ℕ => m ≤ e)).length

theorem sched_step (e : ℕ) : Born.Sched.step ⟨e, bornRate e⟩ = ⟨e + 1, bornRate (e + 1)⟩ := by
  have key : ∀ l : List ℕ, (l.filter (fun m => m ≤ e + 1)).length = (l.filter (fun m => m ≤ e)).length + l.count (e + 1) := by
    intro l
    induction l with
    | nil => rfl
    | cons m l ih =>
      rw [List.filter_cons, List.filter_cons, List.count_cons]
      by_cases h1 : m ≤ e
      · have h2 : ¬ m = e + 1 := by omega
        simp [h1, h2, Nat.le_succ_of_le h1, ih]
        omega
      · by_cases h2 : m = e + 1
        · subst h2
          simp [ih]
          omega
        · have h3 : ¬ m ≤ e + 1 := by omega
          simp [h1, h2, h3, ih]
  unfold Born.Sched.step bornRate
  dsimp only
  rw [mul_assoc, ← pow_add, key]
  rfl

theorem bornRate_zero : bornRate 0 = 0.5 := by
  unfold bornRate
  rw [show ([50, 100, 150, 250, 350, 500, 800, 1000, 2300].filter (fun m : ℕ => m ≤ 0)).length = 0 from by decide]
  norm_num

/-- The loop, from any epoch on. -/
theorem train_ok {σ : Type} (upd : σ → List ℝ → ℝ → σ × List ℝ)
    (hupd : ∀ s w lr, (upd s w lr).2.length = w.length) (hN : 2 ≤ N) (n : ℕ) :
    ∀ (e : ℕ) (st : σ) (w : List ℝ), w.length = 18 * N →
      ∃ ls w', Born.train upd N ((List.range (2 ^ N)).map (bornTarget N)) ((List.range n).map (fun i => i + (e + 1))) st w
          ⟨e, bornRate e⟩ = .ok (ls, w') ∧ w'.length = 18 * N ∧ ls.length = n ∧
        ∀ i (h : i < ls.length), ls[i].epoch = e + i + 1 ∧ 0 ≤ ls[i].l ∧ ls[i].lr = bornRate (e + i + 1) := by
  induction n with
  | zero => exact fun e st w hw => ⟨[], w, rfl, hw, rfl, fun i h => absurd h (by simp)⟩
  | succ n ih =>
    intro e st w hw
    obtain ⟨t, l, et, el, -, hl, -⟩ := C88_loss hN w hw
    rw [(C88_target N).1, Py.ok_bind] at el
    obtain ⟨ls, w', e1, h1, h2, h3⟩ := ih (e + 1) (upd st w (bornRate e)).1 (upd st w (bornRate e)).2 (by rw [hupd, hw])
    refine ⟨⟨e + 1, l, bornRate (e + 1)⟩ :: ls, w', ?_, h1, by simp [h2], fun i hi => ?_⟩
    · rw [List.range_succ_eq_map, List.map_cons, List.map_map]
      have hr : (List.range n).map ((fun i => i + (e + 1)) ∘ Nat.succ) = (List.range n).map (fun i => i + (e + 1 + 1)) :=
        List.map_congr_left fun i _ => by simp only [Function.comp]; omega
      rw [hr]
      unfold Born.train
      rw [et, Py.ok_bind, el, Py.ok_bind]
      dsimp only
      rw [sched_step, e1, Py.ok_bind, Nat.zero_add]
    · cases i with
      | zero => exact ⟨rfl, hl, rfl⟩
      | succ i =>
        have := h3 i (by simpa using hi)
        simp only [List.getElem_cons_succ]
        refine ⟨by rw [this.1]; omega, this.2.1, ?_⟩
        rw [this.2.2]
        congr 1
        omega

/-- C88: whatever the optimizer does with the weights (as long as it keeps their number), the script runs to
its end: it prints 3000 lines, line `i` with epoch `i + 1`, a loss that is not negative and the learning rate
of that epoch, and the final distribution is a probability distribution on the points of the grid. -/
theorem C88_script {σ : Type} (upd : σ → List ℝ → ℝ → σ × List ℝ)
    (hupd : ∀ s w lr, (upd s w lr).2.length = w.length) (hN : 2 ≤ N) (st : σ) (w : List ℝ) (hw : w.length = 18 * N) :
    ∃ ls t, Born.script upd N st w = .ok (ls, t) ∧ ls.length = 3000 ∧
      (∀ i (h : i < ls.length), ls[i].epoch = i + 1 ∧ 0 ≤ ls[i].l ∧ ls[i].lr = bornRate (i + 1)) ∧
      t.shape = [(Born.xx N).length] ∧ IsDist (2 ^ N) (fun k => t.get [k]) := by
  obtain ⟨ls, w', e1, h1, h2, h3⟩ := train_ok upd hupd hN 3000 0 st w hw
  obtain ⟨t, et, st', hpos, hsum⟩ := C76_distribution hN w' h1
  have hx : (Born.xx N).length = 2 ^ N := by rw [born_grid]; simp
  refine ⟨ls, t, ?_, h2, fun i h => ?_, by rw [st', hx], hpos, hsum⟩
  · unfold Born.script
    rw [(C88_target N).1, Py.ok_bind, show Born.Sched.init = ⟨0, bornRate 0⟩ from by rw [bornRate_zero]; rfl]
    rw [show (fun x : ℕ => x + 1) = (fun i => i + (0 + 1)) from rfl, e1, Py.ok_bind]
    dsimp only
    rw [et, Py.ok_bind, pyAssert_true (by rw [st', hx]; rfl), Py.ok_bind]
  · have := h3 i h
    simpa using this

/-- C88: the learning rate never increases, and ends at `0.5 · 0.8^9`. -/
theorem C88_rate (e : ℕ) : bornRate (e + 1) ≤ bornRate e ∧ 0 < bornRate e ∧ (2300 ≤ e → bornRate e = 0.5 * 0.8 ^ 9) := by
  have hpos : ∀ e, 0 < bornRate e := fun e => by unfold bornRate; positivity
  refine ⟨?_, hpos e, fun h => ?_⟩
  · have h := congrArg Born.Sched.lr (sched_step e)
    dsimp only [Born.Sched.step] at h
    rw [← h]
    refine mul_le_of_le_one_right (hpos e).le (pow_le_one₀ (by norm_num) (by norm_num))
  · unfold bornRate
    rw [List.filter_eq_self.2]
    · rfl
    · intro m hm
      simp only [List.mem_cons, List.not_mem_nil, or_false] at hm
      simp
      omega

/-- The hypotheses: six qubits, plain gradient descent with any gradient. -/
example (g : List ℝ → List ℝ) (hg : ∀ w, (g w).length = w.length) :
    (List.replicate 108 (0.3 : ℝ)).length = 18 * 6 ∧ (2 : ℕ) ≤ 6 ∧
      ∀ (s : Unit) w lr, ((fun (s : Unit) (w : List ℝ) (lr : ℝ) =>
        (s, List.zipWith (fun x d => x - lr * d) w (g w))) s w lr).2.length = w.length := by
  refine ⟨by simp, by norm_num, fun s w lr => ?_⟩
  simp [hg]

/-- The loss does distinguish: the relative entropy of different distributions is positive. -/
example : 0 < relEntropy 2 (fun k => if k = 0 then 1 / 4 else 3 / 4) (fun _ => 1 / 2) := by
  obtain ⟨h1, h2, -⟩ := relEntropy_facts (n := 2) (p := fun k => if k = 0 then 1 / 4 else 3 / 4) (q := fun _ => 1 / 2)
    (fun k _ => by split_ifs <;> norm_num) (by simp [Finset.sum_range_succ]; norm_num)
    ⟨fun _ _ => by norm_num, by simp⟩
  refine lt_of_le_of_ne h1 fun h => ?_
  have := h2.1 h.symm 0 (by norm_num)
  norm_num at this

/-- The rate at the first and after the last milestone. -/
example : bornRate 49 = 0.5 ∧ bornRate 50 = 0.4 := by
  constructor <;> (simp [bornRate]; try norm_num)

end QTN.Props
