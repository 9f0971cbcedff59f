import Verif.Lemmas.StringsNet
import Verif.Props.Fit

/-! # Property C99: what the networks of test_qnn_demo.py, test_qcnn_demo.py and test_qnn_demo_free.py can represent -/

namespace QTN.Props

open QTN QTN.Spec QTN.DemoNet Matrix Finset

variable {N : ℕ}

theorem enc_list (x : List ℝ) :
    encOp Spec.Y x (List.finRange N) = onEach (fun j : Fin N => rot Spec.Y (x.getD ((j : ℕ) % x.length) 0)) := by
  unfold encOp
  simp

/-- The circuits of the three demos. -/
inductive Family
  | qnn
  | qcnn
  | free

/-- The circuit. -/
noncomputable def Family.items (N : ℕ) (w : List ℝ) : Family → List (Item N)
  | .qnn => qnnItems N w
  | .qcnn => qcnnItems N w
  | .free => freeItems N w

/-- The number of weights per qubit. -/
def Family.perQubit : Family → ℕ
  | .qnn => 15
  | .qcnn => 18
  | .free => 18

/-- The demo as one of the three families. -/
def Demo.family : Demo → Family
  | .qnn => .qnn
  | .qcnn => .qcnn

theorem family_layered (f : Family) : ∃ (m : ℕ) (ds : List ℕ), f.perQubit * N = 3 * N * m ∧ (∀ d ∈ ds, d = 1 ∨ d = 2) ∧
    ∀ g, circuitOp (f.items N (weightsFor m N g)) = layered N g 0 (1 :: 1 :: ds) := by
  cases f
  · exact ⟨5, [2, 2], by simp [Family.perQubit]; ring, by simp, qnn_layered⟩
  · exact ⟨6, [2, 2, 1], by simp [Family.perQubit]; ring, by simp, qcnn_layered⟩
  · exact ⟨6, [2, 2, 1], by simp [Family.perQubit]; ring, by simp, free_layered⟩

/-- C99: on three or more qubits there are weights for which the first output is four times the cosine of the first entry
of the sample, shifted as one likes. -/
theorem C99_wave (f : Family) (h3 : 3 ≤ N) (φ : ℝ) : ∃ w : List ℝ, w.length = f.perQubit * N ∧
    ∀ x : List ℝ, qnnValue (f.items N w) x ⟨0, by omega⟩ = 4 * Real.cos (x.getD 0 0 + φ) := by
  obtain ⟨m, ds, hm, hd, hc⟩ := family_layered (N := N) f
  obtain ⟨g, hg⟩ := layered_wave h3 hd φ
  refine ⟨weightsFor m N g, by rw [weightsFor_length, hm], fun x => ?_⟩
  unfold qnnValue qnnState
  rw [hc, enc_list, hg fun j => x.getD (j % x.length) 0, Complex.ofReal_re, Nat.zero_mod, add_comm]

/-- C99: there are weights for which the first output is four times a product of cosines, one for every qubit; the
entries of the sample are dealt out in turn, and the shifts are arbitrary. -/
theorem C99_product (f : Family) (h3 : 3 ≤ N) (φ : ℕ → ℝ) : ∃ w : List ℝ, w.length = f.perQubit * N ∧
    ∀ x : List ℝ, qnnValue (f.items N w) x ⟨0, by omega⟩ =
      4 * ∏ j ∈ range N, Real.cos (x.getD (j % x.length) 0 + φ j) := by
  obtain ⟨m, ds, hm, hd, hc⟩ := family_layered (N := N) f
  obtain ⟨g, hg⟩ := layered_product h3 (ds := 1 :: ds) (by
    intro e he
    rcases List.mem_cons.1 he with rfl | he
    exacts [Or.inl rfl, hd e he]) φ
  refine ⟨weightsFor m N g, by rw [weightsFor_length, hm], fun x => ?_⟩
  unfold qnnValue qnnState
  rw [hc, enc_list, hg fun j => x.getD (j % x.length) 0, Complex.ofReal_re,
    Fin.prod_univ_eq_prod_range (fun j => Real.cos (φ j + x.getD (j % x.length) 0))]
  simp only [add_comm]

/-- C99: so the degree in C91 cannot be lowered: with one number per sample the first output can be no trigonometric
polynomial of a degree less than the number of qubits. -/
theorem C99_degree (f : Family) (h3 : 3 ≤ N) : ∃ w : List ℝ, w.length = f.perQubit * N ∧
    ∀ d < N, ¬ IsTrigPoly d (fun θ => qnnValue (f.items N w) [θ] ⟨0, by omega⟩) := by
  obtain ⟨w, hw, h⟩ := C99_product f h3 (fun _ => 0)
  refine ⟨w, hw, fun d hd hp => (C91_reached N).2.2 d hd ?_⟩
  obtain ⟨a, b, e⟩ := hp
  refine ⟨fun k => a k / 4, fun k => b k / 4, fun θ => ?_⟩
  have := e θ
  beta_reduce at this ⊢
  rw [h] at this
  simp only [List.length_singleton, Nat.mod_one, List.getD_cons_zero, add_zero, prod_const, card_range] at this
  have e4 : Real.cos θ ^ N = (∑ k ∈ range (d + 1), (a k * Real.cos (k * θ) + b k * Real.sin (k * θ))) / 4 := by
    rw [← this]; ring
  rw [e4, sum_div]
  exact sum_congr rfl fun k _ => by ring

/-! ## The whole network -/

/-- The positive part of a number from the leaky values of it and of its negative. -/
theorem leaky_pair (y : ℝ) : (max y (y / 100) + max (-y) (-y / 100) / 100) * (10000 / 9999) = max y 0 := by
  rcases le_total 0 y with h | h
  · rw [max_eq_left (by linarith), max_eq_right (by linarith : -y ≤ -y / 100), max_eq_left h]
    ring
  · rw [max_eq_right (by linarith : y ≤ y / 100), max_eq_left (by linarith : -y / 100 ≤ -y), max_eq_right h]
    ring

/-- A linear layer given by two functions. -/
noncomputable def linearOf (m n : ℕ) (W : ℕ → ℕ → ℝ) (b : ℕ → ℝ) : Linear :=
  ⟨Tensor.ofFn [m, n] (fun idx => W (idx.getD 0 0) (idx.getD 1 0)), Tensor.ofFn [m] (fun idx => b (idx.getD 0 0))⟩

theorem neurons_linearOf (m n : ℕ) (W : ℕ → ℕ → ℝ) (b : ℕ → ℝ) (z : ℕ → ℝ) {o : ℕ} (ho : o < m) :
    neurons n (linearOf m n W b) z o = max (b o + ∑ j ∈ range n, W o j * z j) ((b o + ∑ j ∈ range n, W o j * z j) / 100) := by
  unfold neurons linearOf
  have hb : (Tensor.ofFn [m] (fun idx => b (idx.getD 0 0)) : Tensor ℝ).get [o] = b o := by
    rw [Tensor.get_ofFn (by simpa using ho)]; simp
  have hW : ∀ j ∈ range n, (Tensor.ofFn [m, n] (fun idx => W (idx.getD 0 0) (idx.getD 1 0)) : Tensor ℝ).get [o, j] = W o j := by
    intro j hj
    rw [Tensor.get_ofFn (by simpa using ⟨ho, mem_range.1 hj⟩)]
    simp
  simp only [hb]
  rw [sum_congr rfl fun j hj => by rw [hW j hj]]

/-- The parameters: the first layer gives the positive and the negative of `a c + b` for the first output `c` of the circuit, the second one its positive and its negative part,
the third one puts them together. -/
noncomputable def affineNet (N : ℕ) (w : List ℝ) (a b : ℝ) : Net where
  weight := w
  FC1 := linearOf 8 N (fun o j => if j = 0 then (if o = 0 then a else if o = 1 then -a else 0) else 0)
    (fun o => if o = 0 then b else if o = 1 then -b else 0)
  FC2 := linearOf 8 8 (fun o j => if o < 2 ∧ j < 2 then (if o = j then 10000 / 9999 else 100 / 9999) else 0) (fun _ => 0)
  FC3 := linearOf 1 8 (fun _ j => if j = 0 then 1 else if j = 1 then -100 else 0) (fun _ => 0)

/-- The three layers undo each other's kinks. -/
theorem affineNet_value (d : Demo) (hN : 0 < N) (w : List ℝ) (a b : ℝ) (x : List ℝ) :
    netValue d N (affineNet N w a b) x = a * qnnValue (d.items N w) x ⟨0, hN⟩ + b := by
  unfold netValue
  set c : ℕ → ℝ := fun i => if h : i < N then qnnValue (d.items N (affineNet N w a b).weight) x ⟨i, h⟩ else 0 with hc
  have hc0 : c 0 = qnnValue (d.items N w) x ⟨0, hN⟩ := by
    rw [hc]; exact dif_pos hN
  set y : ℝ := a * qnnValue (d.items N w) x ⟨0, hN⟩ + b with hy
  have h1 : ∀ o < 8, neurons N (affineNet N w a b).FC1 c o =
      if o = 0 then max y (y / 100) else if o = 1 then max (-y) (-y / 100) else 0 := by
    intro o ho
    show neurons N (linearOf 8 N _ _) c o = _
    rw [neurons_linearOf _ _ _ _ _ ho]
    have e : ∑ j ∈ range N, (if j = 0 then (if o = 0 then a else if o = 1 then -a else 0) else 0) * c j =
        (if o = 0 then a else if o = 1 then -a else 0) * c 0 := by
      rw [sum_eq_single 0]
      · rw [if_pos rfl]
      · intro j _ hj; rw [if_neg hj, zero_mul]
      · intro h; exact absurd (mem_range.2 hN) h
    rw [e, hc0]
    by_cases ho0 : o = 0
    · simp only [ho0, if_true]
      rw [show b + a * qnnValue (d.items N w) x ⟨0, hN⟩ = y by rw [hy]; ring]
    · by_cases ho1 : o = 1
      · simp only [ho1, one_ne_zero, if_false, if_true]
        rw [show -b + -a * qnnValue (d.items N w) x ⟨0, hN⟩ = -y by rw [hy]; ring]
      · simp [ho0, ho1]
  have h2 : ∀ o < 8, neurons 8 (affineNet N w a b).FC2 (neurons N (affineNet N w a b).FC1 c) o =
      if o = 0 then max y 0 else if o = 1 then max (-y) 0 else 0 := by
    intro o ho
    show neurons 8 (linearOf 8 8 _ _) _ o = _
    rw [neurons_linearOf _ _ _ _ _ ho]
    have e : ∑ j ∈ range 8, (if o < 2 ∧ j < 2 then (if o = j then (10000 / 9999 : ℝ) else 100 / 9999) else 0) *
        neurons N (affineNet N w a b).FC1 c j = if o = 0 then max y 0 else if o = 1 then max (-y) 0 else 0 := by
      rw [sum_congr rfl fun j hj => by rw [h1 j (mem_range.1 hj)]]
      simp only [sum_range_succ, range_zero, sum_empty, zero_add]
      by_cases ho0 : o = 0
      · subst ho0
        rw [if_pos rfl, ← leaky_pair y]
        norm_num
        ring
      · by_cases ho1 : o = 1
        · subst ho1
          have := leaky_pair (-y)
          rw [neg_neg] at this
          norm_num
          rw [← this]
          ring
        · have : ¬ o < 2 := by omega
          simp [ho0, ho1, this]
    rw [e, zero_add]
    by_cases ho0 : o = 0
    · simp only [ho0, if_true]
      rw [max_eq_left]
      have := le_max_right y 0
      linarith
    · by_cases ho1 : o = 1
      · simp only [ho1, one_ne_zero, if_false, if_true]
        rw [max_eq_left]
        have := le_max_right (-y) 0
        linarith
      · simp [ho0, ho1]
  show neurons 8 (linearOf 1 8 _ _) _ 0 = _
  rw [neurons_linearOf _ _ _ _ _ (by omega)]
  rw [sum_congr rfl fun j hj => by rw [h2 j (mem_range.1 hj)]]
  simp only [sum_range_succ, range_zero, sum_empty, zero_add]
  norm_num
  rcases le_total 0 y with h | h
  · rw [max_eq_left h, max_eq_right (by linarith : -y ≤ 0)]
    norm_num
    linarith
  · rw [max_eq_right h, max_eq_left (by linarith : 0 ≤ -y)]
    norm_num
    linarith

theorem affineNet_shaped (d : Demo) {w : List ℝ} (hw : w.length = d.perQubit * N) (a b : ℝ) :
    Shaped d N (affineNet N w a b) := ⟨hw, rfl, rfl, rfl⟩

theorem demo_family (d : Demo) : d.family.perQubit = d.perQubit ∧ ∀ (N : ℕ) (w : List ℝ), d.family.items N w = d.items N w := by
  cases d <;> exact ⟨rfl, fun _ _ => rfl⟩

/-- C99: on three or more qubits the whole network of test_qnn_demo.py and that of test_qcnn_demo.py can represent every
wave of the first entry of the sample, with any amplitude, offset and phase. -/
theorem C99_represent (d : Demo) (h3 : 3 ≤ N) (α β φ : ℝ) : ∃ p : Net, Shaped d N p ∧
    ∀ x : List ℝ, netValue d N p x = α * Real.sin (x.getD 0 0 + φ) + β := by
  obtain ⟨w, hw, h⟩ := C99_wave d.family h3 (φ - Real.pi / 2)
  rw [(demo_family d).1] at hw
  refine ⟨affineNet N w (α / 4) β, affineNet_shaped d hw _ _, fun x => ?_⟩
  rw [affineNet_value d (by omega), ← (demo_family d).2, h, ← add_sub_assoc, Real.cos_sub_pi_div_two]
  ring

/-- C99: in particular the target: for some parameters `qnet.forward` returns exactly `foo` of the samples. -/
theorem C99_target (d : Demo) (h3 : 3 ≤ N) : ∃ p : Net, Shaped d N p ∧ ∀ batch : List (List ℝ), GoodSamples N batch →
    ∃ t, p.forward d.layers N batch = .ok t ∧ t.shape = [batch.length, 1] ∧
      ∀ k : Fin batch.length, t.get [(k : ℕ), 0] = foo (batch[k].getD 0 0) := by
  obtain ⟨p, hp, h⟩ := C99_represent (N := N) d h3 2 0 0
  refine ⟨p, hp, fun batch hb => ?_⟩
  obtain ⟨t, e, s, g⟩ := C92_net d (by omega) p hp batch hb
  refine ⟨t, e, s, fun k => ?_⟩
  rw [g k, h, add_zero, add_zero]
  rfl

theorem demo_labels {features : List (List ℝ)} {us : List ℝ} (hl : features.length = us.length) :
    (DemoNet.makeLabels features us).length = features.length ∧ OneNumber (DemoNet.makeLabels features us) ∧
      ∀ s ∈ features.zip (DemoNet.makeLabels features us), ∃ u ∈ us, s.2.getD 0 0 = 2 * Real.sin (s.1.getD 0 0) + u / 1000 := by
  unfold DemoNet.makeLabels
  refine ⟨by simp [hl], ?_, fun s hs => ?_⟩
  · intro y hy
    obtain ⟨i, hi, rfl⟩ := List.mem_iff_getElem.1 hy
    simp
  · obtain ⟨i, hi, rfl⟩ := List.mem_iff_getElem.1 hs
    simp at hi
    refine ⟨us[i]'(by omega), List.getElem_mem _, ?_⟩
    simp [foo]
    ring

/-- C99: for some parameters the loss of every batch of the data of the scripts is at most `2.5e-7`, the largest variance of
the noise in the labels. -/
theorem C99_loss (d : Demo) (h3 : 3 ≤ N) : ∃ p : Net, Shaped d N p ∧ ∀ (features : List (List ℝ)) (us : List ℝ),
    features ≠ [] → GoodSamples N features → features.length = us.length → Noise us →
    ∃ l, DemoNet.batchLoss d.layers N p features (DemoNet.makeLabels features us) = .ok l ∧ 0 ≤ l ∧ l ≤ 2.5e-7 := by
  obtain ⟨p, hp, h⟩ := C99_represent (N := N) d h3 2 5e-4 0
  refine ⟨p, hp, fun features us h0 hf hl hu => ?_⟩
  obtain ⟨l1, l2, l3⟩ := demo_labels hl
  refine ⟨_, C92_loss d (by omega) p hp features _ hf l2 l1.symm h0, ?_, ?_⟩
  · unfold mse
    refine div_nonneg (List.sum_nonneg ?_) (Nat.cast_nonneg _)
    intro r hr
    obtain ⟨s, -, rfl⟩ := List.mem_map.1 hr
    positivity
  · unfold mse
    have hz : 0 < (features.zip (DemoNet.makeLabels features us)).length := by
      rw [List.length_zip, l1, min_self]
      exact List.length_pos_iff.2 h0
    rw [div_le_iff₀ (by exact_mod_cast hz)]
    have := List.sum_le_card_nsmul ((features.zip (DemoNet.makeLabels features us)).map
      (fun s => (netValue d N p s.1 - s.2.getD 0 0) ^ 2)) (2.5e-7 : ℝ) (by
      intro r hr
      obtain ⟨s, hs, rfl⟩ := List.mem_map.1 hr
      obtain ⟨u, hu', e⟩ := l3 s hs
      obtain ⟨u0, u1⟩ := hu u hu'
      rw [h, e, add_zero]
      nlinarith)
    rw [List.length_map, nsmul_eq_mul] at this
    linarith

/-- The demos have three qubits and one number per sample. -/
example : (3 : ℕ) ≤ 3 ∧ GoodSamples 3 [[0.5], [1.5], [6]] ∧ Noise [0.25, 0, 1] ∧ ([[0.5], [1.5], [6]] : List (List ℝ)) ≠ [] := by
  refine ⟨le_rfl, by simp [GoodSamples], ?_, by simp⟩
  intro u hu
  simp at hu
  rcases hu with rfl | rfl | rfl <;> norm_num

end QTN.Props
