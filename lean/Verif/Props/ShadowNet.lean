import Verif.Model.ShadowNet
import Verif.Props.Shadow
import Verif.Props.QuanNet

/-! # Property C94: the image classifier of shadow_circuit_demo.py and its script -/

namespace QTN.Props

open QTN QTN.Spec QTN.ShadowNet QTN.QuanNet Finset Matrix

variable {N n : ℕ}

/-! ## The network -/

/-- The parameters have the shapes of shadow_circuit_demo.py:229-239. -/
def ShadowShaped (N n : ℕ) (p : ShadowNet.Net) : Prop :=
  p.weight.length = 15 * n ∧ p.FC1.W.shape = [10, N - n + 1]

/-- The amplitudes of an image of `M` pixels: divided by their norm (by `1e-12` if it is smaller), then zeros. -/
noncomputable def imageState (N M : ℕ) (v : ℕ → ℝ) : QState N := fun a =>
  ((if enc a < M then v (enc a) / max (Real.sqrt (∑ j ∈ range M, v j ^ 2)) 1e-12 else 0 : ℝ) : ℂ)

/-- The score of digit `o` for an image: a linear function of the expectation values of the windows. -/
noncomputable def shadowScore (N n : ℕ) (p : ShadowNet.Net) (M : ℕ) (v : ℕ → ℝ) (o : ℕ) : ℝ :=
  p.FC1.b.get [o] + ∑ s ∈ range (N - n + 1), p.FC1.W.get [o, s] *
    (if h : s + n ≤ N then shadowValue (windowList s h) 4 p.weight (imageState N M v) else 0)

/-- C94: `qnet.forward` gives ten scores per row. -/
theorem C94_net (h2 : 2 ≤ n) (hn : n ≤ N) (p : ShadowNet.Net) (hp : ShadowShaped N n p) (x : Tensor ℝ) (B M : ℕ)
    (hx : x.shape = [B, M]) (hM : M ≤ 2 ^ N) :
    ∃ t, p.forward N n x = .ok t ∧ t.shape = [B, 10] ∧
      ∀ k < B, ∀ o < 10, t.get [k, o] = shadowScore N n p M (fun j => x.get [k, j]) o := by
  obtain ⟨t0, e0, -, s0, g0⟩ := C77_shadow h2 hn (repeats := 4) (by norm_num) p.weight
    (by rw [hp.1]; ring) x hx hM
  obtain ⟨t, e, s, g⟩ := DemoNet.Linear.apply_ok s0 hp.2
  refine ⟨t, ?_, s, fun k hk o ho => ?_⟩
  · unfold ShadowNet.Net.forward
    rw [e0, Py.ok_bind, e]
  · rw [g k o hk ho]
    unfold shadowScore
    congr 1
    refine sum_congr rfl fun s hs => ?_
    have hs := mem_range.1 hs
    rw [dif_pos (by omega), g0 k s hk (by omega)]
    rfl

/-- C94: samples with more than `2^N` entries raise ValueError. -/
theorem C94_too_long (p : ShadowNet.Net) (x : Tensor ℝ) (B M : ℕ) (hx : x.shape = [B, M]) (hM : 2 ^ N < M) :
    p.forward N n x = .error .valueError := by
  unfold ShadowNet.Net.forward
  rw [(C77_too_long n 4 p.weight x hx hM).1]
  rfl

/-- C94: the scores do not change if the image is scaled by a positive or negative factor, as long as its norm stays
above `1e-12`. -/
theorem C94_scale (p : ShadowNet.Net) (M : ℕ) (v : ℕ → ℝ) (c : ℝ) (h1 : 1e-12 ≤ Real.sqrt (∑ j ∈ range M, v j ^ 2))
    (h2 : 1e-12 ≤ |c| * Real.sqrt (∑ j ∈ range M, v j ^ 2)) (o : ℕ) :
    shadowScore N n p M (fun j => c * v j) o = shadowScore N n p M v o := by
  have hr : Real.sqrt (∑ j ∈ range M, (c * v j) ^ 2) = |c| * Real.sqrt (∑ j ∈ range M, v j ^ 2) := by
    rw [← Real.sqrt_sq_eq_abs, ← Real.sqrt_mul (sq_nonneg c), mul_sum]
    congr 1
    exact sum_congr rfl fun j _ => by ring
  have hc : |c| ≠ 0 := by
    intro h
    rw [h] at h2
    norm_num at h2
  have hs : imageState N M (fun j => c * v j) = (((c / |c| : ℝ)) : ℂ) • imageState N M v := by
    funext a
    simp only [imageState, Pi.smul_apply, smul_eq_mul]
    rw [hr, max_eq_left h2, max_eq_left h1, ← Complex.ofReal_mul]
    congr 1
    split_ifs
    · field_simp
    · simp
  have hq : (c / |c|) * (c / |c|) = 1 := by
    rw [div_mul_div_comm, ← abs_mul_abs_self c, div_self (mul_ne_zero hc hc)]
  have hv : ∀ (ws : List (Fin N)), shadowValue ws 4 p.weight (imageState N M (fun j => c * v j)) =
      shadowValue ws 4 p.weight (imageState N M v) := by
    intro ws
    unfold shadowValue
    rw [hs, mulVec_smul]
    congr 1
    have hq' : (((c / |c| : ℝ)) : ℂ) * (((c / |c| : ℝ)) : ℂ) = 1 := by
      rw [← Complex.ofReal_mul, hq, Complex.ofReal_one]
    generalize circuitOp (shadowItems ws 4 p.weight) *ᵥ imageState N M v = u
    unfold braket
    refine sum_congr rfl fun a _ => sum_congr rfl fun b _ => ?_
    simp only [Pi.smul_apply, smul_eq_mul, star_mul', Complex.star_def, Complex.conj_ofReal]
    linear_combination ((starRingEnd ℂ) (u a) * onEach (fun j => if j ∈ ws then Spec.X else 1) a b * u b) * hq'
  unfold shadowScore
  simp only [hv]

/-! ## Batches of images -/

/-- The 784 pixels of an image, row by row. -/
def flatImage (s : Sample) (j : ℕ) : ℝ := s.1.get [0, j / 28, j % 28]

theorem squeeze_view {T : Tensor ℝ} {B : ℕ} (hB : 0 < B) (hT : T.shape = [B, 1, 28, 28]) :
    ∃ x, T.squeeze.view [-1, 784] = .ok x ∧ x.shape = [B, 784] ∧
      ∀ k < B, ∀ j < 784, x.get [k, j] = T.get [k, 0, j / 28, j % 28] := by
  have hnum : B * [784].prod = T.squeeze.numel := by
    unfold Tensor.squeeze Tensor.numel Tensor.ofFn
    rw [hT]
    by_cases h : B = 1
    · subst h; simp
    · simp [h]
  refine ⟨_, T.squeeze.view_neg_first B [784] hnum (by norm_num), rfl, fun k hk j hj => ?_⟩
  by_cases h : B = 1
  · subst h
    obtain rfl : k = 0 := by omega
    have hs : T.squeeze.shape = [28, 28] := by simp [Tensor.squeeze, Tensor.ofFn, hT]
    have hin : inB [28, 28] [j / 28, j % 28] = true := by simp; omega
    rw [Tensor.reshapeN_get_eq (idx' := [j / 28, j % 28]) (by simp [hj]) (by rw [hs]; exact hin)
      (by rw [hs]; simp [ravel]; omega)]
    unfold Tensor.squeeze
    rw [Tensor.get_ofFn (by rw [hT]; simpa using hin), hT]
    simp [Tensor.unsqIdx]
  · have hs : T.squeeze.shape = [B, 28, 28] := by simp [Tensor.squeeze, Tensor.ofFn, hT, h]
    have hin : inB [B, 28, 28] [k, j / 28, j % 28] = true := by simp [hk]; omega
    rw [Tensor.reshapeN_get_eq (idx' := [k, j / 28, j % 28]) (by simp [hj, hk]) (by rw [hs]; exact hin)
      (by rw [hs]; simp [ravel]; omega)]
    unfold Tensor.squeeze
    rw [Tensor.get_ofFn (by rw [hT]; simpa [h] using hin), hT]
    simp [Tensor.unsqIdx, h]

/-- C94: the output for a batch are the scores of its images. -/
theorem C94_output (h2 : 2 ≤ n) (hn : n ≤ N) (hN : 784 ≤ 2 ^ N) (p : ShadowNet.Net) (hp : ShadowShaped N n p)
    (b : List Sample) (h0 : b ≠ []) (hb : GoodDigits b) :
    ∃ t, output p N n b = .ok t ∧ t.shape = [b.length, 10] ∧
      ∀ k (hk : k < b.length), ∀ o < 10, t.get [k, o] = shadowScore N n p 784 (flatImage b[k]) o := by
  obtain ⟨T, eT, sT, gT⟩ := stack_ok (l := b.map Prod.fst) (s := [1, 28, 28]) (by simpa using h0)
    (by intro t ht; obtain ⟨s, hs, rfl⟩ := List.mem_map.1 ht; exact (hb s hs).1)
  rw [List.length_map] at sT
  obtain ⟨x, ex, sx, gx⟩ := squeeze_view (List.length_pos_iff.2 h0) sT
  obtain ⟨t, et, st, gt⟩ := C94_net h2 hn p hp x _ _ sx hN
  refine ⟨t, ?_, st, fun k hk o ho => ?_⟩
  · unfold output
    rw [eT, Py.ok_bind, ex, Py.ok_bind, et]
  · rw [gt k hk o ho]
    have hv : ∀ j < 784, x.get [k, j] = flatImage b[k] j := by
      intro j hj
      rw [gx k hk j hj, gT k (by simpa using hk) [0, j / 28, j % 28] (by simp; omega)]
      simp [flatImage]
    have hi : imageState N 784 (fun j => x.get [k, j]) = imageState N 784 (flatImage b[k]) := by
      have hn : ∑ j ∈ range 784, x.get [k, j] ^ 2 = ∑ j ∈ range 784, flatImage b[k] j ^ 2 :=
        sum_congr rfl fun j hj => by rw [hv j (mem_range.1 hj)]
      funext a
      unfold imageState
      rw [hn]
      split_ifs with h
      · beta_reduce
        rw [hv _ h]
      · rfl
    unfold shadowScore
    rw [hi]

/-- The cross entropy of one sample. -/
noncomputable def shadowLoss (N n : ℕ) (p : ShadowNet.Net) (s : Sample) : ℝ :=
  - Real.log (Real.exp (shadowScore N n p 784 (flatImage s) s.2) /
    ∑ c ∈ range 10, Real.exp (shadowScore N n p 784 (flatImage s) c))

/-- C94: the loss of a batch is the mean cross entropy of its samples. -/
theorem C94_loss (h2 : 2 ≤ n) (hn : n ≤ N) (hN : 784 ≤ 2 ^ N) (p : ShadowNet.Net) (hp : ShadowShaped N n p)
    (b : List Sample) (h0 : b ≠ []) (hb : GoodDigits b) :
    ∃ t, output p N n b = .ok t ∧ CrossEntropyLoss t (b.map Prod.snd) = .ok (meanOf (shadowLoss N n p) b) := by
  obtain ⟨t, e, st, g⟩ := C94_output h2 hn hN p hp b h0 hb
  refine ⟨t, e, ?_⟩
  rw [crossEntropy_ok st (by simp) (by intro a ha; obtain ⟨s, hs, rfl⟩ := List.mem_map.1 ha; exact (hb s hs).2)]
  congr 1
  unfold meanOf
  congr 1
  rw [← Fin.sum_univ_eq_sum_range (fun k => Real.log (∑ c ∈ range 10, Real.exp (t.get [k, c])) -
    t.get [k, (b.map Prod.snd).getD k 0]), ← Fin.sum_univ_getElem,
    ← Fin.sum_congr' _ (show b.length = (b.map _).length by simp)]
  refine sum_congr rfl fun k _ => ?_
  have hk := k.2
  simp only [Fin.val_cast, List.getElem_map]
  unfold shadowLoss
  rw [List.getD_eq_getElem _ _ (by simp), List.getElem_map, g k hk _ (hb _ (List.getElem_mem hk)).2,
    Real.log_div (Real.exp_pos _).ne' (sum_pos (fun _ _ => Real.exp_pos _) ⟨0, by simp⟩).ne', Real.log_exp]
  have : ∑ c ∈ range 10, Real.exp (t.get [(k : ℕ), c]) =
      ∑ c ∈ range 10, Real.exp (shadowScore N n p 784 (flatImage b[(k : ℕ)]) c) :=
    sum_congr rfl fun c hc => by rw [g k hk c (mem_range.1 hc)]
  rw [this]
  ring

/-! ## Training -/

variable {σ : Type}

/-- The optimiser keeps the shapes of the parameters. -/
def KeepsShadow (N n : ℕ) (upd : σ → ShadowNet.Net → List Sample → σ × ShadowNet.Net) : Prop :=
  ∀ st p b, ShadowShaped N n p → ShadowShaped N n (upd st p b).2

/-- Optimiser and parameters after the batches. -/
def afterShadow (upd : σ → ShadowNet.Net → List Sample → σ × ShadowNet.Net) (bs : List (List Sample)) (st : σ)
    (p : ShadowNet.Net) : σ × ShadowNet.Net := bs.foldl (fun s b => upd s.1 s.2 b) (st, p)

theorem afterShadow_shaped {upd : σ → ShadowNet.Net → List Sample → σ × ShadowNet.Net} (hu : KeepsShadow N n upd)
    (bs : List (List Sample)) (st : σ) (p : ShadowNet.Net) (hp : ShadowShaped N n p) :
    ShadowShaped N n (afterShadow upd bs st p).2 := by
  induction bs generalizing st p with
  | nil => exact hp
  | cons b bs ih => exact ih _ _ (hu _ _ _ hp)

/-- C94: one epoch: every batch makes one step, and the number reported is the loss of the last batch only, with the
parameters before the step of this batch. -/
theorem C94_epoch (h2 : 2 ≤ n) (hn : n ≤ N) (hN : 784 ≤ 2 ^ N)
    (upd : σ → ShadowNet.Net → List Sample → σ × ShadowNet.Net) (hu : KeepsShadow N n upd) (bs : List (List Sample))
    (b : List Sample) (hb : GoodDigitBatches (bs ++ [b])) (st : σ) (p : ShadowNet.Net) (hp : ShadowShaped N n p)
    (l : Option ℝ) :
    ShadowNet.epoch upd N n (bs ++ [b]) st p l = .ok ((afterShadow upd (bs ++ [b]) st p).1,
      (afterShadow upd (bs ++ [b]) st p).2, some (meanOf (shadowLoss N n (afterShadow upd bs st p).2) b)) := by
  induction bs generalizing st p l with
  | nil =>
    obtain ⟨t, e, el⟩ := C94_loss h2 hn hN p hp b (hb b (by simp)).1 (hb b (by simp)).2
    simp only [List.nil_append, ShadowNet.epoch]
    rw [e, Py.ok_bind, el, Py.ok_bind]
    rfl
  | cons c bs ih =>
    obtain ⟨t, e, el⟩ := C94_loss h2 hn hN p hp c (hb c (by simp)).1 (hb c (by simp)).2
    simp only [List.cons_append, ShadowNet.epoch]
    rw [e, Py.ok_bind, el, Py.ok_bind, ih (fun x hx => hb x (by simp at hx ⊢; tauto)) _ _ (hu _ _ _ hp)]
    rfl

/-- C94: training ends without an error for all orders in which the samples are visited. -/
theorem C94_train (h2 : 2 ≤ n) (hn : n ≤ N) (hN : 784 ≤ 2 ^ N)
    (upd : σ → ShadowNet.Net → List Sample → σ × ShadowNet.Net) (hu : KeepsShadow N n upd) (B : ℕ) (hB : 0 < B)
    (data : List Sample) (h0 : data ≠ []) (hd : GoodDigits data) (orders : List (List Sample))
    (ho : ∀ o ∈ orders, o.Perm data) (st : σ) (p : ShadowNet.Net) (hp : ShadowShaped N n p) (l : Option ℝ) :
    ∃ losses q, ShadowNet.train upd N n B orders st p l = .ok (losses, q) ∧ losses.length = orders.length ∧
      ShadowShaped N n q := by
  induction orders generalizing st p l with
  | nil => exact ⟨[], p, rfl, rfl, hp⟩
  | cons o rest ih =>
    obtain ⟨cs, e, hcs⟩ := (C93_batches B o).1 hB
    have hperm := ho o (by simp)
    have hne : cs ≠ [] := hcs.ne_nil fun h => h0 (by rw [h] at hperm; exact List.nil_perm.1 hperm)
    have hg := hcs.good fun s hs => hd s (hperm.subset hs)
    have hlast := List.dropLast_append_getLast hne
    rw [← hlast] at e hg
    have e2 := C94_epoch h2 hn hN upd hu _ _ hg st p hp l
    obtain ⟨losses, q, e3, h3, h4⟩ := ih (fun a ha => ho a (by simp [ha])) _ _
      (afterShadow_shaped hu (cs.dropLast ++ [cs.getLast hne]) st p hp)
      (some (meanOf (shadowLoss N n (afterShadow upd cs.dropLast st p).2) (cs.getLast hne)))
    refine ⟨meanOf (shadowLoss N n (afterShadow upd cs.dropLast st p).2) (cs.getLast hne) :: losses, q, ?_,
      by simp [h3], h4⟩
    unfold ShadowNet.train
    rw [e, Py.ok_bind, e2, Py.ok_bind]
    dsimp only
    rw [e3, Py.ok_bind]

/-! ## The test -/

/-- The network classifies the sample correctly: its label has the greatest score, and is the first one with it. -/
def ShadowRecognised (N n : ℕ) (p : ShadowNet.Net) (s : Sample) : Prop :=
  ∀ o < 10, shadowScore N n p 784 (flatImage s) o ≤ shadowScore N n p 784 (flatImage s) s.2 ∧
    (o < s.2 → shadowScore N n p 784 (flatImage s) o < shadowScore N n p 784 (flatImage s) s.2)

open Classical in
/-- How many samples are classified correctly. -/
noncomputable def shadowHits (N n : ℕ) (p : ShadowNet.Net) (data : List Sample) : ℕ :=
  data.countP (fun s => decide (ShadowRecognised N n p s))

open Classical in
theorem testStep_ok (h2 : 2 ≤ n) (hn : n ≤ N) (hN : 784 ≤ 2 ^ N) {p : ShadowNet.Net} (hp : ShadowShaped N n p)
    {s : Sample} (hs : GoodDigits [s]) (m : ℕ) :
    testStep p N n m [s] = .ok (if ShadowRecognised N n p s then m + 1 else m) := by
  obtain ⟨t, e, st, g⟩ := C94_output h2 hn hN p hp [s] (by simp) hs
  have st : t.shape = [1, 10] := st
  have hl := (hs s (by simp)).2
  have g : ∀ o < 10, t.get [0, o] = shadowScore N n p 784 (flatImage s) o := fun o ho => g 0 (by simp) o ho
  set S := ∑ c ∈ range 10, Real.exp (t.get [0, c]) with hS
  have hpos : 0 < S := sum_pos (fun _ _ => Real.exp_pos _) ⟨0, by simp⟩
  have gs : ∀ o < 10, (softmax t).get [0, o] = Real.exp (t.get [0, o]) / S := by
    intro o ho
    unfold softmax
    rw [Tensor.get_ofFn (by rw [st]; simp [ho]), st]
    simp [hS]
  have hsm : (softmax t).shape = [1, 10] := st
  have ea : argmax (softmax t) 0 = (List.range 10).foldl
      (fun m c => if (softmax t).get [0, c] > (softmax t).get [0, m] then c else m) 0 := by
    unfold argmax
    rw [hsm]
    rfl
  obtain ⟨a1, a2, a3⟩ := argmax_fold (fun c => (softmax t).get [0, c]) 10
  rw [← ea] at a1 a2 a3
  have a3 := a3 (by norm_num)
  have hle : ∀ a < 10, ∀ b < 10, ((softmax t).get [0, a] ≤ (softmax t).get [0, b] ↔
      shadowScore N n p 784 (flatImage s) a ≤ shadowScore N n p 784 (flatImage s) b) := by
    intro a ha b hb
    rw [gs a ha, gs b hb, div_le_div_iff_of_pos_right hpos, Real.exp_le_exp, g a ha, g b hb]
  have key : argmax (softmax t) 0 = s.2 ↔ ShadowRecognised N n p s := by
    constructor
    · intro hm o ho
      rw [hm] at a1 a2
      refine ⟨(hle o ho _ hl).1 (a1 o ho), fun hlt => ?_⟩
      exact lt_of_not_ge fun h => absurd (a2 o hlt) (not_lt.2 ((hle _ hl o ho).2 h))
    · intro hr
      rcases lt_trichotomy (argmax (softmax t) 0) s.2 with h | h | h
      · exact absurd ((hle _ hl _ a3).1 (a1 _ hl)) (not_le.2 ((hr _ a3).2 h))
      · exact h
      · exact absurd ((hle _ a3 _ hl).2 (hr _ a3).1) (not_le.2 (a2 _ h))
  unfold testStep
  rw [e, Py.ok_bind]
  dsimp only
  rw [raiseIf_false (by rw [hsm]; simp), Py.ok_bind]
  simp [key]

theorem singles {α : Type} {data : List α} {bs : List (List α)} (h : BatchesOf 1 data bs) : bs = data.map (fun s => [s]) := by
  obtain ⟨rfl, -, h2, -, -⟩ := h
  induction bs with
  | nil => rfl
  | cons b bs ih =>
    have hb := h2 b (by simp)
    obtain ⟨s, rfl⟩ := List.length_eq_one_iff.1 (le_antisymm hb.2 hb.1)
    rw [List.flatten_cons, List.map_append, ← ih (fun c hc => h2 c (by simp [hc]))]
    rfl

theorem testFold (h2 : 2 ≤ n) (hn : n ≤ N) (hN : 784 ≤ 2 ^ N) {p : ShadowNet.Net} (hp : ShadowShaped N n p)
    {data : List Sample} (hd : GoodDigits data) (m : ℕ) :
    (data.map (fun s => [s])).foldlM (testStep p N n) m = .ok (m + shadowHits N n p data) := by
  classical
  induction data generalizing m with
  | nil => rfl
  | cons s data ih =>
    rw [List.map_cons, List.foldlM_cons, testStep_ok h2 hn hN hp (fun a ha => hd a (by simp at ha; simp [ha])), Py.ok_bind,
      ih (fun a ha => hd a (by simp [ha]))]
    unfold shadowHits
    rw [List.countP_cons]
    congr 1
    by_cases h : ShadowRecognised N n p s
    · simp [h]; omega
    · simp [h]

/-- C94: the printed accuracy is the percentage of the test images that are classified correctly, if the data set has
enough images. -/
theorem C94_accuracy (h2 : 2 ≤ n) (hn : n ≤ N) (hN : 784 ≤ 2 ^ N) (p : ShadowNet.Net) (hp : ShadowShaped N n p)
    (n_bias n_test : ℕ) (h0 : 0 < n_test) (full : List Sample) (hlen : n_bias + n_test ≤ full.length) (hd : GoodDigits full) :
    (testData n_bias n_test full).length = n_test ∧
    ShadowNet.test p N n n_test (testData n_bias n_test full) =
      .ok (100 * shadowHits N n p (testData n_bias n_test full) / (testData n_bias n_test full).length) := by
  have hl : (testData n_bias n_test full).length = n_test := by
    unfold testData
    rw [List.length_drop, List.length_take]
    omega
  refine ⟨hl, ?_⟩
  have hg : GoodDigits (testData n_bias n_test full) := fun s hs =>
    hd s (List.mem_of_mem_take (List.mem_of_mem_drop hs))
  rw [hl]
  generalize testData n_bias n_test full = data at *
  obtain ⟨bs, e, hbs⟩ := (C93_batches 1 data).1 (by norm_num)
  unfold ShadowNet.test
  rw [e, Py.ok_bind, singles hbs, testFold h2 hn hN hp hg, Py.ok_bind, raiseIf_false (by omega), Py.ok_bind, zero_add]

/-- C94: the number reported for an epoch is not the mean loss of the samples, not even for an optimiser that leaves the
parameters alone: two samples in two batches. -/
theorem C94_reported_false : ∃ (data : List Sample) (p : ShadowNet.Net) (l : ℝ), GoodDigits data ∧ ShadowShaped 10 4 p ∧
    ShadowNet.train (fun (s : Unit) p _ => (s, p)) 10 4 1 [data] () p none = .ok ([l], p) ∧
    l ≠ meanOf (shadowLoss 10 4 p) data := by
  let im : Tensor ℝ := .zeros [1, 28, 28]
  let p : ShadowNet.Net := ⟨List.replicate 60 0, ⟨.zeros [10, 7], Tensor.ofFn [10] (fun idx => if idx = [0] then 1 else 0)⟩⟩
  have hp : ShadowShaped 10 4 p := ⟨by simp [p], rfl⟩
  have hd : GoodDigits [(im, 0), (im, 1)] := by
    intro s hs
    simp at hs
    rcases hs with rfl | rfl <;> exact ⟨rfl, by norm_num⟩
  have hg : GoodDigitBatches ([[(im, 0)]] ++ [[(im, 1)]]) := by
    intro b hb
    simp at hb
    rcases hb with rfl | rfl <;> exact ⟨by simp, fun s hs => hd s (by simp at hs ⊢; tauto)⟩
  have e : DataLoader 1 [(im, 0), (im, 1)] = .ok ([[(im, 0)]] ++ [[(im, 1)]]) := by
    unfold DataLoader
    rw [raiseIf_false (by norm_num), Py.ok_bind]
    simp [List.range_succ]
  have e2 := C94_epoch (N := 10) (n := 4) (by norm_num) (by norm_num) (by norm_num) (fun (s : Unit) p _ => (s, p))
    (fun _ _ _ h => h) _ _ hg () p hp none
  have hz : ∀ s idx : List ℕ, (Tensor.zeros s : Tensor ℝ).get idx = 0 := by
    intro s idx
    unfold Tensor.zeros Tensor.ofFn
    simp
  have hsc : ∀ v, ∀ o < 10, shadowScore 10 4 p 784 v o = if o = 0 then 1 else 0 := by
    intro v o ho
    unfold shadowScore
    simp only [p, hz, zero_mul, sum_const_zero, add_zero]
    rw [Tensor.get_ofFn (by simp [ho])]
    simp
  have hl : shadowLoss 10 4 p (im, 0) = shadowLoss 10 4 p (im, 1) - 1 := by
    have hS : ∀ s : Sample, ∑ c ∈ range 10, Real.exp (shadowScore 10 4 p 784 (flatImage s) c) =
        ∑ c ∈ range 10, Real.exp (if c = 0 then 1 else 0) :=
      fun s => sum_congr rfl fun c hc => by rw [hsc _ _ (mem_range.1 hc)]
    have hpos : (0 : ℝ) < ∑ c ∈ range 10, Real.exp (if c = 0 then 1 else 0) :=
      sum_pos (fun _ _ => Real.exp_pos _) ⟨0, by simp⟩
    unfold shadowLoss
    rw [hS, hS, hsc _ _ (by norm_num), hsc _ _ (by norm_num), Real.log_div (Real.exp_pos _).ne' hpos.ne',
      Real.log_div (Real.exp_pos _).ne' hpos.ne', Real.log_exp, Real.log_exp]
    norm_num
  refine ⟨_, p, meanOf (shadowLoss 10 4 p) [(im, 1)], hd, hp, ?_, ?_⟩
  · unfold ShadowNet.train
    rw [e, Py.ok_bind, e2, Py.ok_bind]
    dsimp only
    rw [ShadowNet.train, Py.ok_bind]
    rfl
  · simp only [meanOf, List.map_cons, List.map_nil, List.sum_cons, List.sum_nil, List.length_cons, List.length_nil, hl]
    intro h
    norm_num at h
    linarith

/-- C94: if one batch holds all samples, then the number reported in an epoch is the mean loss of the samples.  In general
it is not, see `C94_reported_false`. -/
theorem C94_reported_partial (h2 : 2 ≤ n) (hn : n ≤ N) (hN : 784 ≤ 2 ^ N)
    (upd : σ → ShadowNet.Net → List Sample → σ × ShadowNet.Net) (hu : KeepsShadow N n upd) (B : ℕ)
    (data : List Sample) (h0 : data ≠ []) (hd : GoodDigits data) (hB : data.length ≤ B) (order : List Sample)
    (ho : order.Perm data) (st : σ) (p : ShadowNet.Net) (hp : ShadowShaped N n p) (l : Option ℝ) :
    ∃ q, ShadowNet.train upd N n B [order] st p l = .ok ([meanOf (shadowLoss N n p) data], q) := by
  have hpos := List.length_pos_iff.2 h0
  obtain ⟨bs, e, hbs⟩ := (C93_batches B order).1 (by omega)
  have h1 : (order.length + B - 1) / B = 1 := by
    rw [ho.length_eq]
    exact Nat.div_eq_of_lt_le (by omega) (by omega)
  have h3 := hbs.2.1
  rw [h1] at h3
  obtain ⟨b, rfl⟩ := List.length_eq_one_iff.1 h3
  have hb : b = order := by simpa using hbs.1
  subst hb
  have e2 := C94_epoch h2 hn hN upd hu [] b (hbs.good fun s hs => hd s (ho.subset hs)) st p hp l
  refine ⟨(afterShadow upd [b] st p).2, ?_⟩
  unfold ShadowNet.train
  rw [e, Py.ok_bind]
  rw [List.nil_append] at e2
  rw [e2, Py.ok_bind]
  dsimp only
  rw [ShadowNet.train, Py.ok_bind]
  have : meanOf (shadowLoss N n (afterShadow upd [] st p).2) b = meanOf (shadowLoss N n p) data := by
    show meanOf (shadowLoss N n p) b = _
    unfold meanOf
    rw [(ho.map _).sum_eq, ho.length_eq]
  rw [this]

/-- The setting of the demo: ten qubits, windows of four, 784 pixels, and parameters of the right shapes. -/
example : 2 ≤ 4 ∧ 4 ≤ 10 ∧ 784 ≤ 2 ^ 10 ∧
    ShadowShaped 10 4 ⟨List.replicate 60 0.3, ⟨Tensor.ofFn [10, 7] (fun _ => 0.1), Tensor.zeros [10]⟩⟩ :=
  ⟨by norm_num, by norm_num, by norm_num, by simp, rfl⟩

/-- An image for `C94_scale`, which may be made twice as bright. -/
example : 1e-12 ≤ Real.sqrt (∑ j ∈ range 784, (if j = 400 then (1 : ℝ) else 0) ^ 2) ∧
    1e-12 ≤ |(2 : ℝ)| * Real.sqrt (∑ j ∈ range 784, (if j = 400 then (1 : ℝ) else 0) ^ 2) := by
  have : ∑ j ∈ range 784, (if j = 400 then (1 : ℝ) else 0) ^ 2 = 1 := by
    rw [sum_eq_single 400] <;> simp +contextual
  rw [this]
  norm_num

end QTN.Props
