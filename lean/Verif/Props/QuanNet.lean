import Verif.Lemmas.QuanNet
import Verif.Props.Quanv

/-! # Property C93: the image classifier of quanv.py and the script test_quan_demo.py -/

namespace QTN.Props

open QTN QTN.Spec QTN.QuanNet Finset

/-! ## The network -/

/-- The parameters have the shapes of test_quan_demo.py:53-57. -/
def NetShaped (p : QuanNet.Net) : Prop :=
  p.quan1.n_qubits = 4 ∧ p.quan1.stride = 2 ∧ p.quan1.kernel_size = 2 ∧ p.quan1.weight.length = 12 ∧
    p.fc1.W.shape = [64, 784] ∧ p.fc2.W.shape = [10, 64]

/-- The value of channel `c` for the 2 × 2 pixels with upper left corner `(2x, 2y)` of the image `pix`. -/
noncomputable def patchValue (m : QuanConv) (pix : ℕ → ℕ → ℝ) (c x y : ℕ) : ℝ :=
  if h : c < m.n_qubits then convValue (fun q r => m.weight.getD (3 * q + r) 0 * m.w_mul)
    (fun q => pix (x * 2 + q / 2) (y * 2 + q % 2)) ⟨c, h⟩ else 0

/-- The score of digit `o` for an image that is `2w` pixels wide: the 4 · 196 values of the patches, channel by channel
and row by row, 64 neurons, and a linear layer. -/
noncomputable def score (p : QuanNet.Net) (w : ℕ) (pix : ℕ → ℕ → ℝ) (o : ℕ) : ℝ :=
  p.fc2.b.get [o] + ∑ j ∈ range 64, p.fc2.W.get [o, j] *
    max (p.fc1.b.get [j] + ∑ i ∈ range 784, p.fc1.W.get [j, i] * patchValue p.quan1 pix (i / 196) (i % 196 / w) (i % w)) 0

theorem fit_two {n : ℕ} (h : 2 ∣ n) : WindowsFit n 2 2 := fun a ha => by omega

theorem fit_two_iff {n : ℕ} : WindowsFit n 2 2 ↔ 2 ∣ n := by
  refine ⟨fun h => ?_, fit_two⟩
  by_contra hn
  have := h (n / 2) (by omega)
  omega

theorem quan_ok {p : QuanNet.Net} (hp : NetShaped p) {T : Tensor ℝ} {B ch lx ly : ℕ} (hT : T.shape = [B, ch, lx, ly])
    (hc : 0 < ch) (hx : 2 ≤ lx) (hy : 2 ≤ ly) (ex : 2 ∣ lx) (ey : 2 ∣ ly) :
    ∃ t, p.quan1.forward T = .ok t ∧ t.shape = [B, 4, lx / 2, ly / 2] ∧
      ∀ b < B, ∀ c < 4, ∀ x < lx / 2, ∀ y < ly / 2,
        t.get [b, c, x, y] = patchValue p.quan1 (fun x y => T.get [b, 0, x, y]) c x y := by
  obtain ⟨hn, hs, hk, hw, -, -⟩ := hp
  obtain ⟨o, -, e, so, -, -, g⟩ := C50_forward_partial p.quan1 (by rw [hn, hk]; rfl) (by rw [hw, hn]) (by rw [hk])
    (by rw [hs]; norm_num) T B ch lx ly hT hc (by rw [hk]; exact hx) (by rw [hk]; exact hy)
    (by rw [hs, hk]; exact fit_two ex) (by rw [hs, hk]; exact fit_two ey)
  have hx' : (lx - 2) / 2 + 1 = lx / 2 := by omega
  have hy' : (ly - 2) / 2 + 1 = ly / 2 := by omega
  rw [hs, hk, hx', hy'] at so
  refine ⟨o.t, e, so, fun b hb c hc x hx y hy => ?_⟩
  have := g b hb x (by rw [hs, hk, hx']; exact hx) y (by rw [hs, hk, hy']; exact hy) ⟨c, by rw [hn]; exact hc⟩
  unfold patchValue
  rw [dif_pos (by rw [hn]; exact hc)]
  simp only at this
  rw [this, hs, hk]

/-- C93: `Net.forward` gives ten scores per image, which depend on this image only. -/
theorem C93_net (p : QuanNet.Net) (hp : NetShaped p) (T : Tensor ℝ) (B ch lx ly : ℕ) (hT : T.shape = [B, ch, lx, ly])
    (hc : 0 < ch) (ex : 2 ∣ lx) (ey : 2 ∣ ly) (h196 : lx / 2 * (ly / 2) = 196) :
    ∃ t, p.forward T = .ok t ∧ t.shape = [B, 10] ∧
      ∀ b < B, ∀ o < 10, t.get [b, o] = score p (ly / 2) (fun x y => T.get [b, 0, x, y]) o := by
  have hx : 2 ≤ lx := by
    by_contra h
    have : lx / 2 = 0 := by omega
    simp [this] at h196
  have hy : 2 ≤ ly := by
    by_contra h
    have : ly / 2 = 0 := by omega
    simp [this] at h196
  obtain ⟨t0, e0, s0, g0⟩ := quan_ok hp hT hc hx hy ex ey
  obtain ⟨s1, g1⟩ := flatten1_ok s0
  rw [h196, show 4 * 196 = 784 from rfl] at s1 g1
  obtain ⟨t2, e2, s2, g2⟩ := DemoNet.Linear.apply_ok (o := 64) s1 hp.2.2.2.2.1
  obtain ⟨s3, g3⟩ := relu_ok s2
  obtain ⟨t4, e4, s4, g4⟩ := DemoNet.Linear.apply_ok (o := 10) s3 hp.2.2.2.2.2
  refine ⟨t4, ?_, s4, fun b hb o ho => ?_⟩
  · unfold QuanNet.Net.forward
    rw [e0, Py.ok_bind]
    dsimp only
    rw [e2, Py.ok_bind, e4]
  · rw [g4 b o hb ho]
    unfold score
    congr 1
    refine sum_congr rfl fun j hj => ?_
    have hj := mem_range.1 hj
    rw [g3 b j hb hj, g2 b j hb hj]
    have : ∑ i ∈ range 784, p.fc1.W.get [j, i] * (flatten1 t0).get [b, i] = ∑ i ∈ range 784, p.fc1.W.get [j, i] *
        patchValue p.quan1 (fun x y => T.get [b, 0, x, y]) (i / 196) (i % 196 / (ly / 2)) (i % (ly / 2)) := by
      refine sum_congr rfl fun i hi => ?_
      have hi := mem_range.1 hi
      rw [g1 b i hb hi, g0 b hb _ (by omega) _ ?_ _ (Nat.mod_lt _ (by omega))]
      refine Nat.div_lt_of_lt_mul ?_
      rw [mul_comm, h196]
      exact Nat.mod_lt _ (by norm_num)
    rw [this]

/-- C93: exactly the images with even sides and 784 pixels can be classified; 28 × 28 is one of the shapes. -/
theorem C93_sizes (p : QuanNet.Net) (hp : NetShaped p) (T : Tensor ℝ) (B ch lx ly : ℕ) (hT : T.shape = [B, ch, lx, ly])
    (hB : 0 < B) (hc : 0 < ch) (hx : 2 ≤ lx) (hy : 2 ≤ ly) :
    ((∃ t, p.forward T = .ok t) ↔ 2 ∣ lx ∧ 2 ∣ ly ∧ lx * ly = 784) ∧
    (¬ (2 ∣ lx ∧ 2 ∣ ly) → p.forward T = .error .indexError) ∧
    (2 ∣ lx → 2 ∣ ly → lx * ly ≠ 784 → p.forward T = .error .runtimeError) := by
  have hmul : 2 ∣ lx → 2 ∣ ly → (lx / 2 * (ly / 2) = 196 ↔ lx * ly = 784) := by
    rintro ⟨a, rfl⟩ ⟨b, rfl⟩
    rw [Nat.mul_div_cancel_left _ (by norm_num), Nat.mul_div_cancel_left _ (by norm_num)]
    constructor <;> intro h <;> nlinarith
  have hodd : ¬ (2 ∣ lx ∧ 2 ∣ ly) → p.forward T = .error .indexError := by
    intro h
    obtain ⟨hn, hs, hk, hw, -, -⟩ := hp
    have := (C50_errors p.quan1 (by rw [hn, hk]; rfl) (by rw [hw, hn]) (by rw [hs]; norm_num) T B ch lx ly hT hB hc
      (by rw [hk]; exact hx) (by rw [hk]; exact hy)).1 (by rw [hk]) (by rw [hs, hk, fit_two_iff, fit_two_iff]; exact h)
    unfold QuanNet.Net.forward
    rw [this]
    rfl
  have hprod : 2 ∣ lx → 2 ∣ ly → lx * ly ≠ 784 → p.forward T = .error .runtimeError := by
    intro ex ey h
    obtain ⟨t0, e0, s0, -⟩ := quan_ok hp hT hc hx hy ex ey
    obtain ⟨s1, -⟩ := flatten1_ok s0
    unfold QuanNet.Net.forward
    rw [e0, Py.ok_bind]
    dsimp only
    have : p.fc1.apply (flatten1 t0) = .error .runtimeError := by
      unfold DemoNet.Linear.apply
      simp only
      rw [raiseIf_true]
      · rfl
      · right
        rw [s1, hp.2.2.2.2.1]
        simp only [List.getD_cons_zero, List.getD_cons_succ]
        intro h'
        exact h ((hmul ex ey).1 (by omega))
    rw [this]
    rfl
  refine ⟨⟨?_, ?_⟩, hodd, hprod⟩
  · rintro ⟨t, ht⟩
    by_cases h : 2 ∣ lx ∧ 2 ∣ ly
    · refine ⟨h.1, h.2, ?_⟩
      by_contra h'
      rw [hprod h.1 h.2 h'] at ht
      cases ht
    · rw [hodd h] at ht
      cases ht
  · rintro ⟨ex, ey, h⟩
    obtain ⟨t, e, -⟩ := C93_net p hp T B ch lx ly hT hc ex ey ((hmul ex ey).2 h)
    exact ⟨t, e⟩

/-! ## The loss of a batch -/

/-- The image of a sample as a function of row and column. -/
def pixels (s : Sample) (x y : ℕ) : ℝ := s.1.get [0, x, y]

/-- The probability that the network gives to digit `o`: the softmax of the scores. -/
noncomputable def digitProb (p : QuanNet.Net) (s : Sample) (o : ℕ) : ℝ :=
  Real.exp (score p 14 (pixels s) o) / ∑ c ∈ range 10, Real.exp (score p 14 (pixels s) c)

/-- The cross entropy of one sample. -/
noncomputable def sampleLoss (p : QuanNet.Net) (s : Sample) : ℝ := - Real.log (digitProb p s s.2)

/-- Samples as in the data set: 28 × 28 pixels in one channel, and a digit. -/
def GoodDigits (data : List Sample) : Prop := ∀ s ∈ data, s.1.shape = [1, 28, 28] ∧ s.2 < 10

/-- The mean of `f` over a list. -/
noncomputable def meanOf {α : Type} (f : α → ℝ) (l : List α) : ℝ := (l.map f).sum / l.length

theorem prob_pos (p : QuanNet.Net) (s : Sample) (o : ℕ) : 0 < digitProb p s o :=
  div_pos (Real.exp_pos _) (sum_pos (fun _ _ => Real.exp_pos _) ⟨0, by simp⟩)

theorem sampleLoss_eq (p : QuanNet.Net) (s : Sample) :
    sampleLoss p s = Real.log (∑ c ∈ range 10, Real.exp (score p 14 (pixels s) c)) - score p 14 (pixels s) s.2 := by
  unfold sampleLoss digitProb
  rw [Real.log_div (Real.exp_pos _).ne' (sum_pos (fun _ _ => Real.exp_pos _) ⟨0, by simp⟩).ne', Real.log_exp]
  ring

/-- C93: the cross entropy is not negative, and the probabilities of the ten digits add up to one. -/
theorem C93_prob (p : QuanNet.Net) (s : Sample) :
    ∑ o ∈ range 10, digitProb p s o = 1 ∧ (s.2 < 10 → 0 ≤ sampleLoss p s) := by
  have h0 : 0 < ∑ c ∈ range 10, Real.exp (score p 14 (pixels s) c) :=
    sum_pos (fun _ _ => Real.exp_pos _) ⟨0, by simp⟩
  have h1 : ∑ o ∈ range 10, digitProb p s o = 1 := by
    unfold digitProb
    rw [← sum_div, div_self h0.ne']
  refine ⟨h1, fun h => ?_⟩
  have h2 : digitProb p s s.2 ≤ 1 := by
    rw [← h1]
    exact single_le_sum (f := fun o => digitProb p s o) (fun i _ => (prob_pos p s i).le) (mem_range.2 h)
  have := Real.log_nonpos (prob_pos p s s.2).le h2
  unfold sampleLoss
  linarith

/-- C93: the output for a batch are the scores of its images, and the loss is the mean cross entropy. -/
theorem C93_loss (p : QuanNet.Net) (hp : NetShaped p) (b : List Sample) (h0 : b ≠ []) (hb : GoodDigits b) :
    ∃ t, batchLoss p b = .ok (t, meanOf (sampleLoss p) b) ∧ t.shape = [b.length, 10] ∧
      ∀ k (hk : k < b.length), ∀ o < 10, t.get [k, o] = score p 14 (pixels b[k]) o := by
  obtain ⟨T, eT, sT, gT⟩ := stack_ok (l := b.map Prod.fst) (s := [1, 28, 28]) (by simpa using h0)
    (by intro t ht; obtain ⟨s, hs, rfl⟩ := List.mem_map.1 ht; exact (hb s hs).1)
  rw [List.length_map] at sT
  obtain ⟨t, et, st, gt⟩ := C93_net p hp T _ _ _ _ sT (by norm_num) (by norm_num) (by norm_num) (by norm_num)
  have hpix : ∀ k (hk : k < b.length), (fun x y => T.get [k, 0, x, y]) = pixels b[k] := by
    intro k hk
    funext x y
    unfold pixels
    by_cases h : inB [1, 28, 28] [0, x, y] = true
    · rw [gT k (by simpa using hk) _ h]
      simp
    · rw [T.supp, b[k].1.supp]
      · rw [(hb _ (List.getElem_mem hk)).1]
        simpa using h
      · rw [sT]
        simp only [inB] at h ⊢
        simp_all
  have g : ∀ k (hk : k < b.length), ∀ o < 10, t.get [k, o] = score p 14 (pixels b[k]) o := by
    intro k hk o ho
    rw [gt k hk o ho, hpix k hk]
  refine ⟨t, ?_, st, g⟩
  unfold batchLoss
  rw [eT, Py.ok_bind, et, Py.ok_bind, crossEntropy_ok st (by simp)
    (by intro a ha; obtain ⟨s, hs, rfl⟩ := List.mem_map.1 ha; exact (hb s hs).2), Py.ok_bind]
  congr 2
  unfold meanOf
  congr 1
  rw [← Fin.sum_univ_eq_sum_range (fun k => Real.log (∑ c ∈ range 10, Real.exp (t.get [k, c])) -
    t.get [k, (b.map Prod.snd).getD k 0]), ← Fin.sum_univ_getElem,
    ← Fin.sum_congr' _ (show b.length = (b.map _).length by simp)]
  refine sum_congr rfl fun k _ => ?_
  have hk := k.2
  simp only [Fin.val_cast, List.getElem_map]
  rw [sampleLoss_eq, List.getD_eq_getElem _ _ (by simp), List.getElem_map,
    g k hk _ (hb _ (List.getElem_mem hk)).2]
  congr 2
  exact sum_congr rfl fun c hc => by rw [g k hk c (mem_range.1 hc)]

/-! ## Batches -/

/-- `bs` are the batches of `data` in order, of size `B` except that the last one may be smaller. -/
def BatchesOf {α : Type} (B : ℕ) (data : List α) (bs : List (List α)) : Prop :=
  bs.flatten = data ∧ bs.length = (data.length + B - 1) / B ∧ (∀ b ∈ bs, 1 ≤ b.length ∧ b.length ≤ B) ∧
    (∀ b ∈ bs.dropLast, b.length = B) ∧ (B ∣ data.length → ∀ b ∈ bs, b.length = B)

theorem chunks_spec {α : Type} {B : ℕ} (hB : 0 < B) (l : List α) :
    BatchesOf B l ((List.range ((l.length + B - 1) / B)).map (fun i =>
      (l.take (min (i * B + B) l.length)).drop (i * B))) := by
  refine ⟨by rw [← List.flatMap_def]; exact DemoNet.chunks_flat hB l, by simp, ?_, ?_, ?_⟩
  · intro b hb
    obtain ⟨i, hi, rfl⟩ := List.mem_map.1 hb
    have h1 : i + 1 ≤ (l.length + B - 1) / B := by simpa using hi
    have h2 := (Nat.le_div_iff_mul_le hB).1 h1
    have h3 : (i + 1) * B = i * B + B := by ring
    have h4 : i * B < l.length := by omega
    clear h1 h2 h3
    simp only [List.length_drop, List.length_take]
    refine ⟨by omega, by omega⟩
  · intro b hb
    rw [← List.map_dropLast] at hb
    obtain ⟨i, hi, rfl⟩ := List.mem_map.1 hb
    have h0 : i + 2 ≤ (l.length + B - 1) / B := by
      obtain ⟨k, hk, rfl⟩ := List.mem_iff_getElem.1 hi
      simp at hk ⊢
      omega
    have h2 := (Nat.le_div_iff_mul_le hB).1 h0
    have h3 : (i + 2) * B = i * B + B + B := by ring
    have h4 : i * B + B ≤ l.length := by omega
    simp only [List.length_drop, List.length_take]
    clear h0 h2 h3
    omega
  · rintro ⟨m, hm⟩ b hb
    obtain ⟨i, hi, rfl⟩ := List.mem_map.1 hb
    have h1 : i + 1 ≤ (l.length + B - 1) / B := by simpa using hi
    have h2 := (Nat.le_div_iff_mul_le hB).1 h1
    have h3 : (i + 1) * B = i * B + B := by ring
    have h5 : i < m := by
      by_contra h
      have := Nat.mul_le_mul_right B (not_lt.1 h)
      rw [mul_comm m B] at this
      omega
    have h6 := Nat.mul_le_mul_right B (Nat.succ_le_of_lt h5)
    rw [Nat.succ_mul, mul_comm m B, ← hm] at h6
    simp only [List.length_drop, List.length_take]
    clear h1 h2 h3 h5
    omega

/-- C93: `DataLoader`. -/
theorem C93_batches (B : ℕ) (data : List Sample) :
    (0 < B → ∃ bs, DataLoader B data = .ok bs ∧ BatchesOf B data bs) ∧
    (B = 0 → DataLoader B data = .error .valueError) := by
  refine ⟨fun hB => ⟨_, ?_, chunks_spec hB data⟩, ?_⟩
  · unfold DataLoader
    rw [raiseIf_false (by omega), Py.ok_bind]
  · rintro rfl
    rfl

/-- Batches that can be evaluated. -/
def GoodDigitBatches (bs : List (List Sample)) : Prop := ∀ b ∈ bs, b ≠ [] ∧ GoodDigits b

theorem BatchesOf.good {B : ℕ} {data : List Sample} {bs : List (List Sample)} (h : BatchesOf B data bs)
    (hd : GoodDigits data) : GoodDigitBatches bs := by
  intro b hb
  refine ⟨?_, fun s hs => hd s ?_⟩
  · rintro rfl
    have := (h.2.2.1 _ hb).1
    simp at this
  · rw [← h.1]
    exact List.mem_flatten.2 ⟨b, hb, hs⟩

theorem BatchesOf.ne_nil {α : Type} {B : ℕ} {data : List α} {bs : List (List α)} (h : BatchesOf B data bs)
    (h0 : data ≠ []) : bs ≠ [] := by
  rintro rfl
  exact h0 (by rw [← h.1]; rfl)

/-! ## Training -/

variable {σ : Type}

/-- The optimiser keeps the shapes of the parameters. -/
def KeepsNet (upd : σ → QuanNet.Net → List Sample → σ × QuanNet.Net) : Prop :=
  ∀ st p b, NetShaped p → NetShaped (upd st p b).2

/-- The mean losses of the batches while the optimiser makes a step after each of them. -/
noncomputable def lossesAlong (upd : σ → QuanNet.Net → List Sample → σ × QuanNet.Net) :
    List (List Sample) → σ → QuanNet.Net → List ℝ
  | [], _, _ => []
  | b :: bs, st, p => meanOf (sampleLoss p) b :: lossesAlong upd bs (upd st p b).1 (upd st p b).2

/-- Optimiser and parameters after the batches. -/
def afterDigits (upd : σ → QuanNet.Net → List Sample → σ × QuanNet.Net) (bs : List (List Sample)) (st : σ)
    (p : QuanNet.Net) : σ × QuanNet.Net := bs.foldl (fun s b => upd s.1 s.2 b) (st, p)

/-- C93: one epoch: every batch makes one step, its loss is taken before the step. -/
theorem C93_epoch (upd : σ → QuanNet.Net → List Sample → σ × QuanNet.Net) (hu : KeepsNet upd)
    (bs : List (List Sample)) (hb : GoodDigitBatches bs) (st : σ) (p : QuanNet.Net) (hp : NetShaped p) :
    epoch upd bs st p =
      .ok ((afterDigits upd bs st p).1, (afterDigits upd bs st p).2, lossesAlong upd bs st p) ∧
    NetShaped (afterDigits upd bs st p).2 := by
  induction bs generalizing st p with
  | nil => exact ⟨rfl, hp⟩
  | cons b bs ih =>
    obtain ⟨t, e, -, -⟩ := C93_loss p hp b (hb b (by simp)).1 (hb b (by simp)).2
    obtain ⟨e2, h2⟩ := ih (fun c hc => hb c (by simp [hc])) _ _ (hu st p b hp)
    refine ⟨?_, h2⟩
    unfold epoch
    rw [e, Py.ok_bind]
    dsimp only
    rw [e2, Py.ok_bind]
    rfl

theorem lossesAlong_length (upd : σ → QuanNet.Net → List Sample → σ × QuanNet.Net) (bs : List (List Sample)) (st : σ)
    (p : QuanNet.Net) : (lossesAlong upd bs st p).length = bs.length := by
  induction bs generalizing st p with
  | nil => rfl
  | cons b bs ih => simp [lossesAlong, ih]

theorem meanOf_nonneg {α : Type} {f : α → ℝ} {l : List α} (h : ∀ a ∈ l, 0 ≤ f a) : 0 ≤ meanOf f l := by
  unfold meanOf
  refine div_nonneg (List.sum_nonneg fun x hx => ?_) (by positivity)
  obtain ⟨a, ha, rfl⟩ := List.mem_map.1 hx
  exact h a ha

theorem lossesAlong_nonneg (upd : σ → QuanNet.Net → List Sample → σ × QuanNet.Net) (bs : List (List Sample))
    (hb : GoodDigitBatches bs) (st : σ) (p : QuanNet.Net) : ∀ l ∈ lossesAlong upd bs st p, 0 ≤ l := by
  induction bs generalizing st p with
  | nil => simp [lossesAlong]
  | cons b bs ih =>
    intro l hl
    rcases List.mem_cons.1 hl with rfl | hl
    · exact meanOf_nonneg fun s hs => (C93_prob p s).2 ((hb b (by simp)).2 s hs).2
    · exact ih (fun c hc => hb c (by simp [hc])) _ _ l hl

theorem average_ok {l : List ℝ} (h : l ≠ []) : average l = .ok (meanOf id l) := by
  unfold average
  rw [raiseIf_false (by simpa using h), Py.ok_bind]
  simp [meanOf]

/-- C93: training ends without an error, whatever the optimiser does to the parameters, and reports one number per
epoch, the mean of the losses of its batches. -/
theorem C93_train (upd : σ → QuanNet.Net → List Sample → σ × QuanNet.Net) (hu : KeepsNet upd) (B : ℕ) (hB : 0 < B)
    (data : List Sample) (h0 : data ≠ []) (hd : GoodDigits data) (epochs : ℕ) (st : σ) (p : QuanNet.Net)
    (hp : NetShaped p) :
    ∃ losses q bs, train upd B data epochs st p = .ok (losses, q) ∧ losses.length = epochs ∧ NetShaped q ∧
      (∀ l ∈ losses, 0 ≤ l) ∧ BatchesOf B data bs ∧
      (0 < epochs → losses.getD 0 0 = meanOf id (lossesAlong upd bs st p)) := by
  obtain ⟨bs, e, hbs⟩ := (C93_batches B data).1 hB
  have hg := hbs.good hd
  induction epochs generalizing st p with
  | zero => exact ⟨[], p, bs, rfl, rfl, hp, by simp, hbs, by simp⟩
  | succ n ih =>
    obtain ⟨e1, h1⟩ := C93_epoch upd hu bs hg st p hp
    obtain ⟨losses, q, -, e2, h2, h3, h4, -, -⟩ := ih (afterDigits upd bs st p).1 (afterDigits upd bs st p).2 h1
    refine ⟨meanOf id (lossesAlong upd bs st p) :: losses, q, bs, ?_, by simp [h2], h3, ?_, hbs, by simp⟩
    · unfold train
      rw [e, Py.ok_bind, e1, Py.ok_bind]
      dsimp only
      rw [average_ok, Py.ok_bind, e2, Py.ok_bind]
      intro h
      have := lossesAlong_length upd bs st p
      rw [h] at this
      exact hbs.ne_nil h0 (List.length_eq_zero_iff.1 this.symm)
    · intro l hl
      rcases List.mem_cons.1 hl with rfl | hl
      · exact meanOf_nonneg fun a ha => lossesAlong_nonneg upd bs hg st p a ha
      · exact h4 l hl

/-! ## The test -/

/-- The network classifies the sample correctly: its label has the greatest score, and is the first one with it. -/
def Recognised (p : QuanNet.Net) (s : Sample) : Prop :=
  ∀ o < 10, score p 14 (pixels s) o ≤ score p 14 (pixels s) s.2 ∧
    (o < s.2 → score p 14 (pixels s) o < score p 14 (pixels s) s.2)

open Classical in
/-- How many samples are classified correctly. -/
noncomputable def hits (p : QuanNet.Net) (data : List Sample) : ℕ := data.countP (fun s => decide (Recognised p s))

theorem argmax_eq_iff {p : QuanNet.Net} {s : Sample} (hs : s.2 < 10) {t : Tensor ℝ} {n k : ℕ} (st : t.shape = [n, 10])
    (g : ∀ o < 10, t.get [k, o] = score p 14 (pixels s) o) : argmax t k = s.2 ↔ Recognised p s := by
  have h := argmax_fold (fun c => t.get [k, c]) 10
  have e : argmax t k = (List.range 10).foldl (fun m c => if t.get [k, c] > t.get [k, m] then c else m) 0 := by
    unfold argmax
    rw [st]
    rfl
  simp only at h
  rw [← e] at h
  obtain ⟨h1, h2, h3⟩ := h
  have h3 := h3 (by norm_num)
  constructor
  · intro hm o ho
    rw [hm] at h1 h2
    rw [← g o ho, ← g _ hs]
    exact ⟨h1 o ho, h2 o⟩
  · intro hr
    rcases lt_trichotomy (argmax t k) s.2 with h | h | h
    · have := (hr _ h3).2 h
      rw [← g _ h3, ← g _ hs] at this
      exact absurd (h1 _ hs) (not_le.2 this)
    · exact h
    · have := h2 _ h
      have h' := (hr _ h3).1
      rw [← g _ h3, ← g _ hs] at h'
      exact absurd h' (not_le.2 this)

theorem correctIn_eq {p : QuanNet.Net} {b : List Sample} (hb : GoodDigits b) {t : Tensor ℝ} (st : t.shape = [b.length, 10])
    (g : ∀ k (hk : k < b.length), ∀ o < 10, t.get [k, o] = score p 14 (pixels b[k]) o) :
    correctIn t (b.map Prod.snd) = hits p b := by
  classical
  by_cases h0 : b = []
  · subst h0
    rfl
  obtain ⟨d, -⟩ := List.exists_mem_of_ne_nil _ h0
  have e : b = (List.range b.length).map (fun i => b.getD i d) :=
    List.ext_getElem (by simp) fun i h1 h2 => by simp [h1]
  unfold correctIn hits
  conv_rhs => rw [e]
  rw [List.countP_map, List.countP_eq_length_filter, List.length_map]
  congr 1
  refine List.filter_congr fun i hi => ?_
  have hi := List.mem_range.1 hi
  have := argmax_eq_iff (hb _ (List.getElem_mem hi)).2 st (g i hi)
  simp [hi, this]

theorem testLoop_ok {p : QuanNet.Net} (hp : NetShaped p) {bs : List (List Sample)} (hb : GoodDigitBatches bs) :
    testLoop p bs = .ok (hits p bs.flatten, bs.map (meanOf (sampleLoss p))) := by
  induction bs with
  | nil => rfl
  | cons b bs ih =>
    obtain ⟨t, e, st, g⟩ := C93_loss p hp b (hb b (by simp)).1 (hb b (by simp)).2
    unfold testLoop
    rw [e, Py.ok_bind, ih (fun c hc => hb c (by simp [hc])), Py.ok_bind]
    dsimp only
    rw [correctIn_eq (hb b (by simp)).2 st g]
    simp [hits, List.countP_append]

/-- C93: the test prints the mean of the mean losses of the batches, and as accuracy the percentage of correctly
classified samples among as many samples as the batches would have if they were all full. -/
theorem C93_test (p : QuanNet.Net) (hp : NetShaped p) (B : ℕ) (hB : 0 < B) (data : List Sample) (h0 : data ≠ [])
    (hd : GoodDigits data) :
    ∃ bs, BatchesOf B data bs ∧ QuanNet.test p B data = .ok (meanOf (meanOf (sampleLoss p)) bs,
      100 * hits p data / (((data.length + B - 1) / B * B : ℕ) : ℝ)) := by
  obtain ⟨bs, e, hbs⟩ := (C93_batches B data).1 hB
  have hne := hbs.ne_nil h0
  refine ⟨bs, hbs, ?_⟩
  unfold QuanNet.test
  rw [e, Py.ok_bind, testLoop_ok hp (hbs.good hd), Py.ok_bind]
  dsimp only
  rw [average_ok (by simpa using hne), Py.ok_bind, raiseIf_false (by simpa using hne), Py.ok_bind, hbs.1, hbs.2.1]
  congr 2
  · simp [meanOf]
  · rw [Nat.cast_mul]
    field_simp

/-- C93: the printed accuracy is the percentage of correctly classified samples if and only if the last batch is full
or no sample is classified correctly; otherwise it is too low. -/
theorem C93_accuracy_partial (p : QuanNet.Net) (hp : NetShaped p) (B : ℕ) (hB : 0 < B) (data : List Sample)
    (h0 : data ≠ []) (hd : GoodDigits data) :
    ∃ l a, QuanNet.test p B data = .ok (l, a) ∧ 0 ≤ a ∧ a ≤ 100 * hits p data / data.length ∧
      (a = 100 * hits p data / data.length ↔ B ∣ data.length ∨ hits p data = 0) := by
  obtain ⟨bs, -, e⟩ := C93_test p hp B hB data h0 hd
  have hn : 0 < data.length := List.length_pos_iff.2 h0
  have h1 := DemoNet.ceil_mul (n := data.length) hB
  have hn' : (0 : ℝ) < data.length := by exact_mod_cast hn
  have h1' : (data.length : ℝ) ≤ (((data.length + B - 1) / B * B : ℕ) : ℝ) := by exact_mod_cast h1
  refine ⟨_, _, e, by positivity, ?_, ?_⟩
  · exact div_le_div_of_nonneg_left (by positivity) hn' h1'
  · constructor
    · intro h
      by_cases hh : hits p data = 0
      · exact Or.inr hh
      · left
        have hh' : (100 * hits p data : ℝ) ≠ 0 := by positivity
        rw [div_eq_div_iff (by linarith) hn'.ne'] at h
        have h2 := mul_left_cancel₀ hh' h
        have h3 : data.length = (data.length + B - 1) / B * B := by exact_mod_cast h2
        exact ⟨(data.length + B - 1) / B, by rw [mul_comm]; exact h3⟩
    · rintro (⟨m, hm⟩ | h)
      · have : (data.length + B - 1) / B = m := by
          rw [hm, Nat.add_sub_assoc hB, Nat.mul_add_div hB, Nat.div_eq_of_lt (by omega), add_zero]
        rw [this, mul_comm m B, ← hm]
      · simp [h]

/-- C93: with one test image and batches of four, as in the script, the printed accuracy is at most 25 percent, also if the
image is classified correctly. -/
theorem C93_accuracy_false (p : QuanNet.Net) (hp : NetShaped p) (s : Sample) (hs : GoodDigits [s]) :
    ∃ l a, QuanNet.test p 4 [s] = .ok (l, a) ∧ (Recognised p s → a = 25) ∧ (¬ Recognised p s → a = 0) := by
  obtain ⟨bs, -, e⟩ := C93_test p hp 4 (by norm_num) [s] (by simp) hs
  refine ⟨_, _, e, fun h => ?_, fun h => ?_⟩
  · simp [hits, h]
    norm_num
  · simp [hits, h]

theorem mean_of_means {α : Type} (f : α → ℝ) {B : ℕ} {bs : List (List α)} (h : ∀ b ∈ bs, b.length = B) :
    meanOf (meanOf f) bs = meanOf f bs.flatten := by
  have h1 : bs.map (meanOf f) = bs.map (fun b : List α => (b.map f).sum / (B : ℝ)) :=
    List.map_congr_left fun b hb => by rw [meanOf, h b hb]
  have h2 : (bs.map (fun b => (b.map f).sum / (B : ℝ))).sum = (bs.flatten.map f).sum / B := by
    clear h1 h
    induction bs with
    | nil => simp
    | cons b bs ih => simp [ih, add_div]
  have h3 : bs.flatten.length = bs.length * B := by
    rw [List.length_flatten, List.map_congr_left h]
    simp
  rw [meanOf, h1, h2, meanOf, h3, Nat.cast_mul, div_div, mul_comm]

/-- C93: the printed loss is the mean loss of the samples if all batches are full or there is only one.  In general it is
not, see `C93_test_loss_false`. -/
theorem C93_test_loss_partial (p : QuanNet.Net) (hp : NetShaped p) (B : ℕ) (hB : 0 < B) (data : List Sample)
    (h0 : data ≠ []) (hd : GoodDigits data) (hdvd : B ∣ data.length ∨ data.length ≤ B) :
    ∃ a, QuanNet.test p B data = .ok (meanOf (sampleLoss p) data, a) := by
  obtain ⟨bs, hbs, e⟩ := C93_test p hp B hB data h0 hd
  rcases hdvd with h | h
  · have := mean_of_means (sampleLoss p) (hbs.2.2.2.2 h)
    rw [hbs.1] at this
    rw [this] at e
    exact ⟨_, e⟩
  · have hn : 0 < data.length := List.length_pos_iff.2 h0
    have h1 : (data.length + B - 1) / B = 1 := Nat.div_eq_of_lt_le (by omega) (by omega)
    have h2 := hbs.2.1
    rw [h1] at h2
    obtain ⟨b, rfl⟩ := List.length_eq_one_iff.1 h2
    have h3 : b = data := by simpa using hbs.1
    subst h3
    simp only [meanOf, List.map_cons, List.map_nil, List.sum_cons, List.sum_nil, List.length_cons, List.length_nil] at e ⊢
    norm_num at e
    exact ⟨_, e⟩

/-- A network whose scores are 1 for the digit 0 and 0 for the other digits, whatever the image. -/
noncomputable def constNet : QuanNet.Net :=
  ⟨⟨4, 2, 2, List.replicate 12 0, 1⟩, ⟨.zeros [64, 784], .zeros [64]⟩,
    ⟨.zeros [10, 64], Tensor.ofFn [10] (fun idx => if idx = [0] then 1 else 0)⟩⟩

theorem constNet_shaped : NetShaped constNet := ⟨rfl, rfl, rfl, by simp [constNet], rfl, rfl⟩

theorem constNet_score (w : ℕ) (pix : ℕ → ℕ → ℝ) (o : ℕ) : score constNet w pix o = if o = 0 then 1 else 0 := by
  have hz : ∀ s idx : List ℕ, (Tensor.zeros s : Tensor ℝ).get idx = 0 := by
    intro s idx
    unfold Tensor.zeros Tensor.ofFn
    simp
  unfold score constNet
  simp only [hz, zero_mul, sum_const_zero, add_zero]
  by_cases h : o < 10
  · rw [Tensor.get_ofFn (by simp [h])]
    simp
  · rw [Tensor.supp _ _ (by simpa [Tensor.ofFn] using h), if_neg (by omega)]

/-- C93: three test images in batches of two, where the printed loss is not the mean loss of the images. -/
theorem C93_test_loss_false : ∃ (p : QuanNet.Net) (data : List Sample) (l a : ℝ), NetShaped p ∧ GoodDigits data ∧
    data ≠ [] ∧ QuanNet.test p 2 data = .ok (l, a) ∧ l ≠ meanOf (sampleLoss p) data := by
  let im : Tensor ℝ := .zeros [1, 28, 28]
  have hd : GoodDigits [(im, 0), (im, 0), (im, 1)] := by
    intro s hs
    simp at hs
    rcases hs with rfl | rfl <;> exact ⟨rfl, by norm_num⟩
  have hg : GoodDigitBatches [[(im, 0), (im, 0)], [(im, 1)]] := by
    intro b hb
    simp at hb
    rcases hb with rfl | rfl <;> exact ⟨by simp, fun s hs => hd s (by simp at hs ⊢; tauto)⟩
  have e : DataLoader 2 [(im, 0), (im, 0), (im, 1)] = .ok [[(im, 0), (im, 0)], [(im, 1)]] := by
    unfold DataLoader
    rw [raiseIf_false (by norm_num), Py.ok_bind]
    simp [List.range_succ]
  refine ⟨constNet, _, meanOf id ([[(im, 0), (im, 0)], [(im, 1)]].map (meanOf (sampleLoss constNet))),
    (hits constNet [[(im, 0), (im, 0)], [(im, 1)]].flatten : ℝ) / ([[(im, 0), (im, 0)], [(im, 1)]] : List (List Sample)).length *
      100 / (2 : ℕ), constNet_shaped, hd, by simp, ?_, ?_⟩
  · unfold QuanNet.test
    rw [e, Py.ok_bind, testLoop_ok constNet_shaped hg, Py.ok_bind]
    dsimp only
    rw [average_ok (by simp), Py.ok_bind, raiseIf_false (by simp), Py.ok_bind]
  · have h0 : sampleLoss constNet (im, 0) = sampleLoss constNet (im, 1) - 1 := by
      rw [sampleLoss_eq, sampleLoss_eq]
      simp only [constNet_score]
      norm_num [pixels]
    simp only [meanOf, List.map_cons, List.map_nil, List.sum_cons, List.sum_nil, List.length_cons, List.length_nil, id, h0]
    intro h
    norm_num at h
    linarith

/-- C93: without data both loops end with a division by zero. -/
theorem C93_empty (upd : σ → QuanNet.Net → List Sample → σ × QuanNet.Net) (B : ℕ) (hB : 0 < B) (n : ℕ) (st : σ)
    (p : QuanNet.Net) :
    train upd B [] (n + 1) st p = .error .zeroDivision ∧ QuanNet.test p B [] = .error .zeroDivision := by
  have e : DataLoader B [] = .ok [] := by
    unfold DataLoader
    rw [raiseIf_false (by omega), Py.ok_bind]
    have : (([] : List Sample).length + B - 1) / B = 0 := by simp; omega
    rw [this]
    rfl
  constructor
  · unfold train
    rw [e]
    rfl
  · unfold QuanNet.test
    rw [e]
    rfl

/-- C93: the whole script. -/
theorem C93_script (upd : σ → QuanNet.Net → List Sample → σ × QuanNet.Net) (hu : KeepsNet upd) (epochs B : ℕ) (hB : 0 < B)
    (trainData testData : List Sample) (h1 : trainData ≠ []) (h2 : testData ≠ []) (hd1 : GoodDigits trainData)
    (hd2 : GoodDigits testData) (st : σ) (p : QuanNet.Net) (hp : NetShaped p) :
    ∃ losses l a, script upd epochs B trainData testData st p = .ok (losses, l, a) ∧ losses.length = epochs ∧ 0 ≤ l ∧
      0 ≤ a ∧ a ≤ 100 := by
  obtain ⟨losses, q, -, e, hl, hq, -⟩ := C93_train upd hu B hB trainData h1 hd1 epochs st p hp
  obtain ⟨bs, hbs, e2⟩ := C93_test q hq B hB testData h2 hd2
  have hg := hbs.good hd2
  refine ⟨losses, _, _, by unfold script; rw [e, Py.ok_bind]; dsimp only; rw [e2, Py.ok_bind], hl, ?_, by positivity, ?_⟩
  · exact meanOf_nonneg fun b hb => meanOf_nonneg fun s hs => (C93_prob q s).2 ((hg b hb).2 s hs).2
  · have h3 := DemoNet.ceil_mul (n := testData.length) hB
    have h4 : hits q testData ≤ testData.length := List.countP_le_length
    have hn : 0 < testData.length := List.length_pos_iff.2 h2
    rw [div_le_iff₀ (by exact_mod_cast (by omega : 0 < (testData.length + B - 1) / B * B))]
    have h5 : (hits q testData : ℝ) ≤ (((testData.length + B - 1) / B * B : ℕ) : ℝ) := by exact_mod_cast h4.trans h3
    linarith

/-- Five training images and one test image, as in the script, and an optimiser that keeps shapes. -/
example : GoodDigits (List.replicate 5 (Tensor.ofFn [1, 28, 28] (fun idx => (idx.getD 1 0 : ℝ) / 28), 7)) ∧
    NetShaped constNet ∧ KeepsNet (fun (n : ℕ) p _ => (n + 1, { p with fc2 := ⟨p.fc2.W.mapT (· / 2), p.fc2.b⟩ })) := by
  refine ⟨fun s hs => ?_, constNet_shaped, fun _ _ _ h => h⟩
  rw [List.eq_of_mem_replicate hs]
  exact ⟨rfl, by norm_num⟩

/-- The network above recognises an image of a zero, so that the script prints 25 percent for it. -/
example (im : Tensor ℝ) (h : im.shape = [1, 28, 28]) : ∃ l, QuanNet.test constNet 4 [(im, 0)] = .ok (l, 25) := by
  obtain ⟨l, a, e, h1, -⟩ := C93_accuracy_false constNet constNet_shaped (im, 0)
    (by intro s hs; simp at hs; subst hs; exact ⟨h, by norm_num⟩)
  refine ⟨l, ?_⟩
  rw [e, h1]
  intro o ho
  simp only [constNet_score]
  constructor
  · split_ifs <;> norm_num
  · intro h
    simp at h

end QTN.Props
