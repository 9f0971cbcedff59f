import Verif.Lemmas.DemoNet
import Verif.Props.Fourier

/-! # Property C92: the hybrid networks of test_qnn_demo.py and test_qcnn_demo.py and their training loop -/

namespace QTN.Props

open QTN QTN.Spec QTN.DemoNet Finset

variable {N : ℕ}

/-- The two demos. -/
inductive Demo
  | qnn
  | qcnn

/-- The code that builds the circuit. -/
noncomputable def Demo.layers : Demo → ℕ → List ℝ → Py Circuit
  | .qnn => Qnn.layers
  | .qcnn => Qnn.layersQcnn

/-- The circuit itself. -/
noncomputable def Demo.items (N : ℕ) (w : List ℝ) : Demo → List (Item N)
  | .qnn => qnnItems N w
  | .qcnn => qcnnItems N w

/-- The number of weights per qubit. -/
def Demo.perQubit : Demo → ℕ
  | .qnn => 15
  | .qcnn => 18

theorem demo_circuit (d : Demo) (hN : 2 ≤ N) (w : List ℝ) (hw : w.length = d.perQubit * N) (batch : List (List ℝ))
    (hb : GoodSamples N batch) :
    ∃ t, Qnn.forward d.layers N w batch = .ok t ∧ t.shape = [batch.length, N] ∧
      ∀ (k : Fin batch.length) (i : Fin N), t.get [(k : ℕ), (i : ℕ)] = qnnValue (d.items N w) batch[k] i := by
  cases d
  · exact C75_qnn hN w hw batch hb
  · exact C75_qcnn hN w hw batch hb

/-- The parameters have the shapes of lines 113-120: `N → 8 → 8 → 1`. -/
def Shaped (d : Demo) (N : ℕ) (p : Net) : Prop :=
  p.weight.length = d.perQubit * N ∧ p.FC1.W.shape = [8, N] ∧ p.FC2.W.shape = [8, 8] ∧ p.FC3.W.shape = [1, 8]

/-- A layer of neurons: `o` gives `s(b_o + ∑ W_{oj} z_j)` with `s z = z` for positive and `z / 100` for negative `z`. -/
noncomputable def neurons (n : ℕ) (L : Linear) (z : ℕ → ℝ) (o : ℕ) : ℝ :=
  let a := L.b.get [o] + ∑ j ∈ range n, L.W.get [o, j] * z j
  max a (a / 100)

/-- What the network is meant to give for the sample `x`. -/
noncomputable def netValue (d : Demo) (N : ℕ) (p : Net) (x : List ℝ) : ℝ :=
  neurons 8 p.FC3 (neurons 8 p.FC2 (neurons N p.FC1
    (fun i => if h : i < N then qnnValue (d.items N p.weight) x ⟨i, h⟩ else 0))) 0

/-- C92: `qnet.forward` gives one number per sample, which depends on this sample only. -/
theorem C92_net (d : Demo) (hN : 2 ≤ N) (p : Net) (hp : Shaped d N p) (batch : List (List ℝ))
    (hb : GoodSamples N batch) :
    ∃ t, p.forward d.layers N batch = .ok t ∧ t.shape = [batch.length, 1] ∧
      ∀ k : Fin batch.length, t.get [(k : ℕ), 0] = netValue d N p batch[k] := by
  obtain ⟨t0, e0, s0, g0⟩ := demo_circuit d hN p.weight hp.1 batch hb
  obtain ⟨t1, e1, s1, g1⟩ := Linear.apply_ok s0 hp.2.1
  obtain ⟨s1', g1'⟩ := leaky_ok s1
  obtain ⟨t2, e2, s2, g2⟩ := Linear.apply_ok s1' hp.2.2.1
  obtain ⟨s2', g2'⟩ := leaky_ok s2
  obtain ⟨t3, e3, s3, g3⟩ := Linear.apply_ok s2' hp.2.2.2
  obtain ⟨s3', g3'⟩ := leaky_ok s3
  refine ⟨leaky_relu t3, ?_, s3', fun k => ?_⟩
  · unfold Net.forward
    rw [e0, Py.ok_bind, e1, Py.ok_bind]
    dsimp only
    rw [e2, Py.ok_bind, e3, Py.ok_bind]
  · have hk := k.2
    rw [g3' _ _ hk (by omega), g3 _ _ hk (by omega)]
    show _ = max (p.FC3.b.get [0] + _) _
    have h3 : ∑ j ∈ range 8, p.FC3.W.get [0, j] * (leaky_relu t2).get [(k : ℕ), j] =
        ∑ j ∈ range 8, p.FC3.W.get [0, j] * neurons 8 p.FC2 (neurons N p.FC1
          (fun i => if h : i < N then qnnValue (d.items N p.weight) batch[k] ⟨i, h⟩ else 0)) j := by
      refine sum_congr rfl fun j hj => ?_
      have hj := mem_range.1 hj
      rw [g2' _ _ hk hj, g2 _ _ hk hj]
      have h2 : ∑ i ∈ range 8, p.FC2.W.get [j, i] * (leaky_relu t1).get [(k : ℕ), i] =
          ∑ i ∈ range 8, p.FC2.W.get [j, i] * neurons N p.FC1
            (fun i => if h : i < N then qnnValue (d.items N p.weight) batch[k] ⟨i, h⟩ else 0) i := by
        refine sum_congr rfl fun i hi => ?_
        have hi := mem_range.1 hi
        rw [g1' _ _ hk hi, g1 _ _ hk hi]
        have h1 : ∑ l ∈ range N, p.FC1.W.get [i, l] * t0.get [(k : ℕ), l] = ∑ l ∈ range N, p.FC1.W.get [i, l] *
            (if h : l < N then qnnValue (d.items N p.weight) batch[k] ⟨l, h⟩ else 0) := by
          refine sum_congr rfl fun l hl => ?_
          have hl := mem_range.1 hl
          rw [dif_pos hl]
          have := g0 k ⟨l, hl⟩
          rw [← this]
        rw [h1]
        rfl
      rw [h2]
      rfl
    rw [h3]

/-- The mean square error of the network on labelled samples. -/
noncomputable def mse (d : Demo) (N : ℕ) (p : Net) (data : List (List ℝ × List ℝ)) : ℝ :=
  (data.map (fun s => (netValue d N p s.1 - s.2.getD 0 0) ^ 2)).sum / data.length

/-- Every label is one number. -/
def OneNumber (labels : List (List ℝ)) : Prop := ∀ y ∈ labels, y.length = 1

/-- C92: the loss of a nonempty batch is the mean square error of its samples, also for a batch of one sample, where
`squeeze` removes both dimensions. -/
theorem C92_loss (d : Demo) (hN : 2 ≤ N) (p : Net) (hp : Shaped d N p) (x y : List (List ℝ)) (hx : GoodSamples N x)
    (hy : OneNumber y) (hl : x.length = y.length) (h0 : x ≠ []) :
    batchLoss d.layers N p x y = .ok (mse d N p (x.zip y)) := by
  obtain ⟨t, et, st, gt⟩ := C92_net d hN p hp x hx
  have hy0 : y ≠ [] := by rintro rfl; simp at hl; exact h0 hl
  have sy : (Tensor.ofRows y).shape = [x.length, 1] := by
    obtain ⟨a, y', rfl⟩ := List.exists_cons_of_ne_nil hy0
    simp [Tensor.ofRows, Tensor.ofFn, hl, hy a (by simp)]
  have gy : ∀ k (hk : k < y.length), (Tensor.ofRows y).get [k, 0] = y[k].getD 0 0 := by
    intro k hk
    have : inB [y.length, (y.headD []).length] [k, 0] = true := by
      show inB (Tensor.ofRows y).shape [k, 0] = true
      rw [sy]; simp; omega
    unfold Tensor.ofRows
    rw [Tensor.get_ofFn this]
    simp [hk]
  unfold batchLoss
  rw [et, Py.ok_bind, mse_ok st sy]
  congr 1
  unfold mse
  rw [List.length_zip, ← hl, min_self]
  congr 1
  rw [← Fin.sum_univ_eq_sum_range (fun k => (t.get [k, 0] - (Tensor.ofRows y).get [k, 0]) ^ 2), ← Fin.sum_univ_getElem]
  rw [← Fin.sum_congr' _ (show x.length = ((x.zip y).map _).length by simp [hl])]
  refine sum_congr rfl fun k _ => ?_
  rw [gt k, gy k (by omega)]
  simp

/-! ## Batches -/

theorem select_ok (t : List (List ℝ)) (j : List ℕ) (h : ∀ i ∈ j, i < t.length) :
    selectRows t j = .ok (j.map (fun i => t.getD i [])) := by
  unfold selectRows
  refine mapM_ok j _ _ fun i hi => ?_
  rw [pyGet_nat (h i hi)]
  simp [h i hi]

theorem data_iter_eq {B : ℕ} (hB : 0 < B) {features labels : List (List ℝ)} (hl : features.length = labels.length)
    {indices : List ℕ} (hi : indices.Perm (List.range features.length)) :
    data_iter B features labels indices = .ok ((List.range ((features.length + B - 1) / B)).map (fun i =>
      let j := (indices.take (min (i * B + B) indices.length)).drop (i * B)
      (j.map (fun i => features.getD i []), j.map (fun i => labels.getD i [])))) := by
  have hn : indices.length = features.length := by rw [hi.length_eq, List.length_range]
  unfold data_iter batchIndices
  rw [raiseIf_false (by omega), Py.ok_bind, Py.ok_bind, hn]
  rw [mapM_ok _ _ (fun j => (j.map (fun i => features.getD i []), j.map (fun i => labels.getD i []))), List.map_map]
  · rfl
  · intro j hj
    obtain ⟨i, -, rfl⟩ := List.mem_map.1 hj
    have hm : ∀ a ∈ (indices.take (min (i * B + B) features.length)).drop (i * B), a < features.length := by
      intro a ha
      have := hi.subset (List.mem_of_mem_take (List.mem_of_mem_drop ha))
      simpa using this
    rw [select_ok _ _ hm, Py.ok_bind, select_ok _ _ (by rw [← hl]; exact hm), Py.ok_bind]

/-- C92: `data_iter`, for every outcome of the shuffle: every labelled sample occurs exactly once in the batches of
an epoch, every batch has `batch_size` samples except that the last one may have fewer, and none is empty. -/
theorem C92_batches (B : ℕ) (hB : 0 < B) (features labels : List (List ℝ)) (hl : features.length = labels.length)
    (indices : List ℕ) (hi : indices.Perm (List.range features.length)) :
    ∃ bs, data_iter B features labels indices = .ok bs ∧
      (bs.flatMap (fun b => b.1.zip b.2)).Perm (features.zip labels) ∧
      bs.length = (features.length + B - 1) / B ∧
      (∀ b ∈ bs, b.1.length = b.2.length ∧ 1 ≤ b.1.length ∧ b.1.length ≤ B) ∧
      ∀ b ∈ bs.dropLast, b.1.length = B := by
  have hn : indices.length = features.length := by rw [hi.length_eq, List.length_range]
  refine ⟨_, data_iter_eq hB hl hi, ?_, by simp, ?_, ?_⟩
  · rw [List.flatMap_map]
    have e : ∀ i : ℕ, (fun b : List (List ℝ) × List (List ℝ) => b.1.zip b.2)
        ((fun i : ℕ => let j := (indices.take (min (i * B + B) indices.length)).drop (i * B)
          (j.map (fun i => features.getD i []), j.map (fun i => labels.getD i []))) i) =
        ((indices.take (min (i * B + B) indices.length)).drop (i * B)).map
          (fun i => (features.getD i [], labels.getD i [])) := by
      intro i
      simp only
      rw [List.zip_map', ]
    simp only [e]
    rw [← List.map_flatMap, ← hn, chunks_flat hB]
    refine (hi.map _).trans (List.Perm.of_eq ?_)
    refine List.ext_getElem (by simp [hl]) fun k h1 h2 => ?_
    simp at h1
    simp [h1, ← hl]
  · intro b hb
    obtain ⟨i, hi', rfl⟩ := List.mem_map.1 hb
    have h1 : i + 1 ≤ (features.length + B - 1) / B := by simpa using hi'
    have h2 := (Nat.le_div_iff_mul_le hB).1 h1
    have h3 : (i + 1) * B = i * B + B := by ring
    simp only [List.length_map, List.length_drop, List.length_take, hn]
    have h4 : i * B < features.length := by omega
    clear h1 h2 h3
    refine ⟨by simp, by omega, by omega⟩
  · intro b hb
    rw [← List.map_dropLast] at hb
    obtain ⟨i, hi', rfl⟩ := List.mem_map.1 hb
    have h0 : i + 2 ≤ (features.length + B - 1) / B := by
      obtain ⟨k, hk, rfl⟩ := List.mem_iff_getElem.1 hi'
      simp at hk ⊢
      omega
    have h2 := (Nat.le_div_iff_mul_le hB).1 h0
    have h3 : (i + 2) * B = i * B + B + B := by ring
    simp only [List.length_map, List.length_drop, List.length_take, hn]
    rw [h3] at h2
    generalize i * B = t at *
    omega

/-- C92: batch size zero raises. -/
theorem C92_batch_zero (features labels : List (List ℝ)) (indices : List ℕ) :
    data_iter 0 features labels indices = .error .valueError := rfl

/-! ## Training -/

variable {σ : Type}

/-- The optimiser keeps the shapes of the parameters. -/
def KeepsShapes (d : Demo) (N : ℕ) (upd : σ → Net → List (List ℝ) → List (List ℝ) → σ × Net) : Prop :=
  ∀ st p x y, Shaped d N p → Shaped d N (upd st p x y).2

/-- Optimiser and parameters after the batches `bs`. -/
def afterBatches (upd : σ → Net → List (List ℝ) → List (List ℝ) → σ × Net) (st : σ) (p : Net)
    (bs : List (List (List ℝ) × List (List ℝ))) : σ × Net :=
  bs.foldl (fun s b => upd s.1 s.2 b.1 b.2) (st, p)

/-- Batches that can be evaluated. -/
def GoodBatches (N : ℕ) (bs : List (List (List ℝ) × List (List ℝ))) : Prop :=
  ∀ b ∈ bs, GoodSamples N b.1 ∧ OneNumber b.2 ∧ b.1.length = b.2.length ∧ b.1 ≠ []

/-- C92: one epoch: every batch makes one step, and the number reported is the error on the last batch only, with the
parameters before the step of this batch. -/
theorem C92_epoch (d : Demo) (hN : 2 ≤ N) (upd : σ → Net → List (List ℝ) → List (List ℝ) → σ × Net)
    (hu : KeepsShapes d N upd) (bs : List (List (List ℝ) × List (List ℝ))) (b : List (List ℝ) × List (List ℝ))
    (hb : GoodBatches N (bs ++ [b])) (st : σ) (p : Net) (hp : Shaped d N p) (l : Option ℝ) :
    inner upd d.layers N (bs ++ [b]) st p l = .ok ((afterBatches upd st p (bs ++ [b])).1,
      (afterBatches upd st p (bs ++ [b])).2, some (mse d N (afterBatches upd st p bs).2 (b.1.zip b.2))) := by
  induction bs generalizing st p l with
  | nil =>
    obtain ⟨h1, h2, h3, h4⟩ := hb b (by simp)
    simp only [List.nil_append, DemoNet.inner]
    rw [C92_loss d hN p hp _ _ h1 h2 h3 h4, Py.ok_bind]
    rfl
  | cons c bs ih =>
    obtain ⟨h1, h2, h3, h4⟩ := hb c (by simp)
    simp only [List.cons_append, DemoNet.inner]
    rw [C92_loss d hN p hp _ _ h1 h2 h3 h4, Py.ok_bind,
      ih (fun x hx => hb x (by simp at hx ⊢; tauto)) _ _ (hu _ _ _ _ hp)]
    rfl

theorem after_shaped {d : Demo} {upd : σ → Net → List (List ℝ) → List (List ℝ) → σ × Net} (hu : KeepsShapes d N upd)
    (bs : List (List (List ℝ) × List (List ℝ))) (st : σ) (p : Net) (hp : Shaped d N p) :
    Shaped d N (afterBatches upd st p bs).2 := by
  induction bs generalizing st p with
  | nil => exact hp
  | cons b bs ih => exact ih _ _ (hu _ _ _ _ hp)

theorem goodBatches_of {features labels : List (List ℝ)} (hf : GoodSamples N features) (hy : OneNumber labels)
    {bs : List (List (List ℝ) × List (List ℝ))} (hp : (bs.flatMap (fun b => b.1.zip b.2)).Perm (features.zip labels))
    (hb : ∀ b ∈ bs, b.1.length = b.2.length ∧ 1 ≤ b.1.length) : GoodBatches N bs := by
  intro b hbm
  obtain ⟨h1, h2⟩ := hb b hbm
  have hz : ∀ k (h : k < b.1.length), (b.1[k], b.2[k]'(by omega)) ∈ features.zip labels := by
    intro k h
    refine hp.subset (List.mem_flatMap.2 ⟨b, hbm, ?_⟩)
    rw [List.mem_iff_getElem]
    exact ⟨k, by simp; omega, by simp⟩
  refine ⟨fun x hx => ?_, fun y hy' => ?_, h1, by intro h; rw [h] at h2; simp at h2⟩
  · obtain ⟨k, hk, rfl⟩ := List.mem_iff_getElem.1 hx
    exact hf _ (List.of_mem_zip (hz k hk)).1
  · obtain ⟨k, hk, rfl⟩ := List.mem_iff_getElem.1 hy'
    exact hy _ (List.of_mem_zip (hz k (by omega))).2

theorem exists_batches {B : ℕ} (hB : 0 < B) {features labels : List (List ℝ)} (hl : features.length = labels.length)
    (h0 : features ≠ []) (hf : GoodSamples N features) (hy : OneNumber labels) {indices : List ℕ}
    (hi : indices.Perm (List.range features.length)) :
    ∃ bs b, data_iter B features labels indices = .ok (bs ++ [b]) ∧ GoodBatches N (bs ++ [b]) ∧
      ((bs ++ [b]).flatMap (fun b => b.1.zip b.2)).Perm (features.zip labels) ∧
      (bs ++ [b]).length = (features.length + B - 1) / B := by
  obtain ⟨cs, e, hp, hlen, hb, -⟩ := C92_batches B hB features labels hl indices hi
  have h1 : cs ≠ [] := by
    rintro rfl
    have := List.length_pos_iff.2 h0
    have h2 : 1 ≤ (features.length + B - 1) / B := (Nat.le_div_iff_mul_le hB).2 (by omega)
    simp at hlen
    omega
  have h2 := List.dropLast_append_getLast h1
  refine ⟨cs.dropLast, cs.getLast h1, by rw [h2]; exact e, ?_, by rw [h2]; exact hp, by rw [h2]; exact hlen⟩
  rw [h2]
  exact goodBatches_of hf hy hp fun b hb' => ⟨(hb b hb').1, (hb b hb').2.1⟩

/-- C92: training runs to its end, whatever the shuffles and whatever the optimiser does to the parameters, and reports
one number per epoch. -/
theorem C92_train (d : Demo) (hN : 2 ≤ N) (upd : σ → Net → List (List ℝ) → List (List ℝ) → σ × Net)
    (hu : KeepsShapes d N upd) (B : ℕ) (hB : 0 < B) (features labels : List (List ℝ))
    (hl : features.length = labels.length) (h0 : features ≠ []) (hf : GoodSamples N features) (hy : OneNumber labels)
    (shuffles : List (List ℕ)) (hs : ∀ i ∈ shuffles, i.Perm (List.range features.length)) (st : σ) (p : Net)
    (hp : Shaped d N p) (l : Option ℝ) :
    ∃ losses q, train upd d.layers N B features labels shuffles st p l = .ok (losses, q) ∧
      losses.length = shuffles.length ∧ Shaped d N q ∧ ∀ r ∈ losses, 0 ≤ r := by
  induction shuffles generalizing st p l with
  | nil => exact ⟨[], p, rfl, rfl, hp, by simp⟩
  | cons i rest ih =>
    obtain ⟨bs, b, e, hb, -, -⟩ := exists_batches hB hl h0 hf hy (hs i (by simp))
    have e2 := C92_epoch d hN upd hu bs b hb st p hp l
    obtain ⟨losses, q, e3, h3, h4, h5⟩ := ih (fun j hj => hs j (by simp [hj])) (afterBatches upd st p (bs ++ [b])).1
      (afterBatches upd st p (bs ++ [b])).2 (after_shaped hu _ _ _ hp)
      (some (mse d N (afterBatches upd st p bs).2 (b.1.zip b.2)))
    refine ⟨mse d N (afterBatches upd st p bs).2 (b.1.zip b.2) :: losses, q, ?_, by simp [h3], h4, ?_⟩
    · unfold train
      rw [e, Py.ok_bind, e2, Py.ok_bind]
      dsimp only
      rw [e3, Py.ok_bind]
    · intro r hr
      rcases List.mem_cons.1 hr with rfl | hr
      · unfold mse
        refine div_nonneg (List.sum_nonneg fun a ha => ?_) (by positivity)
        obtain ⟨s, -, rfl⟩ := List.mem_map.1 ha
        positivity
      · exact h5 r hr

/-- C92: without samples the first epoch ends with an error: `l` has no value. -/
theorem C92_no_samples (d : Demo) (upd : σ → Net → List (List ℝ) → List (List ℝ) → σ × Net) (B : ℕ) (hB : 0 < B)
    (rest : List (List ℕ)) (st : σ) (p : Net) :
    train upd d.layers N B [] [] ([] :: rest) st p none = .error .unboundLocal := by
  unfold train data_iter batchIndices
  rw [raiseIf_false (by omega), Py.ok_bind]
  have : (([] : List ℕ).length + B - 1) / B = 0 := by simp; omega
  rw [this]
  rfl

/-- C92: if one batch holds all samples, then the number reported in an epoch is the mean square error on all
samples.  In general it is not, see `C92_reported_false`. -/
theorem C92_reported_partial (d : Demo) (hN : 2 ≤ N) (upd : σ → Net → List (List ℝ) → List (List ℝ) → σ × Net)
    (hu : KeepsShapes d N upd) (B : ℕ) (features labels : List (List ℝ))
    (hl : features.length = labels.length) (h0 : features ≠ []) (hf : GoodSamples N features) (hy : OneNumber labels)
    (hB : features.length ≤ B) (indices : List ℕ) (hi : indices.Perm (List.range features.length)) (st : σ) (p : Net)
    (hp : Shaped d N p) (l : Option ℝ) :
    ∃ q, train upd d.layers N B features labels [indices] st p l = .ok ([mse d N p (features.zip labels)], q) := by
  have hpos := List.length_pos_iff.2 h0
  obtain ⟨bs, b, e, hb, hperm, hlen⟩ := exists_batches (B := B) (by omega) hl h0 hf hy hi
  have h1 : (features.length + B - 1) / B = 1 := by
    refine Nat.div_eq_of_lt_le (by omega) (by omega)
  obtain rfl : bs = [] := by
    rw [h1] at hlen
    simpa using hlen
  have e2 := C92_epoch d hN upd hu [] b hb st p hp l
  refine ⟨(afterBatches upd st p [b]).2, ?_⟩
  unfold train
  rw [e, Py.ok_bind, e2, Py.ok_bind]
  dsimp only
  rw [train, Py.ok_bind]
  simp only [List.nil_append, List.flatMap_cons, List.flatMap_nil, List.append_nil] at hperm
  have : mse d N (afterBatches upd st p []).2 (b.1.zip b.2) = mse d N p (features.zip labels) := by
    show mse d N p (b.1.zip b.2) = _
    unfold mse
    rw [(hperm.map _).sum_eq, hperm.length_eq]
  rw [this]
  rfl

/-- All parameters zero. -/
noncomputable def zeroNet (d : Demo) (N : ℕ) : Net :=
  ⟨List.replicate (d.perQubit * N) 0, ⟨.zeros [8, N], .zeros [8]⟩, ⟨.zeros [8, 8], .zeros [8]⟩, ⟨.zeros [1, 8], .zeros [1]⟩⟩

theorem zeroNet_shaped (d : Demo) (N : ℕ) : Shaped d N (zeroNet d N) := ⟨by simp [zeroNet], rfl, rfl, rfl⟩

theorem zeros_get (s idx : List ℕ) : (Tensor.zeros s : Tensor ℝ).get idx = 0 := by
  unfold Tensor.zeros Tensor.ofFn
  simp

theorem zeroNet_value (d : Demo) (N : ℕ) (x : List ℝ) : netValue d N (zeroNet d N) x = 0 := by
  unfold netValue neurons zeroNet
  simp [zeros_get]

/-- C92: the reported number is not the error of the network on the samples, not even for an optimiser that leaves the
parameters alone: two samples in two batches, where the report is 0 but the mean square error is 1/2. -/
theorem C92_reported_false (d : Demo) (hN : 2 ≤ N) :
    ∃ (features labels : List (List ℝ)) (indices : List ℕ) (p : Net), GoodSamples N features ∧ OneNumber labels ∧
      indices.Perm (List.range features.length) ∧ Shaped d N p ∧
      train (fun (s : Unit) p _ _ => (s, p)) d.layers N 1 features labels [indices] () p none = .ok ([0], p) ∧
      mse d N p (features.zip labels) = 1 / 2 := by
  have hf : GoodSamples N [[0], [0]] := by intro x hx; simp at hx; subst hx; simp; omega
  have hb : GoodBatches N ([([[0]], [[1]])] ++ [([[0]], [[0]])]) := by
    intro b hb
    simp at hb
    rcases hb with rfl | rfl <;> refine ⟨fun x hx => ?_, fun y hy => ?_, rfl, by simp⟩
    · simp at hx; subst hx; simp; omega
    · simp at hy; subst hy; rfl
    · simp at hx; subst hx; simp; omega
    · simp at hy; subst hy; rfl
  refine ⟨[[0], [0]], [[1], [0]], [0, 1], zeroNet d N, hf, by intro y hy; simp at hy; rcases hy with rfl | rfl <;> rfl,
    List.Perm.of_eq rfl, zeroNet_shaped d N, ?_, ?_⟩
  · have e := data_iter_eq (B := 1) (by omega) (features := [[0], [0]]) (labels := [[1], [0]]) rfl (indices := [0, 1])
      (List.Perm.of_eq rfl)
    have e2 := C92_epoch d hN (fun (s : Unit) p _ _ => (s, p)) (fun _ _ _ _ h => h) _ _ hb () (zeroNet d N)
      (zeroNet_shaped d N) none
    have e3 : data_iter 1 [[0], [0]] [[1], [0]] [0, 1] = .ok ([([[0]], [[1]])] ++ [([[0]], [[0]])]) := by
      rw [e]
      simp [List.range_succ]
    unfold train
    rw [e3, Py.ok_bind, e2, Py.ok_bind]
    dsimp only
    rw [train, Py.ok_bind]
    simp [mse, afterBatches, zeroNet_value]
  · simp [mse, zeroNet_value]

/-! ## What the networks can give -/

theorem neurons_le {n : ℕ} {L : Linear} {z : ℕ → ℝ} {M r β : ℝ} (hM : 0 ≤ M) (hz : ∀ j < n, |z j| ≤ M) (o : ℕ) (hb : |L.b.get [o]| ≤ β)
    (hr : ∑ j ∈ range n, |L.W.get [o, j]| ≤ r) : |neurons n L z o| ≤ r * M + β := by
  unfold neurons
  simp only
  set a := L.b.get [o] + ∑ j ∈ range n, L.W.get [o, j] * z j
  have h1 : |max a (a / 100)| ≤ |a| := by
    rcases le_total 0 a with h | h
    · rw [max_eq_left (by linarith)]
    · rw [max_eq_right (by linarith), abs_of_nonpos h, abs_of_nonpos (by linarith)]
      linarith
  refine h1.trans ((abs_add_le _ _).trans ?_)
  have h2 : |∑ j ∈ range n, L.W.get [o, j] * z j| ≤ r * M := by
    refine (abs_sum_le_sum_abs _ _).trans ?_
    refine le_trans (sum_le_sum fun j hj => ?_) (le_trans (le_of_eq (sum_mul _ _ _).symm) (mul_le_mul_of_nonneg_right hr hM))
    rw [abs_mul]
    exact mul_le_mul_of_nonneg_left (hz j (mem_range.1 hj)) (abs_nonneg _)
  linarith

theorem demo_range (d : Demo) (hN : 2 ≤ N) (w : List ℝ) (hw : w.length = d.perQubit * N) (x : List ℝ) (i : Fin N) :
    |qnnValue (d.items N w) x i| ≤ 4 := by
  have hwf : ∀ it ∈ d.items N w, it.WF := by
    cases d
    · exact qnnItems_wf hN hw
    · exact qcnnItems_wf hN hw
  have h := (Complex.abs_re_le_norm _).trans (braket_Z_le i (qnnState (d.items N w) x))
  rw [sqNorm_one (qnnState_norm hwf x)] at h
  unfold qnnValue
  rw [abs_mul, abs_of_pos (by norm_num : (0 : ℝ) < 4)]
  linarith

/-- C92: the output is bounded for all inputs, by the row sums `r₁, r₂, r₃` of the weights and the largest biases
`β₁, β₂, β₃` of the linear layers. -/
theorem C92_bounded (d : Demo) (hN : 2 ≤ N) (p : Net) (hp : Shaped d N p) (r₁ r₂ r₃ β₁ β₂ β₃ : ℝ)
    (h1 : ∀ o < 8, ∑ j ∈ range N, |p.FC1.W.get [o, j]| ≤ r₁ ∧ |p.FC1.b.get [o]| ≤ β₁)
    (h2 : ∀ o < 8, ∑ j ∈ range 8, |p.FC2.W.get [o, j]| ≤ r₂ ∧ |p.FC2.b.get [o]| ≤ β₂)
    (h3 : ∑ j ∈ range 8, |p.FC3.W.get [0, j]| ≤ r₃ ∧ |p.FC3.b.get [0]| ≤ β₃) (x : List ℝ) :
    |netValue d N p x| ≤ r₃ * (r₂ * (r₁ * 4 + β₁) + β₂) + β₃ := by
  have a1 : ∀ o < 8, |neurons N p.FC1 (fun i => if h : i < N then qnnValue (d.items N p.weight) x ⟨i, h⟩ else 0) o| ≤
      r₁ * 4 + β₁ := by
    intro o ho
    refine neurons_le (by norm_num) (fun j hj => ?_) o (h1 o ho).2 (h1 o ho).1
    rw [dif_pos hj]
    exact demo_range d hN _ hp.1 x _
  have a2 : ∀ o < 8, |neurons 8 p.FC2 (neurons N p.FC1
      (fun i => if h : i < N then qnnValue (d.items N p.weight) x ⟨i, h⟩ else 0)) o| ≤ r₂ * (r₁ * 4 + β₁) + β₂ :=
    fun o ho => neurons_le ((abs_nonneg _).trans (a1 0 (by omega))) a1 o (h2 o ho).2 (h2 o ho).1
  exact neurons_le ((abs_nonneg _).trans (a2 0 (by omega))) a2 0 h3.2 h3.1

/-- C92: the output does not change if an input changes by a multiple of `2π`. -/
theorem C92_period (d : Demo) (p : Net) (x : List ℝ) (m : ℕ) (hm : m < x.length) (θ : ℝ) (n : ℤ) :
    netValue d N p (x.set m (θ + n * (2 * Real.pi))) = netValue d N p (x.set m θ) := by
  have : ∀ i : Fin N, qnnValue (d.items N p.weight) (x.set m (θ + n * (2 * Real.pi))) i =
      qnnValue (d.items N p.weight) (x.set m θ) i := fun i =>
    ((trigPoly_enc Spec.Y (circuitOp (d.items N p.weight)) (onQubit i Spec.Z) x m hm).const_mul 4).periodic θ n
  unfold netValue
  simp only [this]

/-- Samples, labels, a shuffle and parameters that meet the hypotheses, for the three qubits of the demos. -/
example : GoodSamples 3 [[0.1], [0.2], [0.3]] ∧ OneNumber [[foo 0.1], [foo 0.2], [foo 0.3]] ∧
    [2, 0, 1].Perm (List.range ([[0.1], [0.2], [0.3]] : List (List ℝ)).length) ∧ Shaped .qnn 3 (zeroNet .qnn 3) ∧
    KeepsShapes .qnn 3 (fun (n : ℕ) p _ _ => (n + 1, { p with FC3 := ⟨p.FC3.W.mapT (· / 2), p.FC3.b⟩ })) := by
  refine ⟨?_, ?_, ?_, zeroNet_shaped _ _, fun _ _ _ _ h => h⟩
  · simp [GoodSamples]
  · simp [OneNumber]
  · show [2, 0, 1].Perm [0, 1, 2]
    decide

end QTN.Props
