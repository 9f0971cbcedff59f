import Verif.Lemmas.FitNet

/-! # Property C98: the regression scripts test_TN_train2.py and test_TN_train.py -/

namespace QTN.Props

open QTN QTN.Spec QTN.TrainNet Matrix Finset

variable {N : ℕ}

/-! ## What the networks give -/

/-- What `qnet` of test_TN_train2.py gives for the sample `x`: six times the real part of `Σ_a ψ(a) (Z ψ)(a)`. -/
noncomputable def net2Value (h : 0 < N) (w x : List ℝ) : ℝ :=
  6 * (∑ a, trainState N w x a * (onQubit (⟨0, h⟩ : Fin N) Spec.Z *ᵥ trainState N w x) a).re

/-- C98: `qnet.forward` of test_TN_train2.py gives one number per sample. -/
theorem C98_net {svd : SVDOracle} (hv : ValidSVD svd) (hN : 2 ≤ N) (w : List ℝ) (hw : w.length = 21 * N)
    (batch : List (List ℝ)) (hb : GoodBatch N batch) :
    ∃ t, net2 svd N w batch = .ok t ∧ t.shape = [batch.length] ∧
      ∀ k : Fin batch.length, t.get [(k : ℕ)] = net2Value (by omega : 0 < N) w batch[k] := by
  obtain ⟨t, s', e, hs, hg⟩ := C72_batched hv hN w hw batch hb
  rw [List.length_map] at hs
  have h1 : ((t.mapT (6 * ·)).shape) = [batch.length, 1] := by rw [← hs]; rfl
  refine ⟨Tensor.ofFn [batch.length] (fun idx => (t.mapT (6 * ·)).get [idx.getD 0 0, 0]), ?_, rfl, fun k => ?_⟩
  · unfold net2 firstColumn
    rw [e, Py.ok_bind]
    dsimp only
    rw [raiseIf_false (by unfold Tensor.rank; rw [h1]; simp), Py.ok_bind, h1]
    rfl
  · have hk := k.2
    rw [Tensor.get_ofFn (by simp)]
    simp only [List.getD_cons_zero]
    have : (t.mapT (6 * ·)).get [(k : ℕ), 0] = 6 * t.get [(k : ℕ), 0] := by
      unfold Tensor.mapT
      rw [Tensor.get_ofFn (by rw [hs]; simp)]
    rw [this, hg k (by simp)]
    simp [net2Value]

/-- The network never leaves `[-6, 6]`. -/
theorem C98_range (hN : 2 ≤ N) (w : List ℝ) (hw : w.length = 21 * N) (x : List ℝ) :
    |net2Value (by omega : 0 < N) w x| ≤ 6 := by
  have hn : norm2 (trainState N w x) = 1 := by
    unfold trainState
    rw [norm2_unitary (circuitOp_unitary _ fun it hit => (trainItems_wf hN hw it hit).1), encoded_norm]
  have hc : norm2 (fun a => star (trainState N w x a)) = 1 := by
    rw [← hn]
    unfold norm2
    congr 1
    exact sum_congr rfl fun a _ => by simp
  have e : (∑ a, trainState N w x a * (onQubit (⟨0, by omega⟩ : Fin N) Spec.Z *ᵥ trainState N w x) a) =
      ip (fun a => star (trainState N w x a)) (onQubit (⟨0, by omega⟩ : Fin N) Spec.Z *ᵥ trainState N w x) := by
    unfold ip
    exact sum_congr rfl fun a _ => by rw [star_star]
  unfold net2Value
  rw [e, abs_mul, abs_of_pos (by norm_num : (0 : ℝ) < 6)]
  have h1 := (Complex.abs_re_le_norm _).trans (ip_norm (fun a => star (trainState N w x a))
    (onQubit (⟨0, by omega⟩ : Fin N) Spec.Z *ᵥ trainState N w x))
  rw [hc, norm2_unitary (onQubit_unitary Z_u2 _), hn] at h1
  linarith

/-- C98: `qnet.forward` of test_TN_train.py, with its six qubits, gives one number per sample. -/
theorem C98_net1 {svd : SVDOracle} (hv : ValidSVD svd) (w : List ℝ) (hw : w.length = 43)
    (batch : List (List ℝ)) (hb : GoodBatch 6 batch) :
    ∃ t, net1 svd 6 w batch = .ok t ∧ t.shape = [batch.length] ∧
      ∀ k : Fin batch.length, |t.get [(k : ℕ)] - 4 * hybridValue (N := 6) (by omega) w batch[k]| ≤ 7.2e-6 := by
  obtain ⟨rs, s', e, hF⟩ := (C74_six hv w hw).2 batch hb
  have hl := hF.length_eq
  refine ⟨Tensor.ofFn [rs.length] (fun idx => rs.getD (idx.getD 0 0) 0), ?_, by rw [hl]; rfl, fun k => ?_⟩
  · unfold net1
    rw [e, Py.ok_bind]
  · have hk := k.2
    rw [Tensor.get_ofFn (by simp; omega)]
    simp only [List.getD_cons_zero]
    rw [List.getD_eq_getElem _ _ (by omega)]
    exact (List.forall₂_iff_get.1 hF).2 k (by omega) (by omega)

/-! ## The loss and the loop -/

/-- The labels of a batch as the loss sees them. -/
theorem labels_get {y : List (List ℝ)} (hy : OneNumber y) (h0 : y ≠ []) :
    (Tensor.ofRows y).shape = [y.length, 1] ∧ ∀ k (hk : k < y.length), (Tensor.ofRows y).get [k, 0] = y[k].getD 0 0 := by
  have sy : (Tensor.ofRows y).shape = [y.length, 1] := by
    obtain ⟨a, y', rfl⟩ := List.exists_cons_of_ne_nil h0
    simp [Tensor.ofRows, Tensor.ofFn, hy a (by simp)]
  refine ⟨sy, fun k hk => ?_⟩
  have : inB [y.length, (y.headD []).length] [k, 0] = true := by
    show inB (Tensor.ofRows y).shape [k, 0] = true
    rw [sy]; simp; omega
  unfold Tensor.ofRows
  rw [Tensor.get_ofFn this]
  simp [hk]

/-- C98: the loss of a nonempty batch is the mean square difference between the outputs and the labels. -/
theorem C98_loss (net : List ℝ → List (List ℝ) → Py (Tensor ℝ)) (w : List ℝ) (x y : List (List ℝ)) (t : Tensor ℝ)
    (ht : net w x = .ok t) (hs : t.shape = [x.length]) (hy : OneNumber y) (hl : x.length = y.length) (h0 : x ≠ []) :
    batchLoss net w x y =
      .ok ((∑ k : Fin x.length, (t.get [(k : ℕ)] - (y[k]'(by omega)).getD 0 0) ^ 2) / x.length) := by
  have hy0 : y ≠ [] := by rintro rfl; simp at hl; exact h0 hl
  obtain ⟨sy, gy⟩ := labels_get hy hy0
  rw [← hl] at sy
  unfold batchLoss
  rw [ht, Py.ok_bind, mse_row hs sy]
  congr 2
  rw [← Fin.sum_univ_eq_sum_range (fun k => (t.get [k] - (Tensor.ofRows y).get [k, 0]) ^ 2)]
  exact sum_congr rfl fun k _ => by rw [gy k (by omega)]; rfl

/-- The mean square error of the network of test_TN_train2.py on labelled samples. -/
noncomputable def mse2 (h : 0 < N) (w : List ℝ) (data : List (List ℝ × List ℝ)) : ℝ :=
  (data.map (fun s => (net2Value h w s.1 - s.2.getD 0 0) ^ 2)).sum / data.length

/-- C98: the loss of test_TN_train2.py is the mean square error of the network. -/
theorem C98_loss2 {svd : SVDOracle} (hv : ValidSVD svd) (hN : 2 ≤ N) (w : List ℝ) (hw : w.length = 21 * N)
    (x y : List (List ℝ)) (hx : GoodBatch N x) (hy : OneNumber y) (hl : x.length = y.length) :
    batchLoss (net2 svd N) w x y = .ok (mse2 (by omega : 0 < N) w (x.zip y)) := by
  obtain ⟨t, et, st, gt⟩ := C98_net hv hN w hw x hx
  rw [C98_loss _ w x y t et st hy hl hx.1]
  congr 1
  unfold mse2
  have hz : (x.zip y).length = x.length := by rw [List.length_zip, ← hl, min_self]
  rw [hz]
  congr 1
  rw [← Fin.sum_univ_getElem, ← Fin.sum_congr' _ (show x.length = ((x.zip y).map _).length by simp [hl])]
  refine sum_congr rfl fun k _ => ?_
  rw [gt k]
  simp

variable {σ : Type}

/-- Optimiser and weights after the batches `bs`. -/
def weightsAfter (upd : σ → List ℝ → List (List ℝ) → List (List ℝ) → σ × List ℝ) (st : σ) (w : List ℝ)
    (bs : List (List (List ℝ) × List (List ℝ))) : σ × List ℝ :=
  bs.foldl (fun s b => upd s.1 s.2 b.1 b.2) (st, w)

/-- The optimiser keeps the number of weights. -/
def KeepsLength (L : ℕ) (upd : σ → List ℝ → List (List ℝ) → List (List ℝ) → σ × List ℝ) : Prop :=
  ∀ st w x y, w.length = L → (upd st w x y).2.length = L

theorem goodBatch_of {bs : List (List (List ℝ) × List (List ℝ))} (h : GoodBatches N bs) :
    ∀ b ∈ bs, GoodBatch N b.1 := fun b hb => ⟨(h b hb).2.2.2, (h b hb).1⟩

/-- C98: one epoch of test_TN_train2.py: every batch makes one step, and the number reported is the error on the last
batch only, with the weights before the step of this batch. -/
theorem C98_epoch {svd : SVDOracle} (hv : ValidSVD svd) (hN : 2 ≤ N)
    (upd : σ → List ℝ → List (List ℝ) → List (List ℝ) → σ × List ℝ) (hu : KeepsLength (21 * N) upd)
    (bs : List (List (List ℝ) × List (List ℝ))) (b : List (List ℝ) × List (List ℝ))
    (hb : GoodBatches N (bs ++ [b])) (st : σ) (w : List ℝ) (hw : w.length = 21 * N) (l : Option ℝ) :
    TrainNet.inner upd (net2 svd N) (bs ++ [b]) st w l = .ok ((weightsAfter upd st w (bs ++ [b])).1,
      (weightsAfter upd st w (bs ++ [b])).2,
      some (mse2 (by omega : 0 < N) (weightsAfter upd st w bs).2 (b.1.zip b.2))) := by
  induction bs generalizing st w l with
  | nil =>
    obtain ⟨h1, h2, h3, h4⟩ := hb b (by simp)
    simp only [List.nil_append, TrainNet.inner]
    rw [C98_loss2 hv hN w hw _ _ ⟨h4, h1⟩ h2 h3, Py.ok_bind]
    rfl
  | cons c bs ih =>
    obtain ⟨h1, h2, h3, h4⟩ := hb c (by simp)
    simp only [List.cons_append, TrainNet.inner]
    rw [C98_loss2 hv hN w hw _ _ ⟨h4, h1⟩ h2 h3, Py.ok_bind,
      ih (fun x hx => hb x (by simp at hx ⊢; tauto)) _ _ (hu _ _ _ _ hw)]
    rfl

/-- The network answers every batch, with one number per sample. -/
def Answers (N L : ℕ) (net : List ℝ → List (List ℝ) → Py (Tensor ℝ)) : Prop :=
  ∀ w, w.length = L → ∀ x, GoodBatch N x → ∃ t, net w x = .ok t ∧ t.shape = [x.length]

theorem answers_net2 {svd : SVDOracle} (hv : ValidSVD svd) (hN : 2 ≤ N) : Answers N (21 * N) (net2 svd N) :=
  fun w hw x hx => let ⟨t, e, s, _⟩ := C98_net hv hN w hw x hx; ⟨t, e, s⟩

theorem answers_net1 {svd : SVDOracle} (hv : ValidSVD svd) : Answers 6 43 (net1 svd 6) :=
  fun w hw x hx => let ⟨t, e, s, _⟩ := C98_net1 hv w hw x hx; ⟨t, e, s⟩

theorem inner_runs {L : ℕ} {net : List ℝ → List (List ℝ) → Py (Tensor ℝ)} (ha : Answers N L net)
    {upd : σ → List ℝ → List (List ℝ) → List (List ℝ) → σ × List ℝ} (hu : KeepsLength L upd)
    (bs : List (List (List ℝ) × List (List ℝ))) (hb : GoodBatches N bs) (st : σ) (w : List ℝ) (hw : w.length = L)
    (l : Option ℝ) (h : bs ≠ [] ∨ ∃ r, l = some r ∧ 0 ≤ r) :
    ∃ r, 0 ≤ r ∧ TrainNet.inner upd net bs st w l = .ok ((weightsAfter upd st w bs).1, (weightsAfter upd st w bs).2, some r) ∧
      (weightsAfter upd st w bs).2.length = L := by
  induction bs generalizing st w l with
  | nil =>
    rcases h with h | ⟨r, rfl, hr⟩
    · exact absurd rfl h
    · exact ⟨r, hr, rfl, hw⟩
  | cons c bs ih =>
    obtain ⟨h1, h2, h3, h4⟩ := hb c (by simp)
    obtain ⟨t, et, st'⟩ := ha w hw c.1 ⟨h4, h1⟩
    obtain ⟨r, hr, e, hl⟩ := ih (fun x hx => hb x (by simp [hx])) (upd st w c.1 c.2).1 (upd st w c.1 c.2).2 (hu _ _ _ _ hw)
      (some ((∑ k : Fin c.1.length, (t.get [(k : ℕ)] - (c.2[k]'(by omega)).getD 0 0) ^ 2) / c.1.length))
      (Or.inr ⟨_, rfl, by positivity⟩)
    refine ⟨r, hr, ?_, hl⟩
    simp only [TrainNet.inner]
    rw [C98_loss net w _ _ t et st' h2 h3 h4, Py.ok_bind]
    exact e

/-- C98: training runs to its end, whatever the shuffles, the optimiser and the scheduler do, and reports one
nonnegative number per epoch. -/
theorem C98_train {L : ℕ} {net : List ℝ → List (List ℝ) → Py (Tensor ℝ)} (ha : Answers N L net)
    (upd : σ → List ℝ → List (List ℝ) → List (List ℝ) → σ × List ℝ) (hu : KeepsLength L upd) (sched : σ → σ)
    (B : ℕ) (hB : 0 < B) (features labels : List (List ℝ)) (hl : features.length = labels.length) (h0 : features ≠ [])
    (hf : GoodSamples N features) (hy : OneNumber labels) (shuffles : List (List ℕ))
    (hs : ∀ i ∈ shuffles, i.Perm (List.range features.length)) (st : σ) (w : List ℝ) (hw : w.length = L) (l : Option ℝ) :
    ∃ losses w', train upd sched net B features labels shuffles st w l = .ok (losses, w') ∧
      losses.length = shuffles.length ∧ w'.length = L ∧ ∀ r ∈ losses, 0 ≤ r := by
  induction shuffles generalizing st w l with
  | nil => exact ⟨[], w, rfl, rfl, hw, by simp⟩
  | cons i rest ih =>
    obtain ⟨bs, b, e, hb, -, -⟩ := exists_batches hB hl h0 hf hy (hs i (by simp))
    obtain ⟨r, hr, e2, hlen⟩ := inner_runs ha hu (bs ++ [b]) hb st w hw l (Or.inl (by simp))
    obtain ⟨losses, w', e3, h3, h4, h5⟩ := ih (fun j hj => hs j (by simp [hj]))
      (sched (weightsAfter upd st w (bs ++ [b])).1) (weightsAfter upd st w (bs ++ [b])).2 hlen (some r)
    refine ⟨r :: losses, w', ?_, by simp [h3], h4, by simpa using ⟨hr, h5⟩⟩
    unfold train
    rw [e, Py.ok_bind, e2, Py.ok_bind]
    dsimp only
    rw [e3, Py.ok_bind]

/-- C98: the points of the plot are the values of the network at the samples. -/
theorem C98_plotted {svd : SVDOracle} (hv : ValidSVD svd) (hN : 2 ≤ N) (w : List ℝ) (hw : w.length = 21 * N)
    (features : List (List ℝ)) (hf : GoodSamples N features) :
    plotted (net2 svd N) w features = .ok (features.map (net2Value (by omega : 0 < N) w)) := by
  have key : ∀ i ∈ List.range features.length, (do
      let t ← net2 svd N w ((features.drop i).take 1)
      toFloat t.squeeze : Py ℝ) = .ok (net2Value (by omega : 0 < N) w (features.getD i [])) := by
    intro i hi
    have hi' := List.mem_range.1 hi
    have e : (features.drop i).take 1 = [features[i]] := by
      rw [List.drop_eq_getElem_cons hi']
      rfl
    obtain ⟨t, et, st, gt⟩ := C98_net hv hN w hw [features[i]] ⟨by simp, by
      intro x hx; simp at hx; subst hx; exact hf _ (List.getElem_mem hi')⟩
    have sa : t.squeeze.shape = [] := by simp [Tensor.squeeze, Tensor.ofFn, st]
    have ga : t.squeeze.get [] = t.get [0] := by
      unfold Tensor.squeeze
      rw [Tensor.get_ofFn (by simp [st])]
      simp [st, Tensor.unsqIdx]
    rw [e, et, Py.ok_bind]
    unfold toFloat
    rw [raiseIf_false (by rw [sa]; simp), Py.ok_bind, sa]
    have := gt ⟨0, by simp⟩
    simp only at this
    rw [List.getD_eq_getElem _ _ hi']
    show Except.ok (t.squeeze.get []) = _
    rw [ga, this]
    rfl
  unfold plotted
  rw [mapM_ok _ _ _ key]
  congr 1
  apply List.ext_getElem
  · simp
  · intro k h1 h2
    simp at h1
    simp [h1]

/-! ## What the circuits can represent -/

/-- C98: a ring of CNOTs on three or more qubits turns bit 0 into the sum of the other bits, and bit `k > 0` into the sum
of the bits `0, …, k`, modulo 2. -/
theorem C98_ring (h3 : 3 ≤ N) (b c : Bits N)
    (hc : ∀ k : Fin N, c k = if (k : ℕ) = 0 then ∑ j : Fin N with 0 < j.val, b j else ∑ j : Fin N with j.val ≤ k.val, b j) :
    ringOp 1 (List.finRange N) *ᵥ Pi.single b 1 = Pi.single c 1 := by
  have : c = ringBits b := funext hc
  subst this
  funext a
  rw [ring_pd h3, Matrix.mulVec_single_one]
  simp [pd, Pi.single_apply]

/-- C98: on three or more qubits there are weights for which six times the expectation value of test_TN_train2.py is a
given wave `β + α sin(2 x + φ)` with `|β| ≤ |α| ≤ 3`, for all `x`, and then `forward1`, `forward2` and `forward3` return
it divided by six.  For an even number of qubits all final amplitudes are real for these weights, and `qnet` itself gives
the wave. -/
theorem C98_fit (h3 : 3 ≤ N) (α β φ : ℝ) (hα : |α| ≤ 3) (hβ : |β| ≤ |α|) :
    ∃ w : List ℝ, w.length = 21 * N ∧
      (∀ x, 6 * trainValue (by omega : 0 < N) w [x] = β + α * Real.sin (2 * x + φ)) ∧
      (N % 2 = 0 → ∀ x, (∀ a, (trainState N w [x] a).im = 0) ∧
        net2Value (by omega : 0 < N) w [x] = β + α * Real.sin (2 * x + φ)) := by
  obtain ⟨θ, p, q, h⟩ := fit_trig 6 α β φ (by norm_num) (by linarith) hβ
  set a : ℕ → ℝ := fun j => if j = 0 then p else q with ha
  have ht : ∀ x, 6 * trainValue (by omega : 0 < N) (weightsOf N (fitAngles a θ)) [x] = β + α * Real.sin (2 * x + φ) := by
    intro x
    rw [fit_train h3, ← h x]
    simp [ha]
  refine ⟨weightsOf N (fitAngles a θ), weightsOf_length _, ht, fun he x => ?_⟩
  have hr := fit_state_real h3 he a θ x
  refine ⟨hr, ?_⟩
  rw [← ht x]
  unfold net2Value trainValue
  rw [braket_eq, ← dotProduct_mulVec]
  congr 2
  refine Finset.sum_congr rfl fun c _ => ?_
  have : star (trainState N (weightsOf N (fitAngles a θ)) [x]) c = trainState N (weightsOf N (fitAngles a θ)) [x] c :=
    Complex.conj_eq_iff_im.2 (hr c)
  rw [this]

/-- C98: the circuit of test_TN_train.py, with two or more qubits, can represent all waves with `|β| ≤ |α| ≤ 2`: its
single ring is enough. -/
theorem C98_hybrid_fit (h2 : 2 ≤ N) (α β φ : ℝ) (hα : |α| ≤ 2) (hβ : |β| ≤ |α|) :
    ∃ w : List ℝ, w.length = 7 * N + 1 ∧
      ∀ x, 4 * hybridValue h2 w [x] = β + α * Real.sin (2 * x + φ) := by
  obtain ⟨θ, p, q, h⟩ := fit_trig 4 α β φ (by norm_num) (by linarith) hβ
  refine ⟨hybridW N (fun j => (if j = 0 then p else q) - Real.pi / 2) (Real.pi / 2 - θ), hybridW_length _ _, fun x => ?_⟩
  rw [fit_hybrid, ← h x, Real.sin_pi_div_two_sub]
  have hc : ∀ u : ℝ, Real.cos (u - Real.pi / 2 + x) = Real.sin (u + x) := by
    intro u
    rw [show u - Real.pi / 2 + x = u + x - Real.pi / 2 by ring, Real.cos_sub_pi_div_two]
  simp [hc]

/-- The labels of the scripts: the target and a noise from `[0, 1/1000]`. -/
def Noise (us : List ℝ) : Prop := ∀ u ∈ us, 0 ≤ u ∧ u ≤ 1

theorem noisy_labels {features : List (List ℝ)} {us : List ℝ} (hl : features.length = us.length) :
    (makeLabels features us).length = features.length ∧ OneNumber (makeLabels features us) ∧
      ∀ k (h : k < features.length), ((makeLabels features us).getD k []).getD 0 0 =
        2 * Real.sin (2 * features[k].getD 0 0 + 1.9) + us[k]'(by omega) / 1000 := by
  unfold makeLabels
  refine ⟨by simp [hl], ?_, fun k h => ?_⟩
  · intro y hy
    obtain ⟨i, hi, rfl⟩ := List.mem_iff_getElem.1 hy
    simp
  · have : (List.zipWith (fun x u => [foo (List.getD x 0 0) + 1e-3 * u]) features us).getD k [] =
        [foo (features[k].getD 0 0) + 1e-3 * us[k]'(by omega)] := by
      rw [List.getD_eq_getElem _ [] (by simp; omega)]
      simp
    rw [this, List.getD_cons_zero, foo]
    ring

theorem mean_le {n : ℕ} (hn : 0 < n) {f : Fin n → ℝ} {c : ℝ} (h : ∀ k, f k ≤ c) : (∑ k, f k) / n ≤ c := by
  have hn' : (0 : ℝ) < n := by exact_mod_cast hn
  rw [div_le_iff₀ hn']
  calc ∑ k, f k ≤ ∑ _k : Fin n, c := sum_le_sum fun k _ => h k
    _ = c * n := by simp [mul_comm]

theorem loss_le {net : List ℝ → List (List ℝ) → Py (Tensor ℝ)} {w : List ℝ} {ε : ℝ} {features : List (List ℝ)}
    {t : Tensor ℝ} (et : net w features = .ok t) (st : t.shape = [features.length])
    (gt : ∀ k : Fin features.length,
      |t.get [(k : ℕ)] - (5e-4 + 2 * Real.sin (2 * (features[k].getD 0 0) + 1.9))| ≤ ε)
    (h0 : features ≠ []) (us : List ℝ) (hl : features.length = us.length) (hu : Noise us) :
    ∃ l, batchLoss net w features (makeLabels features us) = .ok l ∧ l ≤ (5e-4 + ε) ^ 2 := by
  obtain ⟨h1, h2, h3⟩ := noisy_labels hl
  refine ⟨_, C98_loss net w features _ t et st h2 h1.symm h0, mean_le (List.length_pos_iff.2 h0) fun k => ?_⟩
  have hk := k.2
  have e := h3 k hk
  rw [List.getD_eq_getElem (makeLabels features us) [] (by omega)] at e
  have hg := gt k
  have hn := hu (us[(k : ℕ)]'(by omega)) (List.getElem_mem _)
  have e' : ((makeLabels features us)[k]'(by omega)).getD 0 0 =
      2 * Real.sin (2 * features[k].getD 0 0 + 1.9) + us[(k : ℕ)]'(by omega) / 1000 := e
  rw [e']
  rw [abs_le] at hg
  rw [sq_le_sq, abs_of_nonneg (a := 5e-4 + ε) (by linarith [hg.1, hg.2]), abs_le]
  constructor <;> linarith [hg.1, hg.2, hn.1, hn.2]

/-- C98: with an even number of qubits, four or more (the script has ten), some weights of test_TN_train2.py give on every
batch of its data a loss of at most `2.5e-7`, the largest variance of the noise. -/
theorem C98_fit_loss (h4 : 4 ≤ N) (he : N % 2 = 0) : ∃ w : List ℝ, w.length = 21 * N ∧
    ∀ svd, ValidSVD svd → ∀ (features : List (List ℝ)) (us : List ℝ), features ≠ [] → (∀ x ∈ features, x.length = 1) →
      features.length = us.length → Noise us →
      ∃ l, batchLoss (net2 svd N) w features (makeLabels features us) = .ok l ∧ l ≤ 2.5e-7 := by
  obtain ⟨w, hw, -, hf⟩ := C98_fit (N := N) (by omega) 2 5e-4 1.9 (by norm_num) (by norm_num)
  refine ⟨w, hw, fun svd hv features us h0 h1 hl hu => ?_⟩
  have hb : GoodBatch N features := ⟨h0, fun x hx => by
    have := h1 x hx
    refine ⟨by rintro rfl; simp at this, by omega⟩⟩
  obtain ⟨t, et, st, gt⟩ := C98_net hv (by omega) w hw features hb
  obtain ⟨l, e, h⟩ := loss_le (ε := 0) et st (fun k => by
    obtain ⟨a, ha⟩ := List.length_eq_one_iff.1 (h1 features[k] (List.getElem_mem _))
    rw [gt k, ha, (hf he a).2]
    simp) h0 us hl hu
  exact ⟨l, e, h.trans (by norm_num)⟩

/-- C98: the same for test_TN_train.py with its six qubits, up to the accuracy of its decompositions. -/
theorem C98_hybrid_loss : ∃ w : List ℝ, w.length = 43 ∧
    ∀ svd, ValidSVD svd → ∀ (features : List (List ℝ)) (us : List ℝ), features ≠ [] → (∀ x ∈ features, x.length = 1) →
      features.length = us.length → Noise us →
      ∃ l, batchLoss (net1 svd 6) w features (makeLabels features us) = .ok l ∧ l ≤ 2.6e-7 := by
  obtain ⟨w, hw, hf⟩ := C98_hybrid_fit (N := 6) (by omega) 2 5e-4 1.9 (by norm_num) (by norm_num)
  refine ⟨w, hw, fun svd hv features us h0 h1 hl hu => ?_⟩
  have hb : GoodBatch 6 features := ⟨h0, fun x hx => by
    have := h1 x hx
    refine ⟨by rintro rfl; simp at this, by omega⟩⟩
  obtain ⟨t, et, st, gt⟩ := C98_net1 hv w hw features hb
  obtain ⟨l, e, h⟩ := loss_le (ε := 7.2e-6) et st (fun k => by
    obtain ⟨a, ha⟩ := List.length_eq_one_iff.1 (h1 features[k] (List.getElem_mem _))
    have := gt k
    rw [ha, hf a] at this
    rw [ha]
    simpa using this) h0 us hl hu
  exact ⟨l, e, h.trans (by norm_num)⟩

/-! ## What they cannot represent -/

theorem wave_limit (h0 : 0 < N) {U : QOp N} (hU : IsUnitaryOp U) {k α β φ : ℝ} (hk : 0 < k)
    (h : ∀ x, k * (braket (onQubit (⟨0, h0⟩ : Fin N) Spec.Z) (U *ᵥ encOp Spec.X [x] (List.finRange N) *ᵥ ket0 N)).re =
      β + α * Real.sin (2 * x + φ)) : |α| ≤ k * Real.sqrt (1 - 1 / 2 ^ N) := by
  set s : ℝ → QState N := fun x => U *ᵥ encOp Spec.X [x] (List.finRange N) *ᵥ ket0 N with hs
  set x₁ : ℝ := (Real.pi / 2 - φ) / 2 with hx₁
  set x₂ : ℝ := (-(Real.pi / 2) - φ) / 2 with hx₂
  have hn : ∀ x, norm2 (s x) = 1 := fun x => by rw [hs]; exact (norm2_unitary hU _).trans (encoded_norm [x])
  have hH : (onQubit (⟨0, h0⟩ : Fin N) Spec.Z)ᴴ = onQubit ⟨0, h0⟩ Spec.Z := by
    rw [onQubit_conjTranspose, Z_conj]
  have hip : ip (s x₁) (s x₂) = ((Real.cos ((x₂ - x₁) / 2) ^ N : ℝ) : ℂ) := by
    rw [← enc_overlap, ← enc_single, ← enc_single, hs]
    beta_reduce
    rw [← ip_adj, mulVec_mulVec, hU.2, one_mulVec]
  have hov := braket_overlap (onQubit_unitary Z_u2 (⟨0, h0⟩ : Fin N)) hH (hn x₁) (hn x₂)
  have hc : Real.cos ((x₂ - x₁) / 2) ^ N * Real.cos ((x₂ - x₁) / 2) ^ N = 1 / 2 ^ N := by
    have : (x₂ - x₁) / 2 = -(Real.pi / 4) := by rw [hx₁, hx₂]; ring
    rw [this, Real.cos_neg, Real.cos_pi_div_four, ← mul_pow]
    have : Real.sqrt 2 / 2 * (Real.sqrt 2 / 2) = 1 / 2 := by
      have := Real.mul_self_sqrt (show (0 : ℝ) ≤ 2 by norm_num)
      linarith
    rw [this, div_pow, one_pow]
  rw [hip, Complex.ofReal_re, pow_two, hc] at hov
  have e1 := h x₁
  have e2 := h x₂
  rw [show 2 * x₁ + φ = Real.pi / 2 by rw [hx₁]; ring, Real.sin_pi_div_two] at e1
  rw [show 2 * x₂ + φ = -(Real.pi / 2) by rw [hx₂]; ring, Real.sin_neg, Real.sin_pi_div_two] at e2
  have hd : 2 * α = k * ((braket (onQubit (⟨0, h0⟩ : Fin N) Spec.Z) (s x₁)).re -
      (braket (onQubit (⟨0, h0⟩ : Fin N) Spec.Z) (s x₂)).re) := by
    rw [mul_sub]
    linarith
  have : 2 * |α| ≤ k * (2 * Real.sqrt (1 - 1 / 2 ^ N)) := by
    rw [← abs_two, ← abs_mul, hd, abs_mul, abs_of_pos hk, abs_two]
    exact mul_le_mul_of_nonneg_left hov hk.le
  linarith

/-- C98: no weights give a wave of amplitude six, the range of the network: the amplitude is at most `6 √(1 - 2^{-N})`, and
`4 √(1 - 2^{-N})` for test_TN_train.py. -/
theorem C98_limit (hN : 2 ≤ N) (α β φ : ℝ) :
    (∀ w : List ℝ, w.length = 21 * N → (∀ x, 6 * trainValue (by omega : 0 < N) w [x] = β + α * Real.sin (2 * x + φ)) →
      |α| ≤ 6 * Real.sqrt (1 - 1 / 2 ^ N)) ∧
    ∀ w : List ℝ, w.length = 7 * N + 1 → (∀ x, 4 * hybridValue hN w [x] = β + α * Real.sin (2 * x + φ)) →
      |α| ≤ 4 * Real.sqrt (1 - 1 / 2 ^ N) :=
  ⟨fun _ hw h => wave_limit (by omega) (circuitOp_unitary _ fun it hit => (trainItems_wf hN hw it hit).1) (by norm_num) h,
    fun _ hw h => wave_limit (by omega) (circuitOp_unitary _ fun it hit => (hybrid_wf hN hw it hit).1) (by norm_num) h⟩

/-! ## Examples -/

/-- The script test_TN_train2.py: ten qubits, batches of 64, three samples of which one batch is made, an optimiser that
shrinks the weights. -/
example : ∃ svd : SVDOracle, ValidSVD svd ∧ Answers 10 (21 * 10) (net2 svd 10) ∧
    KeepsLength (21 * 10) (fun (s : Unit) (w : List ℝ) _ _ => (s, w.map (· * 0.9))) ∧
    GoodSamples 10 [[0.1], [0.2], [0.3]] ∧ OneNumber (makeLabels [[0.1], [0.2], [0.3]] [0, 0.5, 1]) ∧
    GoodBatches 10 ([] ++ [([[0.1], [0.2], [0.3]], makeLabels [[0.1], [0.2], [0.3]] [0, 0.5, 1])]) ∧
    Noise [0, 0.5, 1] ∧ [2, 0, 1].Perm (List.range 3) := by
  obtain ⟨svd, hv⟩ := exists_validSVD
  refine ⟨svd, hv, answers_net2 hv (by omega), fun _ w _ _ h => by simpa using h, by intro x hx; simp at hx; rcases hx with rfl | rfl | rfl <;> simp,
    (noisy_labels rfl).2.1, ?_, by intro u hu; simp at hu; rcases hu with rfl | rfl | rfl <;> norm_num, by decide⟩
  intro b hb
  simp at hb
  subst hb
  exact ⟨by intro x hx; simp at hx; rcases hx with rfl | rfl | rfl <;> simp, (noisy_labels rfl).2.1, rfl, by simp⟩

/-- The target of the scripts, `2 sin(2 x + 1.9)`, is within the hypotheses of `C98_fit` and `C98_hybrid_fit`, and the wave
of `C98_limit` exists. -/
example : |(2 : ℝ)| ≤ 3 ∧ |(2 : ℝ)| ≤ 2 ∧ |(0 : ℝ)| ≤ |(2 : ℝ)| ∧ ∃ w : List ℝ, w.length = 21 * 10 ∧
    ∀ x, 6 * trainValue (by omega : 0 < 10) w [x] = 0 + 2 * Real.sin (2 * x + 1.9) := by
  obtain ⟨w, hw, h, -⟩ := C98_fit (N := 10) (by omega) 2 0 1.9 (by norm_num) (by norm_num)
  exact ⟨by norm_num, by norm_num, by norm_num, w, hw, h⟩

end QTN.Props
