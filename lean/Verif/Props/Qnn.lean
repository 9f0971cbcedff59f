import Verif.Lemmas.Rows
import Verif.Props.Hybrid

/-! # Properties C75 and C76: the demos of quantum neural networks and the Born machine -/

namespace QTN.Props

open QTN QTN.Spec Matrix

variable {N : ℕ}

/-- The `r`-th block of `3 N` weights. -/
def weightBlock (N : ℕ) (w : List ℝ) (r : ℕ) : List ℝ := (w.drop (3 * N * r)).take (3 * N)

/-- The circuit of test_qnn_demo.py: two entangling layers, then YZY layers with rings of CNOTs of the second kind
between them; block `r` of the weights belongs to the `r`-th layer with weights. -/
noncomputable def qnnItems (N : ℕ) (w : List ℝ) : List (Item N) :=
  [.basic (List.finRange N) (weightBlock N w 0) 1, .basic (List.finRange N) (weightBlock N w 1) 1,
    .layer .yzy (List.finRange N) (weightBlock N w 2), .ring2 (List.finRange N),
    .layer .yzy (List.finRange N) (weightBlock N w 3), .ring2 (List.finRange N),
    .layer .yzy (List.finRange N) (weightBlock N w 4)]

/-- The circuit of test_qcnn_demo.py. -/
noncomputable def qcnnItems (N : ℕ) (w : List ℝ) : List (Item N) :=
  [.layer .yzy (List.finRange N) (weightBlock N w 0), .ring (List.finRange N),
    .layer .yzy (List.finRange N) (weightBlock N w 1), .ring (List.finRange N),
    .layer .yzy (List.finRange N) (weightBlock N w 2), .ring2 (List.finRange N),
    .layer .yzy (List.finRange N) (weightBlock N w 3), .ring2 (List.finRange N),
    .basic (List.finRange N) (weightBlock N w 4) 1,
    .layer .yzy (List.finRange N) (weightBlock N w 5)]

/-- The circuit of test_qnn_demo_free.py. -/
noncomputable def freeItems (N : ℕ) (w : List ℝ) : List (Item N) :=
  [.layer .yzy (List.finRange N) (weightBlock N w 0), .ring (List.finRange N),
    .layer .yzy (List.finRange N) (weightBlock N w 1), .ring (List.finRange N),
    .layer .yzy (List.finRange N) (weightBlock N w 2), .ring2 (List.finRange N),
    .layer .yzy (List.finRange N) (weightBlock N w 3), .ring2 (List.finRange N),
    .layer .yzy (List.finRange N) (weightBlock N w 4), .ring (List.finRange N),
    .layer .yzy (List.finRange N) (weightBlock N w 5)]

/-- The state of the sample `x`: Y rotations by its entries on `|0…0⟩`, then the circuit. -/
noncomputable def qnnState (l : List (Item N)) (x : List ℝ) : QState N :=
  circuitOp l *ᵥ encOp Spec.Y x (List.finRange N) *ᵥ ket0 N

/-- What the network is meant to give for the sample `x` and the qubit `i`. -/
noncomputable def qnnValue (l : List (Item N)) (x : List ℝ) (i : Fin N) : ℝ :=
  4 * (braket (onQubit i Spec.Z) (qnnState l x)).re

theorem slc_block {w : List ℝ} {a b : ℕ} (r : ℕ) (ha : a = 3 * N * r) (hb : b = 3 * N * r + 3 * N) :
    slc w a b = weightBlock N w r := by
  subst ha hb
  unfold slc weightBlock
  rw [List.drop_take]
  congr 1
  omega

theorem weightBlock_length {w : List ℝ} {n r : ℕ} (hw : w.length = 3 * N * n) (hr : r < n) :
    (weightBlock N w r).length = 3 * N := by
  have : 3 * N * (r + 1) ≤ 3 * N * n := Nat.mul_le_mul_left _ hr
  rw [Nat.mul_add] at this
  unfold weightBlock
  rw [List.length_take, List.length_drop, hw]
  omega

theorem yzy_block_wf (hN : 2 ≤ N) {p : List ℝ} (hp : p.length = 3 * N) :
    (Item.layer (N := N) .yzy (List.finRange N) p).WF := by
  refine ⟨by omega, List.nodup_finRange N, ?_⟩
  simp only [List.length_finRange, show (LayerKind.yzy.axes).length = 3 from rfl, hp]
  try omega

theorem basic_block_wf (hN : 2 ≤ N) {p : List ℝ} (hp : p.length = 3 * N) :
    (Item.basic (N := N) (List.finRange N) p 1).WF := by
  refine ⟨List.nodup_finRange N, by simpa using hN, by omega, ?_⟩
  simp only [List.length_finRange, hp]
  omega

theorem qnnItems_wf (hN : 2 ≤ N) {w : List ℝ} (hw : w.length = 15 * N) : ∀ it ∈ qnnItems N w, it.WF := by
  have h : ∀ r, r < 5 → (weightBlock N w r).length = 3 * N :=
    fun r hr => weightBlock_length (n := 5) (by rw [hw]; ring) hr
  have hr : (Item.ring2 (List.finRange N)).WF := ⟨List.nodup_finRange N, by simpa using hN⟩
  intro it hit
  simp only [qnnItems, List.mem_cons, List.not_mem_nil, or_false] at hit
  rcases hit with rfl | rfl | rfl | rfl | rfl | rfl | rfl
  exacts [basic_block_wf hN (h 0 (by omega)), basic_block_wf hN (h 1 (by omega)),
    yzy_block_wf hN (h 2 (by omega)), hr, yzy_block_wf hN (h 3 (by omega)), hr, yzy_block_wf hN (h 4 (by omega))]

theorem qcnnItems_wf (hN : 2 ≤ N) {w : List ℝ} (hw : w.length = 18 * N) : ∀ it ∈ qcnnItems N w, it.WF := by
  have h : ∀ r, r < 6 → (weightBlock N w r).length = 3 * N :=
    fun r hr => weightBlock_length (n := 6) (by rw [hw]; ring) hr
  have hr : (Item.ring2 (List.finRange N)).WF := ⟨List.nodup_finRange N, by simpa using hN⟩
  have hr' : (Item.ring (List.finRange N)).WF := ⟨List.nodup_finRange N, by simpa using hN⟩
  intro it hit
  simp only [qcnnItems, List.mem_cons, List.not_mem_nil, or_false] at hit
  rcases hit with rfl | rfl | rfl | rfl | rfl | rfl | rfl | rfl | rfl | rfl
  exacts [yzy_block_wf hN (h 0 (by omega)), hr', yzy_block_wf hN (h 1 (by omega)), hr',
    yzy_block_wf hN (h 2 (by omega)), hr, yzy_block_wf hN (h 3 (by omega)), hr,
    basic_block_wf hN (h 4 (by omega)), yzy_block_wf hN (h 5 (by omega))]

theorem freeItems_wf (hN : 2 ≤ N) {w : List ℝ} (hw : w.length = 18 * N) : ∀ it ∈ freeItems N w, it.WF := by
  have h : ∀ r, r < 6 → (weightBlock N w r).length = 3 * N :=
    fun r hr => weightBlock_length (n := 6) (by rw [hw]; ring) hr
  have hr : (Item.ring2 (List.finRange N)).WF := ⟨List.nodup_finRange N, by simpa using hN⟩
  have hr' : (Item.ring (List.finRange N)).WF := ⟨List.nodup_finRange N, by simpa using hN⟩
  intro it hit
  simp only [freeItems, List.mem_cons, List.not_mem_nil, or_false] at hit
  rcases hit with rfl | rfl | rfl | rfl | rfl | rfl | rfl | rfl | rfl | rfl | rfl
  exacts [yzy_block_wf hN (h 0 (by omega)), hr', yzy_block_wf hN (h 1 (by omega)), hr',
    yzy_block_wf hN (h 2 (by omega)), hr, yzy_block_wf hN (h 3 (by omega)), hr,
    yzy_block_wf hN (h 4 (by omega)), hr', yzy_block_wf hN (h 5 (by omega))]

theorem ring2_call (c : Circuit) (ws : List (Fin N)) :
    c.ringOfCnot2 (wires ws) = c.addBuilt (itemCall (.ring2 ws)) := rfl

theorem qnn_calls (N : ℕ) (w : List ℝ) : Qnn.layers N w =
    (qnnItems N w).foldlM (fun c it => c.addBuilt (itemCall it)) (Circuit.new N) := by
  unfold Qnn.layers qnnItems
  rw [← wires_finRange, show (1 : ℤ) = ((1 : ℕ) : ℤ) from rfl,
    slc_block (N := N) (a := 0 * N) (b := 3 * N) 0 (by omega) (by omega), slc_block (N := N) (a := 3 * N) (b := 6 * N) 1 (by omega) (by omega),
    slc_block (N := N) (a := 6 * N) (b := 9 * N) 2 (by omega) (by omega), slc_block (N := N) (a := 9 * N) (b := 12 * N) 3 (by omega) (by omega),
    slc_block (N := N) (a := 12 * N) (b := 15 * N) 4 (by omega) (by omega)]
  simp only [yzy_call, ring2_call, basic_call, List.foldlM_cons, List.foldlM_nil, bind_pure]

theorem qcnn_calls (N : ℕ) (w : List ℝ) : Qnn.layersQcnn N w =
    (qcnnItems N w).foldlM (fun c it => c.addBuilt (itemCall it)) (Circuit.new N) := by
  unfold Qnn.layersQcnn qcnnItems
  rw [← wires_finRange, show (1 : ℤ) = ((1 : ℕ) : ℤ) from rfl,
    slc_block (N := N) (a := 0) (b := 3 * N) 0 (by omega) (by omega), slc_block (N := N) (a := 3 * N) (b := 6 * N) 1 (by omega) (by omega),
    slc_block (N := N) (a := 6 * N) (b := 9 * N) 2 (by omega) (by omega), slc_block (N := N) (a := 9 * N) (b := 12 * N) 3 (by omega) (by omega),
    slc_block (N := N) (a := 12 * N) (b := 15 * N) 4 (by omega) (by omega), slc_block (N := N) (a := 15 * N) (b := 18 * N) 5 (by omega) (by omega)]
  simp only [yzy_call, ring_call, ring2_call, basic_call, List.foldlM_cons, List.foldlM_nil, bind_pure]

theorem free_calls (N : ℕ) (w : List ℝ) : Qnn.layersFree N w =
    (freeItems N w).foldlM (fun c it => c.addBuilt (itemCall it)) (Circuit.new N) := by
  unfold Qnn.layersFree freeItems
  rw [← wires_finRange,
    slc_block (N := N) (a := 0) (b := 3 * N) 0 (by omega) (by omega), slc_block (N := N) (a := 3 * N) (b := 6 * N) 1 (by omega) (by omega),
    slc_block (N := N) (a := 6 * N) (b := 9 * N) 2 (by omega) (by omega), slc_block (N := N) (a := 9 * N) (b := 12 * N) 3 (by omega) (by omega),
    slc_block (N := N) (a := 12 * N) (b := 15 * N) 4 (by omega) (by omega), slc_block (N := N) (a := 15 * N) (b := 18 * N) 5 (by omega) (by omega)]
  simp only [yzy_call, ring_call, ring2_call, List.foldlM_cons, List.foldlM_nil, bind_pure]

/-- Every sample has at least one entry and at most one entry per qubit. -/
def GoodSamples (N : ℕ) (batch : List (List ℝ)) : Prop := ∀ x ∈ batch, x ≠ [] ∧ x.length ≤ N

theorem encodeBatch_ok (hN : 0 < N) (batch : List (List ℝ)) (hb : GoodSamples N batch) :
    ∃ phi, Qnn.encodeBatch N batch = .ok phi ∧ IsRows phi batch.length
      (fun k => encOp Spec.Y batch[k] (List.finRange N) *ᵥ ket0 N) := by
  have hrow : ∀ i, ∃ r : Tensor ℂ, ∀ h : i < batch.length, r.shape = [2 ^ N] ∧
      (∀ a : Bits N, r.get [enc a] = (encOp Spec.Y batch[i] (List.finRange N) *ᵥ ket0 N) a) ∧
      ∀ t, Qnn.encodeStep N batch t i = t.setFirst i r := by
    intro i
    by_cases h : i < batch.length
    · obtain ⟨h1, h2⟩ := hb batch[i] (List.getElem_mem h)
      obtain ⟨e, he, ⟨E, hE, rE⟩, -⟩ := C44_encoding hN batch[i] h1 h2 (List.finRange N) (List.nodup_finRange N)
        "Y" Spec.Y rfl
      obtain ⟨r, er, sr, gr⟩ := matmul_vec (t := (Circuit.new N).state_init) (v := ket0 N) rE rfl (fun a => by
        have e0 : enc (0 : Bits N) = 0 := by simp [enc]
        unfold Circuit.state_init
        rw [Tensor.get_ofFn (by simp [Circuit.new, enc_lt])]
        unfold ket0
        simp only [List.getD_cons_zero]
        by_cases ha : a = 0
        · subst ha; simp [e0]
        · rw [if_neg ha, if_neg (fun h => ha (enc_injective (by rw [h, e0])))])
      refine ⟨r, fun _ => ⟨sr, gr, fun t => ?_⟩⟩
      unfold Qnn.encodeStep
      rw [pyGet_nat h, Py.ok_bind, ← wires_finRange, he, Py.ok_bind, hE, Py.ok_bind, er, Py.ok_bind]
    · exact ⟨Tensor.zeros [], fun h' => absurd h' h⟩
  choose row hrow using hrow
  obtain ⟨t, et, st, gt⟩ := fill_rows (m := batch.length) (d := 2 ^ N) row (fun i hi => (hrow i hi).1)
    (fun i hi t => (hrow i hi).2.2 t)
  exact ⟨t, et, st, fun k a => by rw [gt _ _ k.2 (enc_lt a)]; exact (hrow k k.2).2.1 a⟩

theorem evolve_ok (hN : 0 < N) {layers : ℕ → List ℝ → Py Circuit} {w : List ℝ} {l : List (Item N)}
    (hl : layers N w = l.foldlM (fun c it => c.addBuilt (itemCall it)) (Circuit.new N))
    (hwf : ∀ it ∈ l, it.WF) (batch : List (List ℝ)) (hb : GoodSamples N batch) :
    ∃ phi, Qnn.evolve layers N w batch = .ok phi ∧ IsCols phi batch.length (fun k => qnnState l batch[k]) := by
  obtain ⟨phi, e1, h1⟩ := encodeBatch_ok hN batch hb
  obtain ⟨ops, hops, ⟨U, eU, rU⟩, -⟩ := C13_items N l hwf
  obtain ⟨psi, e2, h2⟩ := rows_permute h1
  obtain ⟨r, e3, h3⟩ := cols_matmul rU h2
  refine ⟨r, ?_, h3⟩
  unfold Qnn.evolve
  rw [e1, Py.ok_bind, hl, calls_ok _ hops, Py.ok_bind, eU, Py.ok_bind, e2, Py.ok_bind, e3]

theorem zmeasure_ok (N : ℕ) : ∃ Ms, Hybrid.Zmeasure N = .ok Ms ∧ ∃ h : Ms.length = N,
    ∀ i : Fin N, Represents (Ms[(i : ℕ)]'(by rw [h]; exact i.2)) (onQubit i Spec.Z) := by
  obtain ⟨Ms, e, hF⟩ := mapM_forall₂ (f := zObservable N) (R := fun k M => ∀ i : Fin N, k = wire i →
      Represents M (onQubit i Spec.Z)) (l := pyRange N) (fun k hk => by
    rw [← wires_finRange] at hk
    obtain ⟨i, -, rfl⟩ := List.mem_map.1 hk
    obtain ⟨M, eM, rM⟩ := zObservable_rep i
    refine ⟨M, eM, fun j hj => ?_⟩
    have : i = j := by
      unfold wire at hj
      exact Fin.ext (by exact_mod_cast hj)
    subst this
    exact rM)
  rw [← wires_finRange] at hF
  have hl : Ms.length = N := by rw [← hF.length_eq]; simp [wires]
  refine ⟨Ms, e, hl, fun i => ?_⟩
  have := (List.forall₂_iff_get.1 hF).2 i (by simp [wires]) (by rw [hl]; exact i.2)
  exact this i (by simp [wires])

/-- The forward pass, for any circuit made of layers. -/
theorem forward_ok (hN : 0 < N) {layers : ℕ → List ℝ → Py Circuit} {w : List ℝ} {l : List (Item N)}
    (hl : layers N w = l.foldlM (fun c it => c.addBuilt (itemCall it)) (Circuit.new N))
    (hwf : ∀ it ∈ l, it.WF) (batch : List (List ℝ)) (hb : GoodSamples N batch) :
    ∃ t, Qnn.forward layers N w batch = .ok t ∧ t.shape = [batch.length, N] ∧
      ∀ (k : Fin batch.length) (i : Fin N), t.get [(k : ℕ), (i : ℕ)] = qnnValue l batch[k] i := by
  obtain ⟨Ms, eM, hM, rM⟩ := zmeasure_ok N
  obtain ⟨phi, e1, h1⟩ := evolve_ok hN hl hwf batch hb
  obtain ⟨psi, e2, h2⟩ := cols_permute h1
  have hread : ∀ i : Fin N, _ := fun i => readOut_ok h2 (rM i)
  obtain ⟨ts, e3, hF⟩ := mapM_forall₂ (f := Qnn.readOut psi) (R := fun M t => Qnn.readOut psi M = .ok t) (l := Ms)
    (fun M hMem => by
      obtain ⟨n, hn, rfl⟩ := List.getElem_of_mem hMem
      obtain ⟨t, et, -⟩ := hread ⟨n, by omega⟩
      exact ⟨t, et, et⟩)
  have hlen : ts.length = N := by rw [← hF.length_eq, hM]
  have hts : ∀ (n : ℕ) (hn : n < ts.length), (ts[n]).shape = [batch.length, 1] ∧ ∀ k : Fin batch.length,
      (ts[n]).get [(k : ℕ), 0] = braket (onQubit ⟨n, by omega⟩ Spec.Z) (qnnState l batch[k]) := by
    intro n hn
    have h1 := (List.forall₂_iff_get.1 hF).2 n (by omega) hn
    obtain ⟨t, et, st, gt⟩ := hread ⟨n, by omega⟩
    have : ts[n] = t := by
      have h2 : Qnn.readOut psi Ms[n] = .ok t := et
      have h3 : Qnn.readOut psi Ms[n] = .ok ts[n] := h1
      rw [h2] at h3
      exact (Except.ok.inj h3).symm
    rw [this]
    exact ⟨st, gt⟩
  obtain ⟨t, et, st, gt⟩ := catList_columns ts (by intro h; rw [h] at hlen; simp at hlen; omega)
    (fun t ht => by
      obtain ⟨n, hn, rfl⟩ := List.getElem_of_mem ht
      exact (hts n hn).1)
  have hs : (t.smul 4).shape = [batch.length, N] := by rw [← hlen]; exact st
  refine ⟨(t.smul 4).mapT Complex.re, ?_, hs, fun k i => ?_⟩
  · unfold Qnn.forward
    rw [eM, Py.ok_bind, e1, Py.ok_bind, e2, Py.ok_bind, e3, Py.ok_bind, et, Py.ok_bind]
  · unfold Tensor.mapT
    rw [Tensor.get_ofFn (by rw [hs]; simp), Tensor.smul_get, gt k i (by rw [hlen]; exact i.2) k.2,
      (hts i (by rw [hlen]; exact i.2)).2 k]
    simp [qnnValue]

/-- C75: `qcir.forward` of test_qnn_demo.py: one row per sample, one column per qubit, and the entry is four
times `⟨Z⟩` of that qubit in the state of that sample.  An empty batch gives an empty result. -/
theorem C75_qnn (hN : 2 ≤ N) (w : List ℝ) (hw : w.length = 15 * N) (batch : List (List ℝ))
    (hb : GoodSamples N batch) :
    ∃ t, Qnn.forward Qnn.layers N w batch = .ok t ∧ t.shape = [batch.length, N] ∧
      ∀ (k : Fin batch.length) (i : Fin N), t.get [(k : ℕ), (i : ℕ)] = qnnValue (qnnItems N w) batch[k] i :=
  forward_ok (by omega) (qnn_calls N w) (qnnItems_wf hN hw) batch hb

/-- C75: the same for test_qcnn_demo.py. -/
theorem C75_qcnn (hN : 2 ≤ N) (w : List ℝ) (hw : w.length = 18 * N) (batch : List (List ℝ))
    (hb : GoodSamples N batch) :
    ∃ t, Qnn.forward Qnn.layersQcnn N w batch = .ok t ∧ t.shape = [batch.length, N] ∧
      ∀ (k : Fin batch.length) (i : Fin N), t.get [(k : ℕ), (i : ℕ)] = qnnValue (qcnnItems N w) batch[k] i :=
  forward_ok (by omega) (qcnn_calls N w) (qcnnItems_wf hN hw) batch hb

theorem qnnState_norm {l : List (Item N)} (hwf : ∀ it ∈ l, it.WF) (x : List ℝ) : norm2 (qnnState l x) = 1 := by
  have hu : IsUnitaryOp (encOp Spec.Y x (List.finRange N)) :=
    onEach_unitary fun j => by split_ifs; exacts [rot_u2 Y_conj Y_sq _, isU2_one]
  unfold qnnState
  rw [norm2_unitary (circuitOp_unitary l hwf), norm2_unitary hu, ket0_norm]

theorem sqNorm_one {v : QState N} (h : norm2 v = 1) : sqNorm v = 1 := by
  have h0 : 0 ≤ sqNorm v := by unfold sqNorm; positivity
  have : Real.sqrt (sqNorm v) = 1 := h
  rw [← Real.sq_sqrt h0, this]
  norm_num

/-- C75: the values of both networks are between −4 and 4. -/
theorem C75_range (hN : 2 ≤ N) (w : List ℝ) (batch : List (List ℝ)) (hb : GoodSamples N batch) :
    (w.length = 15 * N → ∃ t, Qnn.forward Qnn.layers N w batch = .ok t ∧
      ∀ k i, k < batch.length → i < N → t.get [k, i] ∈ Set.Icc (-4) 4) ∧
    (w.length = 18 * N → ∃ t, Qnn.forward Qnn.layersQcnn N w batch = .ok t ∧
      ∀ k i, k < batch.length → i < N → t.get [k, i] ∈ Set.Icc (-4) 4) := by
  have key : ∀ l : List (Item N), (∀ it ∈ l, it.WF) → ∀ x i, qnnValue l x i ∈ Set.Icc (-4) 4 := by
    intro l hwf x i
    have h := (Complex.abs_re_le_norm _).trans (braket_Z_le i (qnnState l x))
    rw [sqNorm_one (qnnState_norm hwf x)] at h
    have := abs_le.1 h
    unfold qnnValue
    constructor <;> linarith [this.1, this.2]
  constructor
  · intro hw
    obtain ⟨t, et, -, gt⟩ := C75_qnn hN w hw batch hb
    exact ⟨t, et, fun k i hk hi => by
      have := gt ⟨k, hk⟩ ⟨i, hi⟩
      rw [this]; exact key _ (qnnItems_wf hN hw) _ _⟩
  · intro hw
    obtain ⟨t, et, -, gt⟩ := C75_qcnn hN w hw batch hb
    exact ⟨t, et, fun k i hk hi => by
      have := gt ⟨k, hk⟩ ⟨i, hi⟩
      rw [this]; exact key _ (qcnnItems_wf hN hw) _ _⟩

/-- C75: the demo test_qnn_demo_free.py never gets past its forward pass: it hands the matrix of states to
`measure` as the number of qubits. -/
theorem C75_free (hN : 2 ≤ N) (w : List ℝ) (hw : w.length = 18 * N) (batch : List (List ℝ))
    (hb : GoodSamples N batch) : Qnn.forwardFree N w batch = .error .typeError := by
  obtain ⟨Ms, eM, hM, -⟩ := zmeasure_ok N
  obtain ⟨phi, e1, -⟩ := evolve_ok (by omega) (free_calls N w) (freeItems_wf hN hw) batch hb
  unfold Qnn.forwardFree
  rw [eM, Py.ok_bind, e1, Py.ok_bind]
  cases Ms with
  | nil => simp at hM; omega
  | cons M Ms => rfl

/-- C75: and with any weights and samples it never returns a result. -/
theorem C75_free_raises (hN : 0 < N) (w : List ℝ) (batch : List (List ℝ)) :
    Raises (Qnn.forwardFree N w batch) := by
  obtain ⟨Ms, eM, hM, -⟩ := zmeasure_ok N
  unfold Qnn.forwardFree
  rw [eM, Py.ok_bind]
  refine QTN.bind_raises fun phi _ => ?_
  cases Ms with
  | nil => simp at hM; omega
  | cons M Ms => exact ⟨_, rfl⟩

/-- C75: the lines it does not reach would average the columns of every sample. -/
theorem C75_free_mean (rst : Tensor ℝ) (m n : ℕ) (hs : rst.shape = [m, n]) :
    (Qnn.columnMean rst).shape = [m, 1] ∧
      ∀ k < m, (Qnn.columnMean rst).get [k, 0] = (∑ j ∈ Finset.range n, rst.get [k, j]) / n := by
  unfold Qnn.columnMean
  rw [hs]
  refine ⟨rfl, fun k hk => ?_⟩
  rw [Tensor.get_ofFn (by simp [hk])]
  simp [div_eq_mul_inv]

example : ∀ k < 1, (Qnn.columnMean (Tensor.ofRows [[1, 2, 6]])).get [k, 0] =
    (∑ j ∈ Finset.range 3, (Tensor.ofRows [[1, 2, 6]] : Tensor ℝ).get [k, j]) / (3 : ℕ) :=
  (C75_free_mean _ 1 3 rfl).2

/-- The hypotheses, for the six qubits of the demos. -/
example : GoodSamples 6 [[0.1, 0.2, 0.3, 0.4, 0.5, 0.6], [1]] ∧ (List.replicate 90 (0.3 : ℝ)).length = 15 * 6 ∧
    (List.replicate 108 (0.3 : ℝ)).length = 18 * 6 := by
  simp [GoodSamples]

/-! ## The Born machine -/

/-- The circuit of test_born_machine.py. -/
noncomputable def bornItems (N : ℕ) (w : List ℝ) : List (Item N) :=
  [.basic (List.finRange N) (w.take (15 * N)) 5, .layer .yzy (List.finRange N) (weightBlock N w 5)]

theorem bornItems_wf (hN : 2 ≤ N) {w : List ℝ} (hw : w.length = 18 * N) : ∀ it ∈ bornItems N w, it.WF := by
  intro it hit
  simp only [bornItems, List.mem_cons, List.not_mem_nil, or_false] at hit
  rcases hit with rfl | rfl
  · refine ⟨List.nodup_finRange N, by simpa using hN, by omega, ?_⟩
    simp only [List.length_finRange, List.length_take, hw]
    omega
  · exact yzy_block_wf hN (weightBlock_length (n := 6) (by rw [hw]; ring) (by omega))

theorem born_calls (N : ℕ) (w : List ℝ) : Born.layers N w =
    (bornItems N w).foldlM (fun c it => c.addBuilt (itemCall it)) (Circuit.new N) := by
  unfold Born.layers bornItems
  rw [← wires_finRange, show (5 : ℤ) = ((5 : ℕ) : ℤ) from rfl, slc_block (N := N) (a := 15 * N) (b := 18 * N) 5 (by omega) (by omega),
    show slc w 0 (15 * N) = w.take (15 * N) from rfl]
  simp only [yzy_call, basic_call, List.foldlM_cons, List.foldlM_nil, bind_pure]

/-- C76: the Born machine returns the distribution of a measurement of all qubits of its circuit on `|0…0⟩`:
`2^N` numbers, entry `a` (the outcomes read as binary numbers) is the probability of the outcome `a`. -/
theorem C76_born (hN : 2 ≤ N) (w : List ℝ) (hw : w.length = 18 * N) :
    ∃ t, Born.forward N w = .ok t ∧ t.shape = [2 ^ N] ∧
      ∀ a : Bits N, t.get [enc a] = ‖(circuitOp (bornItems N w) *ᵥ ket0 N) a‖ ^ 2 := by
  obtain ⟨ops, hops, ⟨U, eU, rU⟩, -⟩ := C13_items N _ (bornItems_wf hN hw)
  have h0 : ∃ c, (Props.circ N ops).state_init.view [-1, 1] = .ok c ∧ IsCol c (ket0 N) := by
    obtain ⟨ops', -, t, -, h1, -, h2, h3, -⟩ := C14_from_state_init N _ (bornItems_wf hN hw)
    rw [hops] at h1
    cases h1
    exact ⟨t, h2, h3⟩
  obtain ⟨c, ec, hc⟩ := h0
  have hn : c.numel = 2 ^ N := by simp [Tensor.numel, hc.1]
  have ec' : ∃ c', c.view [-1, 1] = .ok c' ∧ IsCol c' (ket0 N) := by
    refine ⟨c.reshapeN [2 ^ N, 1], Tensor.view_neg_first _ (2 ^ N) [1] (by simp [hn]) (by simp), rfl, fun a => ?_⟩
    rw [Tensor.reshapeN_get_eq (idx' := [enc a, 0]) (by simp [enc_lt]) (by rw [hc.1]; simp [enc_lt])
      (by rw [hc.1]), hc.2]
  obtain ⟨c', ec', hc'⟩ := ec'
  obtain ⟨s, es, hs⟩ := rU.mulCol hc'
  obtain ⟨r, er, hr⟩ := col_view_row hs
  have hrn : r.numel = 2 ^ N := by simp [Tensor.numel, hr.1]
  have hst : Born.state N w = .ok r := by
    unfold Born.state
    rw [born_calls, calls_ok _ hops, Py.ok_bind, ec, Py.ok_bind, eU, Py.ok_bind, ec', Py.ok_bind, es, Py.ok_bind, er]
  have hv : r.view [-1] = .ok (r.reshapeN [2 ^ N]) :=
    Tensor.view_neg_first _ (2 ^ N) [] (by simp [hrn]) (by simp)
  refine ⟨Tensor.ofFn [2 ^ N] (fun idx => ((r.reshapeN [2 ^ N]).mapT (fun z => ‖z‖)).get idx *
    ((r.reshapeN [2 ^ N]).mapT (fun z => ‖z‖)).get idx), ?_, rfl, fun a => ?_⟩
  · unfold Born.forward
    rw [hst, Py.ok_bind, hv, Py.ok_bind]
    dsimp only
    rw [pyAssert_true (by rfl), Py.ok_bind]
    rfl
  · have hg : ((r.reshapeN [2 ^ N]).mapT (fun z => ‖z‖)).get [enc a] =
        ‖(circuitOp (bornItems N w) *ᵥ ket0 N) a‖ := by
      unfold Tensor.mapT
      rw [Tensor.get_ofFn (by show inB [2 ^ N] _ = true; simp [enc_lt]),
        Tensor.reshapeN_get_eq (idx' := [0, enc a]) (by simp [enc_lt]) (by rw [hr.1]; simp [enc_lt])
        (by rw [hr.1]; simp [ravel]), hr.2]
    rw [Tensor.get_ofFn (by simp [enc_lt]), hg, sq]

/-- C76: the result is a probability distribution: no entry is negative and they sum to one. -/
theorem C76_distribution (hN : 2 ≤ N) (w : List ℝ) (hw : w.length = 18 * N) :
    ∃ t, Born.forward N w = .ok t ∧ t.shape = [2 ^ N] ∧ (∀ k, k < 2 ^ N → 0 ≤ t.get [k]) ∧
      ∑ k ∈ Finset.range (2 ^ N), t.get [k] = 1 := by
  obtain ⟨t, et, st, gt⟩ := C76_born hN w hw
  refine ⟨t, et, st, fun k hk => ?_, ?_⟩
  · obtain ⟨a, rfl⟩ := exists_enc hk
    rw [gt]
    positivity
  · rw [sum_enc N (fun k => t.get [k])]
    simp only [gt]
    refine sqNorm_one (v := circuitOp (bornItems N w) *ᵥ ket0 N) ?_
    rw [norm2_unitary (circuitOp_unitary _ (bornItems_wf hN hw)), ket0_norm]

example : (List.replicate 108 (0.3 : ℝ)).length = 18 * 6 := by simp

end QTN.Props
