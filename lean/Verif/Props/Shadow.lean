import Verif.Lemmas.Shadow
import Verif.Lemmas.Grad2Approx
import Verif.Props.Qnn

/-! # Property C77: the circuits of deepquantum/tests/shadow_circuit_demo.py -/

namespace QTN.Props

open QTN QTN.Spec Matrix

variable {n N : ℕ}

/-- The list of the qubits `s, …, s+n-1`. -/
def windowList (s : ℕ) (h : s + n ≤ N) : List (Fin N) := (List.finRange n).map (window s h)

/-- The circuit of the demo on the qubits `ws`: `repeats` entangling layers and a YZY layer. -/
noncomputable def shadowItems (ws : List (Fin N)) (repeats : ℕ) (w : List ℝ) : List (Item N) :=
  [.basic ws (w.take (3 * ws.length * repeats)) repeats, .layer .yzy ws (w.drop (3 * ws.length * repeats))]

/-- The norm of row `k` of a matrix with `M` columns. -/
noncomputable def rowNorm (x : Tensor ℝ) (M k : ℕ) : ℝ := Real.sqrt (∑ j ∈ Finset.range M, x.get [k, j] ^ 2)

/-- Row `k` of the matrix, divided by its norm (by `1e-12` if the norm is smaller) and filled up with zeros. -/
noncomputable def ampState (N : ℕ) (x : Tensor ℝ) (M k : ℕ) : QState N := fun a =>
  ((if enc a < M then x.get [k, enc a] / max (rowNorm x M k) 1e-12 else 0 : ℝ) : ℂ)

/-- The expectation value of `X ⊗ … ⊗ X` on the qubits `ws` after the circuit on these qubits. -/
noncomputable def shadowValue (ws : List (Fin N)) (repeats : ℕ) (w : List ℝ) (v : QState N) : ℝ :=
  (braket (onEach (fun j => if j ∈ ws then Spec.X else 1)) (circuitOp (shadowItems ws repeats w) *ᵥ v)).re

theorem windowList_length (s : ℕ) (h : s + n ≤ N) : (windowList s h).length = n := by simp [windowList]

theorem windowList_nodup (s : ℕ) (h : s + n ≤ N) : (windowList s h).Nodup :=
  (List.nodup_finRange n).map (window_injective s h)

theorem shadowItems_wf {ws : List (Fin N)} (hws : ws.Nodup) (h2 : 2 ≤ ws.length) {repeats : ℕ} (hr : 1 ≤ repeats)
    {w : List ℝ} (hw : w.length = 3 * ws.length * (repeats + 1)) : ∀ it ∈ shadowItems ws repeats w, it.WF := by
  have e : 3 * ws.length * (repeats + 1) = 3 * ws.length * repeats + 3 * ws.length := by ring
  have hN : 2 ≤ N := h2.trans (by simpa using hws.length_le_card)
  intro it hit
  simp only [shadowItems, List.mem_cons, List.not_mem_nil, or_false] at hit
  rcases hit with rfl | rfl
  · refine ⟨hws, h2, hr, ?_⟩
    rw [List.length_take, hw]
    omega
  · refine ⟨by omega, hws, ?_⟩
    rw [List.length_drop, hw, show (LayerKind.yzy.axes).length = 3 from rfl]
    omega

theorem embed_shadow (s : ℕ) (h : s + n ≤ N) (repeats : ℕ) (w : List ℝ) :
    embed (window s h) (circuitOp (shadowItems (List.finRange n) repeats w)) =
      circuitOp (shadowItems (windowList s h) repeats w) := by
  have hf := window_injective s h
  unfold circuitOp shadowItems
  rw [embed_timeOrdered hf]
  simp only [List.map_cons, List.map_nil, Item.op, embed_basicOp hf, embed_layerOp hf, windowList_length,
    List.length_finRange]
  rfl

theorem embed_XX (s : ℕ) (h : s + n ≤ N) :
    embed (window s h) (onEach (fun _ : Fin n => Spec.X)) =
      onEach (fun j => if j ∈ windowList s h then Spec.X else 1) := by
  refine embed_onEach (window_injective s h) _ _ (fun i => ?_) (fun j hj => ?_)
  · exact if_pos (List.mem_map_of_mem (List.mem_finRange i))
  · rw [if_neg]
    intro hm
    obtain ⟨i, -, rfl⟩ := List.mem_map.1 hm
    exact hj i rfl

/-- The observable of a window, and what it says on the whole register. -/
theorem observable_ok (h2 : 2 ≤ n) {repeats : ℕ} (hr : 1 ≤ repeats) {w : List ℝ}
    (hw : w.length = 3 * n * (repeats + 1)) :
    ∃ (temp : Tensor ℂ) (G : QOp n), Shadow.observable n repeats w = .ok temp ∧ Represents temp G ∧
      ∀ (N s : ℕ) (h : s + n ≤ N) (v : QState N),
        (braket (embed (window s h) G) v).re = shadowValue (windowList s h) repeats w v := by
  have hwf := shadowItems_wf (ws := List.finRange n) (List.nodup_finRange n) (by simpa using h2) hr
    (by simpa using hw)
  obtain ⟨ops, hops, ⟨U, eU, rU⟩, -⟩ := C13_items n _ hwf
  have hb : Shadow.build_circuit n repeats w = .ok U := by
    rw [← eU]
    unfold Shadow.build_circuit
    have e : slc w (3 * n * repeats) (3 * n * (repeats + 1)) = w.drop (3 * n * repeats) := by
      unfold slc
      rw [← hw, List.take_length]
    have e0 : slc w 0 (3 * n * repeats) = w.take (3 * n * repeats) := rfl
    have hc := calls_ok _ hops
    unfold shadowItems at hc
    rw [List.length_finRange] at hc
    rw [e, e0, ← wires_finRange]
    simp only [yzy_call, basic_call]
    simp only [List.foldlM_cons, List.foldlM_nil, bind_pure] at hc
    rw [← bind_assoc, hc, Py.ok_bind]
  obtain ⟨X, eX, rX⟩ := multi_kron_rep' (N := n) (by omega) (fun _ => pauliXMat) (fun _ => Spec.X)
    (fun _ => pauliXMat_rep)
  obtain ⟨D, eD, sD, gD⟩ := dag_ok rU.1
  have rD : Represents D (circuitOp (shadowItems (List.finRange n) repeats w))ᴴ :=
    ⟨sD, fun a b => by rw [gD _ _ (enc_lt a) (enc_lt b), rU.2]; rfl⟩
  obtain ⟨P, eP, rP⟩ := rD.matmul rX
  obtain ⟨Q, eQ, rQ⟩ := rP.matmul rU
  refine ⟨Q, _, ?_, rQ, fun N s h v => ?_⟩
  · unfold Shadow.observable
    rw [pyRep_nat, eX, Py.ok_bind, hb, Py.ok_bind, eD, Py.ok_bind, eP, Py.ok_bind, eQ]
  · have hf := window_injective s h
    unfold shadowValue
    rw [braket_mul, ← embed_mul hf, ← embed_mul hf, ← embed_conjTranspose, embed_shadow, embed_XX]

theorem normalization_ok {x : Tensor ℝ} {B M : ℕ} (hx : x.shape = [B, M]) :
    ∃ y, Shadow.normalization x = .ok y ∧ y.shape = [B, M] ∧
      ∀ k j, k < B → j < M → y.get [k, j] = x.get [k, j] / max (rowNorm x M k) 1e-12 := by
  refine ⟨_, by unfold Shadow.normalization; rw [hx], rfl, fun k j hk hj => ?_⟩
  rw [Tensor.get_ofFn (by simp [hk, hj])]
  rfl

theorem encoding_ok {x : Tensor ℝ} {B M : ℕ} (hx : x.shape = [B, M]) (hM : M ≤ 2 ^ N) :
    ∃ y st, Shadow.normalization x = .ok y ∧ Shadow.amplitude_encoding N (y.mapT Complex.ofReal) = .ok st ∧
      IsRows st B (fun k => ampState N x M k) := by
  obtain ⟨y, ey, sy, gy⟩ := normalization_ok hx
  have sy' : (y.mapT Complex.ofReal).shape = [B, M] := sy
  obtain ⟨st, est, sst, g1, g2⟩ := Tensor.cat1_ok sy'
    (rfl : (Tensor.zeros [B, 2 ^ N - M] : Tensor ℂ).shape = [B, 2 ^ N - M])
  refine ⟨y, st, ey, ?_, ?_, fun k a => ?_⟩
  · unfold Shadow.amplitude_encoding
    rw [sy']
    dsimp only
    rw [raiseIf_false (by omega), Py.ok_bind, est]
  · rw [sst, Nat.add_sub_cancel' hM]
  · unfold ampState
    dsimp only
    by_cases h : enc a < M
    · rw [g1 _ _ k.2 h, if_pos h]
      unfold Tensor.mapT
      rw [Tensor.get_ofFn (by rw [sy]; simp [h]), gy _ _ k.2 h]
    · have hlt := enc_lt a
      rw [if_neg h, show enc a = M + (enc a - M) by omega, g2 _ _ k.2 (by omega)]
      unfold Tensor.zeros
      rw [Tensor.get_ofFn (by simp; omega)]
      simp

/-- C77: `qcircuit.forward` (all samples and windows at once) returns one row per sample and one column per window of
`n` neighbouring qubits; the entry is the expectation value of `X ⊗ … ⊗ X` on the window, after the circuit on the
window, in the state that holds the normalised sample.  `qcircuit2.forward` (one at a time) returns the same tensor
if there is at least one sample. -/
theorem C77_shadow (h2 : 2 ≤ n) (hn : n ≤ N) {repeats : ℕ} (hr : 1 ≤ repeats) (w : List ℝ)
    (hw : w.length = 3 * n * (repeats + 1)) (x : Tensor ℝ) {B M : ℕ} (hx : x.shape = [B, M]) (hM : M ≤ 2 ^ N) :
    ∃ t, Shadow.forward N n repeats w x = .ok t ∧ (0 < B → Shadow.forward2 N n repeats w x = .ok t) ∧
      t.shape = [B, N - n + 1] ∧
      ∀ k s, k < B → ∀ h : s + n ≤ N, t.get [k, s] = shadowValue (windowList s h) repeats w (ampState N x M k) := by
  obtain ⟨temp, G, eT, rT, hG⟩ := observable_ok h2 hr hw
  obtain ⟨y, st, ey, est, hst⟩ := encoding_ok (N := N) hx hM
  obtain ⟨t, et, stt, gt⟩ := Shadow.cal_o_batch_ok eT rT hn hst
  refine ⟨t, ?_, fun hB => ?_, stt, fun k s hk h => ?_⟩
  · unfold Shadow.forward
    rw [ey, Py.ok_bind, est, Py.ok_bind, et]
  · have hrow : ∀ k, ∃ r : Tensor ℝ, ∀ hk : k < B, r.shape = [1, N - n + 1] ∧
        (∀ s (h : s + n ≤ N), r.get [0, s] = (braket (embed (window s h) G) (ampState N x M k)).re) ∧
        Shadow.forwardStep N n repeats w st none k = .ok (some r) ∧
        ∀ b : Tensor ℝ, Shadow.forwardStep N n repeats w st (some b) k = (do .ok (some (← b.catFirst r))) := by
      intro k
      by_cases hk : k < B
      · have hsel : st.select0 (k : ℤ) = .ok (Tensor.ofFn [2 ^ N] (fun idx => st.get (k :: idx))) := by
          unfold Tensor.select0
          rw [hst.1]
          dsimp only
          rw [wrapIdx_nat hk, Py.ok_bind]
        obtain ⟨o, eo, so, go⟩ := Shadow.cal_o_loop_ok (N := N)
          (state := Tensor.ofFn [2 ^ N] (fun idx => st.get (k :: idx))) (v := ampState N x M k) eT rT hn rfl (fun a => by
            rw [Tensor.get_ofFn (by simp [enc_lt])]
            exact hst.2 ⟨k, hk⟩ a)
        have ev : o.view [1, -1] = .ok (o.reshapeN [1, N - n + 1]) :=
          Tensor.view_neg_last o 1 (N - n + 1) (by simp [Tensor.numel, so]) (by omega)
        refine ⟨o.reshapeN [1, N - n + 1], fun _ => ⟨rfl, fun s h => ?_, ?_, fun b => ?_⟩⟩
        · rw [Tensor.reshapeN_get_eq (idx' := [s]) (by simp; omega) (by rw [so]; simp; omega)
            (by rw [so]; simp [ravel]), go s h]
        · unfold Shadow.forwardStep
          rw [hsel, Py.ok_bind, eo, Py.ok_bind, ev, Py.ok_bind]
        · unfold Shadow.forwardStep
          rw [hsel, Py.ok_bind, eo, Py.ok_bind, ev, Py.ok_bind]
      · exact ⟨Tensor.zeros [], fun h' => absurd h' hk⟩
    choose row hrow using hrow
    obtain ⟨t', et', st', gt'⟩ := cat_loop (m := B) (ds := [N - n + 1])
      (step := Shadow.forwardStep N n repeats w st) row hB (fun i hi => (hrow i hi).1) (hrow 0 hB).2.2.1
      (fun i hi => (hrow i hi).2.2.2)
    have htt : t' = t := by
      apply Tensor.ext'
      · rw [st', stt]
      · intro idx hi
        rw [st'] at hi
        match idx, hi with
        | [k, s], hi =>
          simp at hi
          rw [gt' k [s] hi.1 (by simp [hi.2]), (hrow k hi.1).2.1 s (by omega), gt ⟨k, hi.1⟩ s (by omega)]
        | [], hi => simp at hi
        | [_], hi => simp at hi
        | _ :: _ :: _ :: _, hi => simp at hi
    unfold Shadow.forward2
    rw [ey, Py.ok_bind, est, Py.ok_bind, hst.1]
    show (do
      match ← (List.range B).foldlM (Shadow.forwardStep N n repeats w st) none with
      | none => .error .unboundLocal
      | some o => .ok o : Py (Tensor ℝ)) = _
    rw [et', Py.ok_bind, htt]
  · rw [gt ⟨k, hk⟩ s h, hG]

/-- C77: with no sample the version with loops raises UnboundLocalError, while the other one returns an empty result
(`C77_shadow` with `B = 0`). -/
theorem C77_empty (n repeats : ℕ) (w : List ℝ) (x : Tensor ℝ) {M : ℕ} (hx : x.shape = [0, M]) (hM : M ≤ 2 ^ N) :
    Shadow.forward2 N n repeats w x = .error .unboundLocal := by
  obtain ⟨y, st, ey, est, hst⟩ := encoding_ok (N := N) hx hM
  unfold Shadow.forward2
  rw [ey, Py.ok_bind, est, Py.ok_bind, hst.1]
  rfl

/-- C77: samples with more than `2^N` entries raise ValueError. -/
theorem C77_too_long (n repeats : ℕ) (w : List ℝ) (x : Tensor ℝ) {B M : ℕ} (hx : x.shape = [B, M]) (hM : 2 ^ N < M) :
    Shadow.forward N n repeats w x = .error .valueError ∧ Shadow.forward2 N n repeats w x = .error .valueError := by
  obtain ⟨y, ey, sy, -⟩ := normalization_ok hx
  have e : Shadow.amplitude_encoding N (y.mapT Complex.ofReal) = .error .valueError := by
    unfold Shadow.amplitude_encoding
    rw [show (y.mapT Complex.ofReal).shape = [B, M] from sy]
    dsimp only
    rw [raiseIf_true hM, Py.error_bind]
  constructor
  · unfold Shadow.forward
    rw [ey, Py.ok_bind, e, Py.error_bind]
  · unfold Shadow.forward2
    rw [ey, Py.ok_bind, e, Py.error_bind]

theorem ampState_sqNorm {x : Tensor ℝ} {M k : ℕ} (hM : M ≤ 2 ^ N) :
    sqNorm (ampState N x M k) = (rowNorm x M k / max (rowNorm x M k) 1e-12) ^ 2 := by
  have hs : rowNorm x M k ^ 2 = ∑ j ∈ Finset.range M, x.get [k, j] ^ 2 :=
    Real.sq_sqrt (Finset.sum_nonneg fun _ _ => sq_nonneg _)
  rw [div_pow, hs]
  unfold sqNorm ampState
  generalize max (rowNorm x M k) 1e-12 = d
  have e : ∀ a : Bits N, ‖((if enc a < M then x.get [k, enc a] / d else 0 : ℝ) : ℂ)‖ ^ 2 =
      (fun j => if j < M then x.get [k, j] ^ 2 / d ^ 2 else 0) (enc a) := by
    intro a
    rw [Complex.norm_real, Real.norm_eq_abs, sq_abs]
    dsimp only
    split_ifs
    · rw [div_pow]
    · norm_num
  rw [Finset.sum_congr rfl fun a _ => e a, ← sum_enc N (fun j => if j < M then x.get [k, j] ^ 2 / d ^ 2 else 0), Finset.sum_div, ← Finset.sum_filter]
  refine Finset.sum_congr ?_ fun _ _ => rfl
  ext j
  simp only [Finset.mem_filter, Finset.mem_range]
  omega

/-- C77: the encoded sample has norm one, unless the norm of the sample is below `1e-12`; its norm is never above one. -/
theorem C77_norm {x : Tensor ℝ} {M k : ℕ} (hM : M ≤ 2 ^ N) :
    sqNorm (ampState N x M k) ≤ 1 ∧ (1e-12 ≤ rowNorm x M k → sqNorm (ampState N x M k) = 1) := by
  rw [ampState_sqNorm hM]
  have h0 : 0 ≤ rowNorm x M k := Real.sqrt_nonneg _
  constructor
  · have h1 : rowNorm x M k / max (rowNorm x M k) 1e-12 ≤ 1 :=
      div_le_one_of_le₀ (le_max_left _ _) (h0.trans (le_max_left _ _))
    have h2 : 0 ≤ rowNorm x M k / max (rowNorm x M k) 1e-12 := div_nonneg h0 (h0.trans (le_max_left _ _))
    exact pow_le_one₀ h2 h1
  · intro h
    rw [max_eq_left h, div_self (by intro e; rw [e] at h; norm_num at h), one_pow]

theorem braket_unitary_le {O : QOp N} (hO : IsUnitaryOp O) (v : QState N) : ‖braket O v‖ ≤ sqNorm v := by
  have e : braket O v = ip v (O *ᵥ v) := by
    rw [braket_eq, ← dotProduct_mulVec]
    rfl
  have h := ip_norm v (O *ᵥ v)
  rw [norm2_unitary hO] at h
  rw [e]
  refine h.trans (le_of_eq ?_)
  rw [← sq]
  exact norm2_sq v

/-- C77: all entries of the result are between −1 and 1. -/
theorem C77_range (h2 : 2 ≤ n) (hn : n ≤ N) {repeats : ℕ} (hr : 1 ≤ repeats) (w : List ℝ)
    (hw : w.length = 3 * n * (repeats + 1)) (x : Tensor ℝ) {B M : ℕ} (hx : x.shape = [B, M]) (hM : M ≤ 2 ^ N) :
    ∃ t, Shadow.forward N n repeats w x = .ok t ∧
      ∀ k s, k < B → s < N - n + 1 → t.get [k, s] ∈ Set.Icc (-1) 1 := by
  obtain ⟨t, et, -, -, gt⟩ := C77_shadow h2 hn hr w hw x hx hM
  refine ⟨t, et, fun k s hk hs => ?_⟩
  have h : s + n ≤ N := by omega
  rw [gt k s hk h]
  have hu := circuitOp_unitary _ (shadowItems_wf (windowList_nodup s h) (by rw [windowList_length]; exact h2) hr
    (by rw [windowList_length]; exact hw))
  have hX : IsUnitaryOp (onEach (fun j => if j ∈ windowList s h then Spec.X else 1)) :=
    onEach_unitary fun j => by split_ifs; exacts [X_u2, isU2_one]
  have hb := braket_unitary_le hX (circuitOp (shadowItems (windowList s h) repeats w) *ᵥ ampState N x M k)
  rw [sqNorm_unitary hu] at hb
  have := abs_le.1 ((Complex.abs_re_le_norm _).trans (hb.trans (C77_norm hM).1))
  exact ⟨this.1, this.2⟩

/-- The hypotheses, for ten qubits and windows of four as in the demo. -/
example : ∃ (x : Tensor ℝ) (w : List ℝ), x.shape = [16, 784] ∧ 784 ≤ 2 ^ 10 ∧ w.length = 3 * 4 * (4 + 1) ∧
    1e-12 ≤ rowNorm x 784 3 := by
  refine ⟨Tensor.ofFn [16, 784] (fun idx => if idx = [3, 5] then 1 else 0), List.replicate 60 0.3, rfl, by norm_num,
    by simp, ?_⟩
  unfold rowNorm
  rw [Finset.sum_eq_single 5]
  · rw [Tensor.get_ofFn (by rfl)]
    norm_num
  · intro j hj hne
    rw [Tensor.get_ofFn (by simpa using hj)]
    simp [hne]
  · simp

end QTN.Props
