import Verif.Lemmas.Quanv

/-! # Property C50: the quantum convolution -/

namespace QTN.Props

open QTN QTN.Spec QTN.QuanConv

/-- C50, partial (the full statement has no hypotheses `hK`, `fx`, `fy`; it is false without them, see
`C50_succeeds_iff`): for every image batch, stride and kernel size for which all visited windows fit
into the image, `forward` returns, every output position is assigned exactly once, and its value is
the measured value of the patch starting at `(x * stride, y * stride)`. -/
theorem C50_forward_partial (m : QuanConv) (hn : m.n_qubits = m.kernel_size ^ 2)
    (hw : m.weight.length = 3 * m.n_qubits) (hK : 2 ≤ m.kernel_size) (hs : 0 < m.stride) (img : Tensor ℝ)
    (batch ch lx ly : ℕ) (hi : img.shape = [batch, ch, lx, ly]) (hc : 0 < ch) (hx : m.kernel_size ≤ lx)
    (hy : m.kernel_size ≤ ly) (fx : WindowsFit lx m.kernel_size m.stride)
    (fy : WindowsFit ly m.kernel_size m.stride) :
    ∃ o, m.forwardOut img = .ok o ∧ m.forward img = .ok o.t ∧
      o.t.shape = [batch, m.kernel_size ^ 2, (lx - m.kernel_size) / m.stride + 1,
        (ly - m.kernel_size) / m.stride + 1] ∧
      o.written.Nodup ∧ (∀ idx, idx ∈ o.written ↔ inB o.t.shape idx = true) ∧
      ∀ b < batch, ∀ x < (lx - m.kernel_size) / m.stride + 1, ∀ y < (ly - m.kernel_size) / m.stride + 1,
        ∀ c : Fin m.n_qubits, o.t.get [b, c, x, y] = convValue
          (fun q r => m.weight.getD (3 * q + r) 0 * m.w_mul)
          (fun q => img.get [b, 0, x * m.stride + q / m.kernel_size, y * m.stride + q % m.kernel_size]) c := by
  have e := forward_ok m hn hw hK hs img hi hc hx hy fx fy
  have hwin : ∀ {n a : ℕ}, m.kernel_size ≤ n → WindowsFit n m.kernel_size m.stride →
      (a < (n - m.kernel_size) / m.stride + 1 ↔ a * m.stride < n) := by
    intro n a hn' hf
    rw [Nat.lt_succ_iff, Nat.le_div_iff_mul_le hs]
    constructor
    · intro h; omega
    · intro h; have := hf a h; omega
  refine ⟨_, e, by rw [forward, e]; rfl, by rw [puts_shape]; rfl, ?_, fun idx => ?_, ?_⟩
  · rw [puts_written]; exact writes_nodup _ hs
  · rw [puts_written, puts_shape, List.nil_append, List.mem_map]
    show _ ↔ inB [batch, m.kernel_size ^ 2, (lx - m.kernel_size) / m.stride + 1,
        (ly - m.kernel_size) / m.stride + 1] idx = true
    constructor
    · rintro ⟨w, hw', rfl⟩
      obtain ⟨b, c, x, y, hb, hc', hx', hy', rfl⟩ := (mem_writes _ _ hs).1 hw'
      simp [inB, hb, hc', (hwin hx fx).2 hx', (hwin hy fy).2 hy']
    · intro h
      match idx, h with
      | [b, c, x, y], h =>
        simp only [inB, Bool.and_eq_true, decide_eq_true_eq, and_true] at h
        obtain ⟨hb, hc', hx', hy'⟩ := h
        exact ⟨_, (mem_writes _ _ hs).2 ⟨b, c, x, y, hb, hc', (hwin hx fx).1 hx', (hwin hy fy).1 hy', rfl⟩, rfl⟩
      | [], h | [_], h | [_, _], h | [_, _, _], h | _ :: _ :: _ :: _ :: _ :: _, h => simp [inB] at h
  · intro b hb x hx' y hy' c
    have hc' : (c : ℕ) < m.kernel_size ^ 2 := by rw [← hn]; exact c.2
    refine puts_get _ _ (writes_nodup _ hs) _ _ ((mem_writes _ _ hs).2
      ⟨b, c, x, y, hb, hc', (hwin hx fx).1 hx', (hwin hy fy).1 hy', ?_⟩) ?_
    · rw [dif_pos c.2]; rfl
    · show inB [batch, m.kernel_size ^ 2, (lx - m.kernel_size) / m.stride + 1,
        (ly - m.kernel_size) / m.stride + 1] _ = true
      simp [inB, hb, hc', hx', hy']

/-- C50 is false in general: for a nonempty batch of images at least as large as the kernel, `forward`
returns exactly if the kernel size is at least 2 and all windows that start inside the image fit. -/
theorem C50_succeeds_iff (m : QuanConv) (hn : m.n_qubits = m.kernel_size ^ 2)
    (hw : m.weight.length = 3 * m.n_qubits) (hK : 1 ≤ m.kernel_size) (hs : 0 < m.stride) (img : Tensor ℝ)
    (batch ch lx ly : ℕ) (hi : img.shape = [batch, ch, lx, ly]) (hb : 0 < batch) (hc : 0 < ch)
    (hx : m.kernel_size ≤ lx) (hy : m.kernel_size ≤ ly) :
    (∃ T, m.forward img = .ok T) ↔
      2 ≤ m.kernel_size ∧ WindowsFit lx m.kernel_size m.stride ∧ WindowsFit ly m.kernel_size m.stride := by
  constructor
  · rintro ⟨T, hT⟩
    by_cases h2 : 2 ≤ m.kernel_size
    · refine ⟨h2, ?_⟩
      by_contra hf
      rw [forward, forward_short m hn hw h2 hs img hi hb hc hx hy hf] at hT
      cases hT
    · rw [forward, forward_one m hn hw (by omega) hs img hi hb hc (by omega) (by omega)] at hT
      cases hT
  · rintro ⟨h2, fx, fy⟩
    obtain ⟨o, -, h, -⟩ := C50_forward_partial m hn hw h2 hs img batch ch lx ly hi hc hx hy fx fy
    exact ⟨_, h⟩

/-- C50: a window that does not fit raises IndexError, and kernel size 1 raises ValueError. -/
theorem C50_errors (m : QuanConv) (hn : m.n_qubits = m.kernel_size ^ 2)
    (hw : m.weight.length = 3 * m.n_qubits) (hs : 0 < m.stride) (img : Tensor ℝ)
    (batch ch lx ly : ℕ) (hi : img.shape = [batch, ch, lx, ly]) (hb : 0 < batch) (hc : 0 < ch)
    (hx : m.kernel_size ≤ lx) (hy : m.kernel_size ≤ ly) :
    (2 ≤ m.kernel_size → ¬ (WindowsFit lx m.kernel_size m.stride ∧ WindowsFit ly m.kernel_size m.stride) →
      m.forward img = .error .indexError) ∧
    (m.kernel_size = 1 → m.forward img = .error .valueError) := by
  refine ⟨fun h2 hf => ?_, fun h1 => ?_⟩
  · rw [forward, forward_short m hn hw h2 hs img hi hb hc hx hy hf]; rfl
  · rw [forward, forward_one m hn hw h1 hs img hi hb hc (by omega) (by omega)]; rfl

/-- C50: a stride smaller than the kernel size never works. -/
theorem C50_overlap (n k s : ℕ) (hs : 0 < s) (hk : s < k) (hn : 0 < n) : ¬ WindowsFit n k s := by
  intro h
  have h1 := h ((n - 1) / s) (by have := Nat.div_mul_le_self (n - 1) s; omega)
  have h2 := Nat.lt_div_mul_add hs (a := n - 1)
  omega

/-- The setting of the demo: 28 × 28 pixels, kernel size 2, stride 2. -/
example : WindowsFit 28 2 2 := fun a h => by omega

example : ¬ WindowsFit 28 3 3 := fun h => by have := h 9 (by norm_num); omega

example : ∃ m : QuanConv, mkQuanConv 4 2 2 (List.replicate 12 0.5) 1 = .ok m ∧ m.n_qubits = m.kernel_size ^ 2 ∧
    m.weight.length = 3 * m.n_qubits ∧ 2 ≤ m.kernel_size ∧ 0 < m.stride :=
  ⟨_, rfl, rfl, rfl, le_rfl, by norm_num⟩

end QTN.Props
