import Verif.Model.Shadow
import Verif.Lemmas.Rows
import Verif.Lemmas.Window

/-! # The loops of shadow_circuit_demo.py -/

namespace QTN

open QTN.Spec Matrix

variable {n N : ℕ}

/-- Filling a tensor of zeros along its first dimension. -/
theorem fill_first {α : Type} [Zero α] {m : ℕ} {ds : List ℕ} {step : Tensor α → ℕ → Py (Tensor α)} (row : ℕ → Tensor α)
    (hrow : ∀ i, i < m → (row i).shape = ds) (hstep : ∀ i, i < m → ∀ t, step t i = t.setFirst i (row i)) :
    ∃ t, (List.range m).foldlM step (Tensor.zeros (m :: ds)) = .ok t ∧ t.shape = m :: ds ∧
      ∀ k idx, k < m → inB ds idx = true → t.get (k :: idx) = (row k).get idx := by
  have key : ∀ n, n ≤ m → ∃ t, (List.range n).foldlM step (Tensor.zeros (m :: ds)) = .ok t ∧
      t.shape = m :: ds ∧ ∀ k idx, k < n → inB ds idx = true → t.get (k :: idx) = (row k).get idx := by
    intro n
    induction n with
    | zero => exact fun _ => ⟨_, rfl, rfl, fun k j hk => by omega⟩
    | succ n ih =>
      intro hn
      obtain ⟨t, e, s, g⟩ := ih (by omega)
      refine ⟨Tensor.ofFn t.shape (fun idx => if idx.getD 0 0 = n then (row n).get idx.tail else t.get idx), ?_, s,
        fun k idx hk hi => ?_⟩
      · rw [List.range_succ, List.foldlM_append, e, Py.ok_bind, List.foldlM_cons, hstep n (by omega)]
        unfold Tensor.setFirst
        rw [s]
        simp only [if_pos (show n < m by omega), if_pos (hrow n (by omega)), Py.ok_bind, List.foldlM_nil]
        rfl
      · rw [Tensor.get_ofFn (by rw [s]; simp [hi]; omega)]
        simp only [List.getD_cons_zero, List.tail_cons]
        split_ifs with h
        · rw [h]
        · exact g k idx (by omega) hi
  exact key m le_rfl

/-- Collecting tensors with `torch.cat`, the first one without it. -/
theorem cat_loop {α : Type} [Zero α] {ds : List ℕ} {step : Option (Tensor α) → ℕ → Py (Option (Tensor α))}
    (row : ℕ → Tensor α) {m : ℕ} (hm : 0 < m) (hrow : ∀ i, i < m → (row i).shape = 1 :: ds)
    (h0 : step none 0 = .ok (some (row 0)))
    (hstep : ∀ i, i < m → ∀ b, step (some b) i = (do .ok (some (← b.catFirst (row i))))) :
    ∃ t, (List.range m).foldlM step none = .ok (some t) ∧ t.shape = m :: ds ∧
      ∀ k idx, k < m → inB ds idx = true → t.get (k :: idx) = (row k).get (0 :: idx) := by
  have key : ∀ n, n + 1 ≤ m → ∃ t, (List.range (n + 1)).foldlM step none = .ok (some t) ∧ t.shape = (n + 1) :: ds ∧
      ∀ k idx, k < n + 1 → inB ds idx = true → t.get (k :: idx) = (row k).get (0 :: idx) := by
    intro n
    induction n with
    | zero =>
      intro _
      refine ⟨row 0, ?_, hrow 0 hm, fun k idx hk _ => ?_⟩
      · rw [List.range_succ, List.range_zero, List.nil_append, List.foldlM_cons, h0]
        rfl
      · obtain rfl : k = 0 := by omega
        rfl
    | succ n ih =>
      intro hn
      obtain ⟨t, e, s, g⟩ := ih (by omega)
      obtain ⟨t', e', s', g1, g2⟩ := catFirst_ok s (hrow (n + 1) (by omega))
      refine ⟨t', ?_, s', fun k idx hk hi => ?_⟩
      · rw [List.range_succ, List.foldlM_append, e, Py.ok_bind, List.foldlM_cons, hstep (n + 1) (by omega), e']
        rfl
      · by_cases h : k < n + 1
        · rw [g1 k idx h hi, g k idx h hi]
        · obtain rfl : k = n + 1 := by omega
          exact g2 0 idx (by omega) hi
  obtain ⟨n, rfl⟩ : ∃ n, m = n + 1 := ⟨m - 1, by omega⟩
  exact key n le_rfl

/-- `⟨v|O|v⟩` as a `1 × 1` matrix. -/
theorem sandwich {t W : Tensor ℂ} {v : QState N} {O : QOp N} (hs : t.shape = [2 ^ N])
    (hv : ∀ a : Bits N, t.get [enc a] = v a) (hW : Represents W O) :
    ∃ c l p r : Tensor ℂ, t.view [-1, 1] = .ok c ∧ dag c = .ok l ∧ l.matmul W = .ok p ∧ p.matmul c = .ok r ∧
      r.shape = [1, 1] ∧ r.get [0, 0] = braket O v := by
  have hn : t.numel = 2 ^ N := by simp [Tensor.numel, hs]
  have hc : IsCol (t.reshapeN [2 ^ N, 1]) v := ⟨rfl, fun a => by
    rw [Tensor.reshapeN_get_eq (idx' := [enc a]) (by simp [enc_lt]) (by rw [hs]; simp [enc_lt])
      (by rw [hs]; simp [ravel]), hv]⟩
  obtain ⟨l, el, sl, gl⟩ := dag_ok hc.1
  have ep := Tensor.matmul2 sl hW.1
  have er := Tensor.matmul2 (rfl : (Tensor.ofFn [1, 2 ^ N] (fun idx =>
      ∑ x ∈ Finset.range (2 ^ N), l.get [idx.getD 0 0, x] * W.get [x, idx.getD 1 0])).shape = [1, 2 ^ N]) hc.1
  refine ⟨_, l, _, _, Tensor.view_neg_first _ (2 ^ N) [1] (by simp [hn]) (by simp), el, ep, er, rfl, ?_⟩
  rw [Tensor.matmul2_get rfl hc.1 er (by omega) (by omega), sum_enc, braket, Finset.sum_comm]
  refine Finset.sum_congr rfl fun b _ => ?_
  rw [Tensor.matmul2_get sl hW.1 ep (by omega) (enc_lt b), sum_enc, hc.2, Finset.sum_mul]
  refine Finset.sum_congr rfl fun a _ => ?_
  rw [gl _ _ (by omega) (enc_lt a), hc.2, hW.2]

namespace Shadow

/-- One pass of the loop of `qcircuit2.cal_o_lst`. -/
theorem loopStep_ok {temp state : Tensor ℂ} {G : QOp n} {v : QState N} (hT : Represents temp G)
    (hs : state.shape = [2 ^ N]) (hv : ∀ a : Bits N, state.get [enc a] = v a) {s : ℕ} (h : s + n ≤ N) :
    ∃ r : Tensor ℝ, r.shape = [] ∧ r.get [] = (braket (embed (window s h) G) v).re ∧
      ∀ o, loopStep N n temp state o (s : ℤ) = o.setFirst s r := by
  have hW := window_rep hT h (r := N - n - s) rfl
  obtain ⟨c, l, p, r, ec, el, ep, er, sr, gr⟩ := sandwich hs hv hW
  have hm : (r.mapT Complex.re).shape = [1, 1] := sr
  have hv' : (r.mapT Complex.re).view [] = .ok ((r.mapT Complex.re).reshapeN []) :=
    (r.mapT Complex.re).view_nat [] (by simp [Tensor.numel, hm])
  refine ⟨(r.mapT Complex.re).reshapeN [], rfl, ?_, fun o => ?_⟩
  · rw [Tensor.reshapeN_get_eq (idx' := [0, 0]) rfl (by rw [hm]; rfl) (by rw [hm]; rfl)]
    unfold Tensor.mapT
    rw [Tensor.get_ofFn (by rw [sr]; rfl), gr]
  · unfold loopStep
    have e1 : pyRep (Tensor.eye 2 : Tensor ℂ) (s : ℤ) = List.replicate s (Tensor.eye 2) := rfl
    have e2 : pyRep (Tensor.eye 2 : Tensor ℂ) ((N : ℤ) - n - s) = List.replicate (N - n - s) (Tensor.eye 2) := by
      unfold pyRep
      congr 1
      omega
    dsimp only
    rw [e1, e2, ec, Py.ok_bind, el, Py.ok_bind, Tensor.eyes_kron s (N - n - s) hT.1, Py.ok_bind, ep, Py.ok_bind, Py.ok_bind,
      er, Py.ok_bind, hv', Py.ok_bind, Int.toNat_natCast]

/-- `qcircuit2.cal_o_lst` -/
theorem cal_o_loop_ok {repeats : ℕ} {w : List ℝ} {temp state : Tensor ℂ} {G : QOp n} {v : QState N}
    (he : observable n repeats w = .ok temp) (hT : Represents temp G) (hn : n ≤ N)
    (hs : state.shape = [2 ^ N]) (hv : ∀ a : Bits N, state.get [enc a] = v a) :
    ∃ o, cal_o_loop N n repeats w state = .ok o ∧ o.shape = [N - n + 1] ∧
      ∀ (s : ℕ) (h : s + n ≤ N), o.get [s] = (braket (embed (window s h) G) v).re := by
  have hrow : ∀ s, ∃ r : Tensor ℝ, ∀ h : s + n ≤ N, r.shape = [] ∧ r.get [] = (braket (embed (window s h) G) v).re ∧
      ∀ o, loopStep N n temp state o (s : ℤ) = o.setFirst s r := by
    intro s
    by_cases h : s + n ≤ N
    · obtain ⟨r, hr⟩ := loopStep_ok hT hs hv h
      exact ⟨r, fun _ => hr⟩
    · exact ⟨Tensor.zeros [], fun h' => absurd h' h⟩
  choose row hrow using hrow
  obtain ⟨t, et, st, gt⟩ := fill_first (m := N - n + 1) (ds := []) (step := fun o s => loopStep N n temp state o (s : ℤ)) row
    (fun i hi => (hrow i (by omega)).1) (fun i hi => (hrow i (by omega)).2.2)
  refine ⟨t, ?_, st, fun s h => by rw [gt s [] (by omega) rfl]; exact (hrow s h).2.1⟩
  have e : ((N : ℤ) - n + 1).toNat = N - n + 1 := by omega
  unfold cal_o_loop
  dsimp only
  rw [raiseIf_false (by omega), Py.ok_bind, he, Py.ok_bind, pyRange, e, List.foldlM_map]
  exact et

/-- One matrix of `qcircuit.cal_o_lst`. -/
theorem collectStep_ok {temp : Tensor ℂ} {G : QOp n} (hT : Represents temp G) {s : ℕ} (h : s + n ≤ N) :
    ∃ W r : Tensor ℂ, Represents W (embed (window s h) G) ∧ r.shape = [1, 2 ^ N, 2 ^ N] ∧
      (∀ i j, i < 2 ^ N → j < 2 ^ N → r.get [0, i, j] = W.get [i, j]) ∧
      collectStep N n temp none (s : ℤ) = .ok (some r) ∧
      ∀ U : Tensor ℂ, collectStep N n temp (some U) (s : ℤ) = (do .ok (some (← U.catFirst r))) := by
  have hW := window_rep hT h (r := N - n - s) rfl
  generalize hWd : ((Tensor.eye (2 ^ s)).kron temp).kron (Tensor.eye (2 ^ (N - n - s))) = W at hW
  have em : multi_kron [Tensor.eye (2 ^ (s : ℤ).toNat), temp, Tensor.eye (2 ^ ((N : ℤ) - n - s).toNat)] = .ok W := by
    rw [← hWd, Int.toNat_natCast, show ((N : ℤ) - n - s).toNat = N - n - s by omega]
    rfl
  have ev : W.view [1, ((2 ^ N : ℕ) : ℤ), ((2 ^ N : ℕ) : ℤ)] = .ok (W.reshapeN [1, 2 ^ N, 2 ^ N]) :=
    Tensor.view3 W 1 (2 ^ N) (2 ^ N) (by simp [Tensor.numel, hW.1])
  refine ⟨W, W.reshapeN [1, 2 ^ N, 2 ^ N], hW, rfl, fun i j hi hj => ?_, ?_, fun U => ?_⟩
  · exact Tensor.reshapeN_get_eq (by simp [hi, hj]) (by rw [hW.1]; simp [hi, hj]) (by rw [hW.1]; simp [ravel])
  · unfold collectStep
    dsimp only
    rw [em, Py.ok_bind, ev, Py.ok_bind]
  · unfold collectStep
    dsimp only
    rw [em, Py.ok_bind, ev, Py.ok_bind]

/-- `qcircuit.cal_o_lst` -/
theorem cal_o_batch_ok {repeats : ℕ} {w : List ℝ} {temp st : Tensor ℂ} {G : QOp n} {B : ℕ} {v : Fin B → QState N}
    (he : observable n repeats w = .ok temp) (hT : Represents temp G) (hn : n ≤ N) (hs : IsRows st B v) :
    ∃ o, cal_o_batch N n repeats w st = .ok o ∧ o.shape = [B, N - n + 1] ∧
      ∀ (k : Fin B) (s : ℕ) (h : s + n ≤ N), o.get [(k : ℕ), s] = (braket (embed (window s h) G) (v k)).re := by
  have hrow : ∀ s, ∃ W r : Tensor ℂ, ∀ h : s + n ≤ N, Represents W (embed (window s h) G) ∧ r.shape = [1, 2 ^ N, 2 ^ N] ∧
      (∀ i j, i < 2 ^ N → j < 2 ^ N → r.get [0, i, j] = W.get [i, j]) ∧
      collectStep N n temp none (s : ℤ) = .ok (some r) ∧
      ∀ U : Tensor ℂ, collectStep N n temp (some U) (s : ℤ) = (do .ok (some (← U.catFirst r))) := by
    intro s
    by_cases h : s + n ≤ N
    · obtain ⟨W, r, hr⟩ := collectStep_ok hT h
      exact ⟨W, r, fun _ => hr⟩
    · exact ⟨Tensor.zeros [], Tensor.zeros [], fun h' => absurd h' h⟩
  choose W row hrow using hrow
  set S := N - n + 1 with hS
  obtain ⟨U, eU, sU, gU⟩ := cat_loop (m := S) (ds := [2 ^ N, 2 ^ N]) (step := fun o s => collectStep N n temp o (s : ℤ)) row
    (by omega) (fun i hi => (hrow i (by omega)).2.1) (hrow 0 (by omega)).2.2.2.1 (fun i hi => (hrow i (by omega)).2.2.2.2)
  -- the three operands
  have e1 : st.view [(B : ℤ), 1, ((2 ^ N : ℕ) : ℤ)] = .ok (st.reshapeN [B, 1, 2 ^ N]) :=
    Tensor.view3 st B 1 (2 ^ N) (by simp [Tensor.numel, hs.1])
  have g1 : ∀ (k : Fin B) (a : Bits N), (st.reshapeN [B, 1, 2 ^ N]).get [(k : ℕ), 0, enc a] = v k a := by
    intro k a
    rw [Tensor.reshapeN_get_eq (idx' := [(k : ℕ), enc a]) (by simp [enc_lt]) (by rw [hs.1]; simp [enc_lt])
      (by rw [hs.1]; simp [ravel]), hs.2]
  obtain ⟨r, er, sr, gr⟩ := Tensor.permute_fn (t := st.reshapeN [B, 1, 2 ^ N]) (Equiv.swap (1 : Fin 3) 2)
    (d := ![B, 1, 2 ^ N]) rfl (p := [0, 2, 1]) (by decide)
  have gr' : ∀ (k : Fin B) (a : Bits N), r.get [(k : ℕ), enc a, 0] = v k a := by
    intro k a
    have := gr ![(k : ℕ), enc a, 0] (by
      intro i
      fin_cases i
      exacts [k.2, enc_lt a, Nat.zero_lt_one])
    rw [← g1 k a]
    exact this
  have e2 : U.view [(S : ℤ), 1, ((2 ^ N : ℕ) : ℤ), ((2 ^ N : ℕ) : ℤ)] = .ok (U.reshapeN [S, 1, 2 ^ N, 2 ^ N]) :=
    Tensor.view4 U S 1 (2 ^ N) (2 ^ N) (by simp [Tensor.numel, sU, mul_assoc])
  have g2 : ∀ (s : ℕ) (h : s + n ≤ N) (a b : Bits N), (U.reshapeN [S, 1, 2 ^ N, 2 ^ N]).get [s, 0, enc a, enc b] =
      embed (window s h) G a b := by
    intro s h a b
    have hsS : s < S := by omega
    rw [Tensor.reshapeN_get_eq (idx' := [s, enc a, enc b]) (by simp [enc_lt, hsS]) (by rw [sU]; simp [enc_lt, hsS])
      (by rw [sU]; simp [ravel]), gU s [enc a, enc b] hsS (by simp [enc_lt]),
      (hrow s h).2.2.1 _ _ (enc_lt a) (enc_lt b), (hrow s h).1.2]
  -- the products
  have b1 : Tensor.bcast [B] [S, 1] = some [S, B] := by
    by_cases hB : B = 1 <;> simp [Tensor.bcast, Tensor.bcastRev, hB]
  have b2 : Tensor.bcast [S, B] [B] = some [S, B] := by simp [Tensor.bcast, Tensor.bcastRev]
  obtain ⟨p, ep, sp, gp⟩ := Tensor.matmul_nd (a := (st.reshapeN [B, 1, 2 ^ N]).conj)
    (b := U.reshapeN [S, 1, 2 ^ N, 2 ^ N]) (sa := [B]) (sb := [S, 1]) (n := 1) (k := 2 ^ N) (m := 2 ^ N) rfl rfl b1
  have sr' : r.shape = [B] ++ [2 ^ N, 1] := sr
  obtain ⟨q, eq, sq, gq⟩ := Tensor.matmul_nd (a := p) (b := r) (sa := [S, B]) (sb := [B]) sp sr' b2
  have sq' : (q.mapT Complex.re).shape = [S, B, 1] ++ [1] := sq
  obtain ⟨q1, eq1, sq1, gq1⟩ := Tensor.squeezeDim_last (t := q.mapT Complex.re) (s := [S, B, 1]) sq'
  obtain ⟨q2, eq2, sq2, gq2⟩ := Tensor.squeezeDim_last (t := q1) (s := [S, B]) sq1
  obtain ⟨o, eo, so, go⟩ := permute_swap sq2
  have hSz : ((N : ℤ) - n + 1) = (S : ℤ) := by omega
  refine ⟨o, ?_, so, fun k s h => ?_⟩
  · unfold cal_o_batch
    dsimp only
    rw [hs.1]
    show (do
      let state_batch ← st.view [(B : ℤ), 1, ((2 ^ N : ℕ) : ℤ)]
      _ : Py (Tensor ℝ)) = _
    rw [e1, Py.ok_bind, er, Py.ok_bind, he, Py.ok_bind, hSz, pyRange, Int.toNat_natCast, List.foldlM_map, eU, Py.ok_bind]
    dsimp only
    rw [e2, Py.ok_bind, ep, Py.ok_bind, eq, Py.ok_bind, eq1, Py.ok_bind, eq2, Py.ok_bind, eo]
  · have hsS : s < S := by omega
    have hidx : inB [S, B] [s, (k : ℕ)] = true := by simp [hsS]
    rw [go s k hsS k.2, gq2 [s, (k : ℕ)] hidx]
    show q1.get [s, (k : ℕ), 0] = _
    rw [gq1 [s, (k : ℕ), 0] (by simp [hsS])]
    show (q.mapT Complex.re).get [s, (k : ℕ), 0, 0] = _
    unfold Tensor.mapT
    rw [Tensor.get_ofFn (by rw [sq]; simp [hsS])]
    congr 1
    have i1 : Tensor.bIdx [B] [s, (k : ℕ)] = [(k : ℕ)] := by
      simp [Tensor.bIdx, one_idx k.2]
    have i2 : Tensor.bIdx [S, 1] [s, (k : ℕ)] = [s, 0] := by
      simp [Tensor.bIdx, one_idx hsS]
    have h1 := gq [s, (k : ℕ)] 0 0 hidx (by omega) (by omega)
    rw [i1, bIdx_self hidx] at h1
    simp only [List.cons_append, List.nil_append] at h1
    rw [h1, sum_enc, braket, Finset.sum_comm]
    refine Finset.sum_congr rfl fun b _ => ?_
    have h2 := gp [s, (k : ℕ)] 0 (enc b) hidx (by omega) (enc_lt b)
    rw [i1, i2] at h2
    simp only [List.cons_append, List.nil_append] at h2
    rw [h2, sum_enc, gr', Finset.sum_mul]
    refine Finset.sum_congr rfl fun a _ => ?_
    rw [g2 s h]
    unfold Tensor.conj
    rw [Tensor.get_ofFn (by show inB [B, 1, 2 ^ N] _ = true; simp [enc_lt]), g1]

end Shadow

end QTN
