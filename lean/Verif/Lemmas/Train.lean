import Verif.Model.Train
import Verif.Lemmas.ZeroState
import Verif.Props.Paths
import Verif.Props.Embedding

/-! # Building blocks of the training programs -/

namespace QTN

open Finset Spec Matrix

variable {N : ℕ}

/-! ## Circuits built by method calls -/

/-- The call that constructs an item, with the number of qubits still open. -/
noncomputable def itemCall {N : ℕ} : Item N → ℤ → Py Op
  | .gate ins => fun _ => do .ok (.gate (← build ins))
  | .layer k ws p => fun n => do .ok (.single (← mkSLayer (layerCls k) n (wires ws) p))
  | .hlayer ws => fun n => do .ok (.single (← mkSLayer .h n (wires ws) []))
  | .ring ws => fun n => do .ok (.ring (← mkRing .ring n (wires ws)))
  | .ringDag ws => fun n => do .ok (.ring (← mkRing .dagger n (wires ws)))
  | .ring2 ws => fun n => do .ok (.ring (← mkRing .ring2 n (wires ws)))
  | .basic ws p reps => fun n => do .ok (.basic (← mkBasic n (wires ws) p false reps))

theorem itemCall_eq (it : Item N) : itemCall it N = buildItem it := by cases it <;> rfl

theorem calls_from (l : List (Item N)) (c : Circuit) (hc : c.nqubits = N) {ops : List Op}
    (h : l.mapM buildItem = .ok ops) :
    l.foldlM (fun c it => c.addBuilt (itemCall it)) c = .ok (ops.foldl Circuit.add c) := by
  induction l generalizing c ops with
  | nil => cases h; rfl
  | cons it l ih =>
    rw [List.mapM_cons] at h
    cases ho : buildItem it with
    | error e => rw [ho, Py.error_bind] at h; cases h
    | ok o =>
      rw [ho, Py.ok_bind] at h
      cases hr : l.mapM buildItem with
      | error e => rw [hr, Py.error_bind] at h; cases h
      | ok os =>
        rw [hr, Py.ok_bind] at h
        cases h
        rw [List.foldlM_cons]
        have e : c.addBuilt (itemCall it) = .ok (c.add o) := by
          unfold Circuit.addBuilt
          rw [hc, itemCall_eq, ho, Py.ok_bind]
        rw [e, Py.ok_bind, ih (c.add o) (by rw [← hc]; exact adds_nqubits c [o]) hr]
        rfl

/-- Calling the methods one after the other gives the circuit of the items. -/
theorem calls_ok (l : List (Item N)) {ops : List Op} (h : l.mapM buildItem = .ok ops) :
    l.foldlM (fun c it => c.addBuilt (itemCall it)) (Circuit.new N) = .ok (Props.circ N ops) :=
  calls_from l _ rfl h

/-! ## The initial state -/

/-- `|0…0⟩` -/
noncomputable def ket0 (N : ℕ) : QState N := fun a => if a = 0 then 1 else 0

theorem ket0_ne : ket0 N ≠ 0 := fun h => by simpa [ket0] using congrFun h 0

theorem psi0_row (N : ℕ) : ∃ p, Train2.psi0 N = .ok p ∧ IsRow p (ket0 N) := by
  have hs : (Circuit.new N).state_init.shape = [2 ^ N] := rfl
  refine ⟨(Circuit.new N).state_init.reshapeN [1, 2 ^ N],
    Tensor.view_neg_last _ 1 (2 ^ N) (by simp [Tensor.numel, hs]) (by simp), rfl, fun a => ?_⟩
  rw [Tensor.reshapeN_get_eq (idx' := [enc a]) (by simp [enc_lt]) (by rw [hs]; simp [enc_lt])
    (by rw [hs]; simp [ravel])]
  unfold Circuit.state_init
  rw [show (Circuit.new N).nqubits = N from rfl, Tensor.get_ofFn (by simp [enc_lt])]
  have e0 : enc (0 : Bits N) = 0 := by simp [enc]
  simp only [List.getD_cons_zero, ket0]
  by_cases ha : a = 0
  · subst ha; simp [e0]
  · rw [if_neg, if_neg ha]
    intro he
    exact ha (enc_injective (he.trans e0.symm))

/-- The conversion of `|0…0⟩` and back to a tensor succeeds whatever the SVD routine returns. -/
theorem zero_tensor {svd : SVDOracle} (hv : ValidSVD svd) (hN : 0 < N) {p : Tensor ℂ}
    (hp : IsRow p (ket0 N)) (s : List (Tensor ℂ)) (hs : ∀ A ∈ s, Lossless A) :
    ∃ mps s' T, StateVec2MPS svd p N s = (.ok mps, s') ∧ MPS2StateVec_tensor mps = .ok T ∧
      IsTen T (ket0 N) := by
  obtain ⟨mps, s', e, hm⟩ := sv2mps_exact hv hN hp ket0_ne (zero_state_lossless hv hN hp s hs)
  obtain ⟨T, eT, rT⟩ := mps2ten_rep hm hN
  exact ⟨mps, s', T, e, eT, rT⟩

/-! ## Stacking results -/

/-- The `n × 1` tensor with the given entries. -/
def IsColumn (t : Tensor ℝ) (vals : List ℝ) : Prop :=
  t.shape = [vals.length, 1] ∧ ∀ k, (h : k < vals.length) → t.get [k, 0] = vals[k]

/-- The call returns a `1 × 1` tensor with entry `r`. -/
def Gives (p : Py (Tensor ℝ)) (r : ℝ) : Prop := ∃ t, p = .ok t ∧ t.shape = [1, 1] ∧ t.get [0, 0] = r

theorem column_unique {t t' : Tensor ℝ} {vals : List ℝ} (h : IsColumn t vals) (h' : IsColumn t' vals) :
    t = t' := by
  apply Tensor.ext' (h.1.trans h'.1.symm)
  intro idx hi
  rw [h.1] at hi
  match idx, hi with
  | [], hi => simp [inB] at hi
  | [_], hi => simp [inB] at hi
  | _ :: _ :: _ :: _, hi => simp [inB] at hi
  | [i, j], hi =>
    simp only [inB_cons, inB_nil, Bool.and_eq_true, decide_eq_true_eq] at hi
    obtain ⟨hi, hj, -⟩ := hi
    obtain rfl : j = 0 := by omega
    rw [h.2 i hi, h'.2 i hi]

theorem gather_from {α : Type} {f : α → Py (Tensor ℝ)} {l : List α} {vals : List ℝ}
    (h : List.Forall₂ (fun a r => Gives (f a) r) l vals) (t0 : Tensor ℝ) (vs : List ℝ)
    (h0 : IsColumn t0 vs) :
    ∃ t, l.foldlM (Train2.gatherStep f) (some t0) = .ok (some t) ∧
      IsColumn t (vs ++ vals) := by
  induction h generalizing t0 vs with
  | nil => exact ⟨t0, rfl, by simpa using h0⟩
  | @cons a r l vals h1 _ ih =>
    obtain ⟨t, et, st, gt⟩ := h1
    have hn : t.numel = 1 := by simp [Tensor.numel, st]
    have ev : t.view [1, -1] = .ok (t.reshapeN [1, 1]) :=
      Tensor.view_neg_last _ 1 1 (by simp [hn]) (by simp)
    obtain ⟨u, eu, su, g1, g2⟩ := Tensor.cat0_ok (b := t.reshapeN [1, 1]) h0.1 rfl
    have hu : IsColumn u (vs ++ [r]) := by
      refine ⟨by rw [su]; simp, fun k hk => ?_⟩
      by_cases hk' : k < vs.length
      · rw [g1 k 0 hk' (by omega), h0.2 k hk', List.getElem_append_left hk']
      · have hke : k = vs.length + 0 := by simp at hk; omega
        subst hke
        rw [g2 0 0 (by omega) (by omega), Tensor.reshapeN_get_eq (idx' := [0, 0]) (by simp)
          (by rw [st]; simp) (by rw [st]), gt]
        simp
    obtain ⟨t', e', r'⟩ := ih u (vs ++ [r]) hu
    refine ⟨t', ?_, by simpa using r'⟩
    have es : Train2.gatherStep f (some t0) a = .ok (some u) := by
      unfold Train2.gatherStep
      rw [et, Py.ok_bind, ev, Py.ok_bind]
      dsimp only
      rw [eu, Py.ok_bind]
    rw [List.foldlM_cons, es, Py.ok_bind, e']

theorem gather_ok {α : Type} {f : α → Py (Tensor ℝ)} {l : List α} {vals : List ℝ}
    (h : List.Forall₂ (fun a r => Gives (f a) r) l vals) (hl : l ≠ []) :
    ∃ t, Train2.gather f l = .ok t ∧ IsColumn t vals := by
  cases h with
  | nil => exact absurd rfl hl
  | @cons a r l vals h1 hr =>
    obtain ⟨t, et, st, gt⟩ := h1
    have hn : t.numel = 1 := by simp [Tensor.numel, st]
    have ev : t.view [1, -1] = .ok (t.reshapeN [1, 1]) :=
      Tensor.view_neg_last _ 1 1 (by simp [hn]) (by simp)
    obtain ⟨t', e', r'⟩ := gather_from hr (t.reshapeN [1, 1]) [r] ⟨rfl, fun k hk => by
      obtain rfl : k = 0 := by simpa using hk
      rw [Tensor.reshapeN_get_eq (idx' := [0, 0]) (by simp) (by rw [st]; simp) (by rw [st]), gt]
      rfl⟩
    refine ⟨t', ?_, by simpa using r'⟩
    have es : Train2.gatherStep f none a = .ok (some (t.reshapeN [1, 1])) := by
      unfold Train2.gatherStep
      rw [et, Py.ok_bind, ev, Py.ok_bind]
    unfold Train2.gather
    rw [List.foldlM_cons, es, Py.ok_bind, e', Py.ok_bind]

theorem gather_nil {α : Type} (f : α → Py (Tensor ℝ)) : Train2.gather f [] = .error .unboundLocal := rfl

/-! ## Reading out -/

theorem wire_zero (h : 0 < N) : wire (⟨0, h⟩ : Fin N) = 0 := rfl

/-- The expectation value of `Z` on the first qubit. -/
noncomputable def z0 (h : 0 < N) (v : QState N) : ℝ := (braket (onQubit ⟨0, h⟩ Spec.Z) v).re

theorem mapRe {t : Tensor ℂ} {z : ℂ} (hs : t.shape = [1, 1]) (hz : t.get [0, 0] = z) :
    (t.mapT Complex.re).shape = [1, 1] ∧ (t.mapT Complex.re).get [0, 0] = z.re := by
  refine ⟨hs, ?_⟩
  unfold Tensor.mapT
  rw [Tensor.get_ofFn (by rw [hs]; simp), hz]

theorem expecRow_ok (h : 0 < N) {c : Circuit} {U : QOp N} (hU : Computes c.U U) {psi : Tensor ℂ}
    {v : QState N} (hp : IsRow psi v) : Gives (Train2.expecRow N c psi) (z0 h (U *ᵥ v)) := by
  obtain ⟨u, eu, ru⟩ := hU
  obtain ⟨cl, ecl, rcl⟩ := row_view_col hp
  obtain ⟨w, ew, rw'⟩ := ru.mulCol rcl
  obtain ⟨r, er, rr⟩ := col_view_row rw'
  obtain ⟨Z, eZ, rZ⟩ := zObservable_rep (⟨0, h⟩ : Fin N)
  obtain ⟨l, el, rl⟩ := (row_conj rr).mulRep rZ
  obtain ⟨t, et, st, gt⟩ := rl.mulCol rw'
  have eZ' : (mkPauliZ (N : ℤ) (.int 0)).U_expand = .ok Z := eZ
  refine ⟨_, ?_, mapRe st (gt.trans (braket_eq _ _).symm)⟩
  unfold Train2.expecRow
  rw [eu, Py.ok_bind, ecl, Py.ok_bind, ew, Py.ok_bind, er, Py.ok_bind, eZ', Py.ok_bind, el, Py.ok_bind,
    et, Py.ok_bind]

theorem pauliZ_contract (h : 0 < N) :
    ContractsAs (mkPauliZ (N : ℤ) (.int 0)).TN_contract (onQubit (⟨0, h⟩ : Fin N) Spec.Z) :=
  single_contract ⟨0, h⟩ rfl rfl pauliZMat_rep

theorem expecTensor_ok (h : 0 < N) {c : Circuit} {U : QOp N} (hU : ContractsAs c.TN_contract_evolution U)
    {T : Tensor ℂ} {v : QState N} (hT : IsTen T v) :
    Gives (Train2.expecTensor N c T) (z0 h (U *ᵥ v)) := by
  obtain ⟨T1, e1, r1⟩ := hU.1 T v hT
  obtain ⟨T2, e2, r2⟩ := (pauliZ_contract h).1 T1 _ r1
  obtain ⟨r, er, rr⟩ := Props.flatten_row r1
  obtain ⟨cl, ecl, rcl⟩ := Props.flatten_col r2
  obtain ⟨t, et, st, gt⟩ := (row_conj rr).mulCol rcl
  refine ⟨_, ?_, mapRe st (gt.trans ?_)⟩
  · unfold Train2.expecTensor
    rw [e1, Py.ok_bind, e2, Py.ok_bind, er, Py.ok_bind, ecl, Py.ok_bind, et, Py.ok_bind]
  · rw [braket_eq, dotProduct_mulVec]

/-! ## Batches -/

theorem encoding_ok (hN : 0 < N) {x : List ℝ} (hx : x ≠ []) (hl : x.length ≤ N) :
    ∃ e, Train2.encoding N x = .ok e ∧ Computes e.U_expand (Props.encOp Spec.X x (List.finRange N)) ∧
      ContractsAs e.TN_contract (Props.encOp Spec.X x (List.finRange N)) := by
  obtain ⟨e, h1, h2, h3, -⟩ := Props.C44_encoding hN x hx hl (List.finRange N) (List.nodup_finRange N) "X"
    Spec.X rfl
  refine ⟨e, ?_, h2, h3⟩
  unfold Train2.encoding
  rw [← wires_finRange]
  exact h1

theorem encodeRow_ok (hN : 0 < N) {p : Tensor ℂ} {v : QState N} (hp : IsRow p v) {x : List ℝ}
    (hx : x ≠ []) (hl : x.length ≤ N) :
    ∃ r, Train2.encodeRow N p x = .ok r ∧ IsRow r (Props.encOp Spec.X x (List.finRange N) *ᵥ v) := by
  obtain ⟨e, ee, ⟨u, eu, ru⟩, -⟩ := encoding_ok hN hx hl
  obtain ⟨c, ec, rc⟩ := row_view_col hp
  obtain ⟨w, ew, rw'⟩ := ru.mulCol rc
  obtain ⟨r, er, rr⟩ := col_view_row rw'
  refine ⟨r, ?_, rr⟩
  unfold Train2.encodeRow
  rw [ee, Py.ok_bind, eu, Py.ok_bind, ec, Py.ok_bind, ew, Py.ok_bind, er]

theorem mapM_forall₂ {α β : Type} {f : α → Py β} {R : α → β → Prop} {l : List α}
    (h : ∀ a ∈ l, ∃ b, f a = .ok b ∧ R a b) : ∃ bs, l.mapM f = .ok bs ∧ List.Forall₂ R l bs := by
  induction l with
  | nil => exact ⟨[], rfl, .nil⟩
  | cons a l ih =>
    obtain ⟨b, eb, rb⟩ := h a (by simp)
    obtain ⟨bs, ebs, rbs⟩ := ih (fun a' ha => h a' (by simp [ha]))
    exact ⟨b :: bs, by rw [List.mapM_cons, eb, Py.ok_bind, ebs, Py.ok_bind]; rfl, .cons rb rbs⟩

theorem catFirst_ok {α : Type} [Zero α] {a b : Tensor α} {m m' : ℕ} {s : List ℕ} (ha : a.shape = m :: s)
    (hb : b.shape = m' :: s) :
    ∃ t, a.catFirst b = .ok t ∧ t.shape = (m + m') :: s ∧
      (∀ i idx, i < m → inB s idx = true → t.get (i :: idx) = a.get (i :: idx)) ∧
      (∀ i idx, i < m' → inB s idx = true → t.get ((m + i) :: idx) = b.get (i :: idx)) := by
  refine ⟨Tensor.ofFn ((m + m') :: s) (fun idx =>
      if idx.getD 0 0 < m then a.get idx else b.get ((idx.getD 0 0 - m) :: idx.tail)), ?_, rfl, ?_, ?_⟩
  · unfold Tensor.catFirst
    rw [ha, hb]
    simp
  · intro i idx hi hidx
    rw [Tensor.get_ofFn (by simp [hidx]; omega)]
    simp [hi]
  · intro i idx hi hidx
    rw [Tensor.get_ofFn (by simp [hidx]; omega)]
    simp

theorem copies_ok {T u : Tensor ℂ} {v : QState N} (hT : IsTen T v) (hu : T.unsqueeze 0 = .ok u) (n : ℕ) :
    ∃ B, Tensor.catList Tensor.catFirst (List.replicate (n + 1) u) = .ok B ∧
      IsBatch B (n + 1) (fun _ => v) := by
  obtain ⟨u', e', su, gu⟩ := Tensor.unsqueeze_at [] (List.replicate N 2) (t := T) (by simpa using hT.1)
  rw [show (([] : List ℕ).length : ℤ) = 0 from rfl, hu] at e'
  cases e'
  have hu1 : IsBatch u 1 (fun _ => v) := by
    refine ⟨by simpa using su, fun k a => ?_⟩
    have := gu [] (bl a) (by simp) (inB_bl a)
    obtain rfl : k = 0 := Subsingleton.elim _ _
    simpa [hT.2 a] using this
  have key : ∀ (n m : ℕ) (B : Tensor ℂ), IsBatch B m (fun _ => v) →
      ∃ B', (List.replicate n u).foldlM Tensor.catFirst B = .ok B' ∧ IsBatch B' (m + n) (fun _ => v) := by
    intro n
    induction n with
    | zero => intro m B hB; exact ⟨B, rfl, hB⟩
    | succ n ih =>
      intro m B hB
      obtain ⟨t, et, st, g1, g2⟩ := catFirst_ok hB.1 hu1.1
      have ht : IsBatch t (m + 1) (fun _ => v) := by
        refine ⟨st, fun k a => ?_⟩
        by_cases hk : (k : ℕ) < m
        · rw [g1 _ _ hk (inB_bl a)]; exact hB.2 ⟨k, hk⟩ a
        · have hke : (k : ℕ) = m + 0 := by have := k.2; omega
          rw [hke, g2 0 _ (by omega) (inB_bl a)]
          exact hu1.2 0 a
      obtain ⟨B', e', r'⟩ := ih (m + 1) t ht
      refine ⟨B', by rw [List.replicate_succ, List.foldlM_cons, et, Py.ok_bind, e'], ?_⟩
      rw [show m + (n + 1) = m + 1 + n by omega]
      exact r'
  obtain ⟨B, e, r⟩ := key n 1 u hu1
  rw [Nat.add_comm 1 n] at r
  exact ⟨B, e, r⟩

theorem setFirst_ok {B r : Tensor ℂ} {n : ℕ} {v : Fin n → QState N} {w : QState N} (hB : IsBatch B n v)
    (hr : IsTen r w) (i : Fin n) :
    ∃ B', B.setFirst i r = .ok B' ∧ IsBatch B' n (Function.update v i w) := by
  refine ⟨Tensor.ofFn B.shape (fun idx => if idx.getD 0 0 = (i : ℕ) then r.get idx.tail else B.get idx),
    ?_, hB.1, fun k a => ?_⟩
  · unfold Tensor.setFirst
    rw [hB.1]
    dsimp only
    rw [if_pos i.2, if_pos hr.1]
  · rw [Tensor.get_ofFn (by rw [hB.1]; simp [inB_bl])]
    by_cases hk : k = i
    · subst hk
      simp [hr.2]
    · have : ¬ (k : ℕ) = (i : ℕ) := fun e => hk (Fin.ext e)
      simp only [List.getD_cons_zero, List.tail_cons]
      rw [if_neg this, hB.2, Function.update_of_ne hk]

theorem encodeBatch_ok (hN : 0 < N) {T : Tensor ℂ} {v : QState N} (hT : IsTen T v)
    {batch : List (List ℝ)} (hb : batch ≠ []) (hx : ∀ x ∈ batch, x ≠ [] ∧ x.length ≤ N) :
    ∃ B, Train2.encodeBatch N T batch = .ok B ∧
      IsBatch B batch.length (fun k => Props.encOp Spec.X (batch.get k) (List.finRange N) *ᵥ v) := by
  obtain ⟨u, eu, -, -⟩ := Tensor.unsqueeze_at [] (List.replicate N 2) (t := T) (by simpa using hT.1)
  have eu' : T.unsqueeze 0 = .ok u := eu
  obtain ⟨n, hn⟩ : ∃ n, batch.length = n + 1 := ⟨batch.length - 1, by
    have := List.length_pos_iff.2 hb; omega⟩
  obtain ⟨B0, e0, r0⟩ := copies_ok hT eu' n
  rw [← hn] at e0 r0
  have key : ∀ m, m ≤ batch.length → ∃ B, (List.range m).foldlM (fun (T : Tensor ℂ) (i : ℕ) => do
      let PE ← Train2.encoding N (← pyGet batch ((i : ℕ) : ℤ))
      T.setFirst i (← PE.TN_contract (← T.select0 ((i : ℕ) : ℤ)) false)) B0 = Except.ok B ∧
      IsBatch B batch.length (fun k => if (k : ℕ) < m then
        Props.encOp Spec.X (batch.get k) (List.finRange N) *ᵥ v else v) := by
    intro m
    induction m with
    | zero => intro _; exact ⟨B0, rfl, by simpa using r0⟩
    | succ m ih =>
      intro hm
      obtain ⟨B, eB, rB⟩ := ih (by omega)
      let i : Fin batch.length := ⟨m, by omega⟩
      obtain ⟨hx1, hx2⟩ := hx (batch.get i) (List.get_mem _ _)
      obtain ⟨e, ee, -, hc⟩ := encoding_ok hN hx1 hx2
      obtain ⟨t, et, rt⟩ := Props.select_isTen rB i
      obtain ⟨t', et', rt'⟩ := hc.1 t _ rt
      obtain ⟨B', eB', rB'⟩ := setFirst_ok rB rt' i
      refine ⟨B', ?_, ?_⟩
      · rw [List.range_succ, List.foldlM_append, eB, Py.ok_bind, List.foldlM_cons,
          pyGet_nat (by omega : m < batch.length), Py.ok_bind]
        have ee' : Train2.encoding N batch[m] = .ok e := ee
        have et2 : B.select0 ((m : ℕ) : ℤ) = .ok t := et
        rw [ee', Py.ok_bind, et2, Py.ok_bind, et', Py.ok_bind]
        have eB2 : B.setFirst m t' = .ok B' := eB'
        rw [eB2]
        rfl
      · convert rB' using 1
        funext k
        by_cases hk : k = i
        · subst hk
          rw [Function.update_self, if_pos (Nat.lt_succ_self m), if_neg (lt_irrefl m)]
        · have hk' : (k : ℕ) ≠ m := fun e => hk (Fin.ext e)
          rw [Function.update_of_ne hk]
          by_cases h2 : (k : ℕ) < m
          · rw [if_pos h2, if_pos (by omega)]
          · rw [if_neg h2, if_neg (by omega)]
  obtain ⟨B, eB, rB⟩ := key batch.length le_rfl
  refine ⟨B, ?_, by simpa using rB⟩
  unfold Train2.encodeBatch
  rw [eu', Py.ok_bind, e0, Py.ok_bind]
  exact eB

/-- The sum that line 238 of `forward` computes for one sample. -/
noncomputable def bilinear (h : 0 < N) (v : QState N) : ℝ :=
  (∑ a, v a * (onQubit ⟨0, h⟩ Spec.Z *ᵥ v) a).re

theorem readBatch_ok (h : 0 < N) {c : Circuit} {U : QOp N} (hU : ContractsAs c.TN_contract_evolution U)
    {B : Tensor ℂ} {n : ℕ} {v : Fin n → QState N} (hn : 0 < n) (hB : IsBatch B n v) :
    ∃ t, Train2.readBatch N c B = .ok t ∧
      IsColumn t (List.ofFn (fun k => bilinear h (U *ᵥ v k))) := by
  obtain ⟨B1, e1, r1⟩ := hU.2 B n v hB
  obtain ⟨B2, e2, r2⟩ := (pauliZ_contract h).2 B1 n _ r1
  have n1 : B1.numel = n * 2 ^ N := by simp [Tensor.numel, r1.1]
  have n2 : B2.numel = n * 2 ^ N := by simp [Tensor.numel, r2.1]
  have v2 : B2.view [(n : ℤ), -1, 1] = .ok (B2.reshapeN [n, 2 ^ N, 1]) :=
    Tensor.view_neg_mid B2 n (2 ^ N) 1 (by rw [n2]; ring) hn (by omega)
  have v1 : B1.view [(n : ℤ), 1, -1] = .ok (B1.reshapeN [n, 1, 2 ^ N]) := by
    have hi : Tensor.view B1 [(n : ℤ), 1, -1] = .ok (B1.reshapeN [n, 1, 2 ^ N]) := by
      have m1 : ¬ ((n : ℤ) = -1) := by omega
      have m2 : ¬ ((n : ℤ) < 0) := by omega
      have hnn : n ≠ 0 := by omega
      unfold Tensor.view Tensor.inferShape
      have f1 : [(n : ℤ), 1, -1].filter (· ≠ -1) = [(n : ℤ), 1] := by simp [List.filter, m1]
      have f2 : [(n : ℤ), 1, -1].count (-1) = 1 := by simp [m1]
      simp only [f1, f2]
      rw [if_neg (by simp [m2])]
      simp [hnn, n1, m1]
    exact hi
  obtain ⟨t, et, st, gt⟩ := Tensor.matmul_nd (a := B1.reshapeN [n, 1, 2 ^ N]) (b := B2.reshapeN [n, 2 ^ N, 1])
    (sa := [n]) (sb := [n]) (s := [n]) rfl rfl (by simp [Tensor.bcast, Tensor.bcastRev])
  have hb : ∀ k < n, Tensor.bIdx [n] [k] = [k] := by
    intro k hk
    simp [Tensor.bIdx]
    omega
  have hsum : ∀ k : Fin n, t.get [(k : ℕ), 0, 0] =
      ∑ a, (U *ᵥ v k) a * (onQubit ⟨0, h⟩ Spec.Z *ᵥ (U *ᵥ v k)) a := by
    intro k
    have := gt [(k : ℕ)] 0 0 (by simp) (by omega) (by omega)
    rw [hb _ k.2, sum_enc] at this
    rw [show [(k : ℕ), 0, 0] = [(k : ℕ)] ++ [0, 0] from rfl, this]
    refine sum_congr rfl fun a _ => ?_
    have q : inB (n :: List.replicate N 2) ((k : ℕ) :: bl a) = true := by simp [inB_bl]
    have p1 : (B1.reshapeN [n, 1, 2 ^ N]).get ([(k : ℕ)] ++ [0, enc a]) = (U *ᵥ v k) a := by
      rw [Tensor.reshapeN_get_eq (idx' := (k : ℕ) :: bl a) (by simp [enc_lt]) (by rw [r1.1]; exact q)
        (by rw [r1.1]; simp [ravel, ← enc_eq_ravel]), r1.2]
    have p2 : (B2.reshapeN [n, 2 ^ N, 1]).get ([(k : ℕ)] ++ [enc a, 0]) =
        (onQubit ⟨0, h⟩ Spec.Z *ᵥ (U *ᵥ v k)) a := by
      rw [Tensor.reshapeN_get_eq (idx' := (k : ℕ) :: bl a) (by simp [enc_lt]) (by rw [r2.1]; exact q)
        (by rw [r2.1]; simp [ravel, ← enc_eq_ravel]), r2.2]
    rw [p1, p2]
  have sr : (t.mapT Complex.re).shape = [n, 1, 1] := st
  have hw : wrapIdx (t.mapT Complex.re).rank (-1) = .ok 2 := by
    simp [Tensor.rank, sr, wrapIdx]
  refine ⟨Tensor.ofFn [n, 1] (fun idx => (t.mapT Complex.re).get (idx.insertIdx 2 0)), ?_, ?_, ?_⟩
  · have g0 : pyGet B2.shape 0 = .ok n := by rw [r2.1]; exact pyGet_nat (k := 0) (by simp)
    unfold Train2.readBatch
    rw [e1, Py.ok_bind, e2, Py.ok_bind, g0, Py.ok_bind, v2, Py.ok_bind, v1, Py.ok_bind, et, Py.ok_bind]
    dsimp only
    unfold Tensor.squeezeDim
    rw [hw, Py.ok_bind, sr]
    rfl
  · simp [Tensor.ofFn]
  · intro k hk
    have hk' : k < n := by simpa using hk
    rw [Tensor.get_ofFn (by simp [hk'])]
    rw [show ([k, 0] : List ℕ).insertIdx 2 0 = [k, 0, 0] from rfl]
    unfold Tensor.mapT
    rw [Tensor.get_ofFn (by rw [st]; simp [hk']), hsum ⟨k, hk'⟩, List.getElem_ofFn]
    rfl

end QTN
