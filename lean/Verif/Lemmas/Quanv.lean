import Verif.Model.Quanv
import Verif.SpecQuanv
import Verif.Lemmas.Circ
import Verif.Lemmas.MeasureL
import Verif.Lemmas.Reject

/-! # The quantum convolution -/

namespace QTN

open Finset Spec Matrix

variable {N : ℕ}

/-! ## Circuits built in loops -/

theorem adds_ok {ι : Type} (f : Circuit → ι → Py Circuit) (o : ι → List Op) (L : List ι)
    (h : ∀ c, ∀ i ∈ L, f c i = .ok ((o i).foldl Circuit.add c)) (c : Circuit) :
    L.foldlM f c = .ok ((L.flatMap o).foldl Circuit.add c) := by
  induction L generalizing c with
  | nil => rfl
  | cons i L ih =>
    rw [List.foldlM_cons, h c i (by simp), Py.ok_bind, ih (fun c i hi => h c i (by simp [hi])),
      List.flatMap_cons, List.foldl_append]

theorem adds_U (l : List (Item N)) (h : ∀ it ∈ l, it.WF) (ops : List Op)
    (hb : List.Forall₂ (fun it o => buildItem it = .ok o) l ops) :
    Computes (ops.foldl Circuit.add (Circuit.new N)).U (circuitOp l) := by
  refine (U_rep_forall₂ (N := N) _ (adds_nqubits _ _) (l.map Item.op) ?_).1
  rw [adds_gate]
  show List.Forall₂ _ ops _
  induction hb with
  | nil => exact .nil
  | @cons it o l ops hb _ ih =>
    refine .cons ?_ (ih (fun i hi => h i (by simp [hi])))
    obtain ⟨o', ho, hc⟩ := item_ok it (h it (by simp))
    rw [hb] at ho; cases ho; exact hc

theorem forall₂_map_range {R : Item N → Op → Prop} (f : Fin N → List (Item N)) (g : ℕ → List Op)
    (h : ∀ q : Fin N, List.Forall₂ R (f q) (g q)) :
    List.Forall₂ R ((List.finRange N).flatMap f) ((List.range N).flatMap g) := by
  have e : List.range N = (List.finRange N).map Fin.val := by simp
  rw [e, List.flatMap_map]
  generalize List.finRange N = L
  induction L with
  | nil => exact .nil
  | cons q L ih => rw [List.flatMap_cons, List.flatMap_cons]; exact List.rel_append (h q) ih

theorem Spec.Represents.dag {t : Tensor ℂ} {M : QOp N} (h : Represents t M) :
    ∃ r, QTN.dag t = .ok r ∧ Represents r Mᴴ := by
  obtain ⟨r, hr, hs, hg⟩ := dag_ok h.1
  refine ⟨r, hr, hs, fun a b => ?_⟩
  rw [hg _ _ (enc_lt a) (enc_lt b), h.2, Matrix.conjTranspose_apply]

/-- `U @ rho @ dag(U)`. -/
theorem conj_rep {U rho : Tensor ℂ} {M R : QOp N} (hU : Represents U M) (hR : Represents rho R) :
    Computes (do (← U.matmul rho).matmul (← QTN.dag U)) (M * R * Mᴴ) := by
  obtain ⟨a, ha, ra⟩ := hU.matmul hR
  obtain ⟨d, hd, rd⟩ := hU.dag
  obtain ⟨b, hb, rb⟩ := ra.matmul rd
  exact ⟨b, by rw [ha, Py.ok_bind, hd, Py.ok_bind, hb], rb⟩

theorem conj_outer (M : QOp N) (v : QState N) :
    M * vecMulVec v (star v) * Mᴴ = vecMulVec (M *ᵥ v) (star (M *ᵥ v)) := by
  rw [Matrix.mul_vecMulVec, Matrix.vecMulVec_mul, Matrix.star_mulVec]

namespace QuanConv

/-- The scaled angles. -/
noncomputable def angles (m : QuanConv) (q : Fin m.n_qubits) (r : Fin 3) : ℝ :=
  m.weight.getD (3 * q + r) 0 * m.w_mul

theorem input_ok (m : QuanConv) (x : List ℝ) (hx : m.n_qubits ≤ x.length) :
    Computes (m.input x) (circuitOp (pixelItems (fun q : Fin m.n_qubits => x.getD q 0))) := by
  unfold input
  rw [adds_ok _ (fun q => [.gate (mkRy (Real.pi * x.getD q 0) m.n_qubits (.int q))]), Py.ok_bind]
  · have e : pixelItems (fun q : Fin m.n_qubits => x.getD q 0) = (List.finRange m.n_qubits).flatMap
        (fun q => [.gate (.ry (Real.pi * x.getD q 0) q)]) := by
      rw [pixelItems, List.map_eq_flatMap]
    rw [e]
    refine adds_U _ ?_ _ (forall₂_map_range _ _ fun q => .cons rfl .nil)
    intro it hit
    simp only [List.mem_flatMap, List.mem_singleton] at hit
    obtain ⟨q, -, rfl⟩ := hit
    trivial
  · intro c q hq
    rw [List.mem_range] at hq
    rw [pyGet_nat (by omega), Py.ok_bind]
    simp [List.getD_eq_getElem?_getD, show q < x.length by omega]

theorem conv_wf (w : Fin N → Fin 3 → ℝ) (h2 : 2 ≤ N) : ∀ it ∈ convItems w, it.WF := by
  intro it hit
  simp only [convItems, List.mem_append, List.mem_flatMap, List.mem_cons, List.not_mem_nil, or_false,
    List.mem_map] at hit
  rcases hit with ⟨q, -, rfl | rfl | rfl⟩ | ⟨q, -, rfl⟩
  · trivial
  · trivial
  · trivial
  · show q ≠ ringNext q
    intro h
    have h := congrArg Fin.val h
    simp only [ringNext] at h
    have hq := q.2
    by_cases hl : (q : ℕ) + 1 < N
    · rw [Nat.mod_eq_of_lt hl] at h; omega
    · rw [show (q : ℕ) + 1 = N by omega, Nat.mod_self] at h; omega

theorem pixel_wf (d : Fin N → ℝ) : ∀ it ∈ pixelItems d, it.WF := by
  intro it hit
  simp only [pixelItems, List.mem_map] at hit
  obtain ⟨q, -, rfl⟩ := hit
  trivial

/-- The circuit built by `_qconv`. -/
noncomputable def convOps (m : QuanConv) : List Op :=
  (List.range m.n_qubits).flatMap (fun q =>
    [.gate (mkRx (m.weight.getD (3 * q + 0) 0 * m.w_mul) m.n_qubits (.int q)),
     .gate (mkRz (m.weight.getD (3 * q + 1) 0 * m.w_mul) m.n_qubits (.int q)),
     .gate (mkRx (m.weight.getD (3 * q + 2) 0 * m.w_mul) m.n_qubits (.int q))]) ++
  (List.range m.n_qubits).map (fun q => .gate (mkCnot m.n_qubits (.list [q, ((q + 1) % m.n_qubits : ℕ)])))

theorem qconv_eq (m : QuanConv) (hw : m.weight.length = 3 * m.n_qubits) (rho : Tensor ℂ) :
    m.qconv rho = (do
      let U ← (m.convOps.foldl Circuit.add (Circuit.new m.n_qubits)).U
      (← U.matmul rho).matmul (← dag U)) := by
  unfold qconv
  simp only
  rw [adds_ok _ (fun q =>
    [.gate (mkRx (m.weight.getD (3 * q + 0) 0 * m.w_mul) m.n_qubits (.int q)),
     .gate (mkRz (m.weight.getD (3 * q + 1) 0 * m.w_mul) m.n_qubits (.int q)),
     .gate (mkRx (m.weight.getD (3 * q + 2) 0 * m.w_mul) m.n_qubits (.int q))]), Py.ok_bind]
  · rw [convOps, List.foldl_append, List.foldl_map]
  · intro c q hq
    rw [List.mem_range] at hq
    rw [pyGet_nat (by simp; omega), Py.ok_bind, pyGet_nat (by simp; omega), Py.ok_bind,
      pyGet_nat (by simp; omega), Py.ok_bind]
    simp [List.getD_eq_getElem?_getD, show 3 * q < m.weight.length by omega,
      show 3 * q + 1 < m.weight.length by omega, show 3 * q + 2 < m.weight.length by omega]

theorem qconv_ok (m : QuanConv) (hw : m.weight.length = 3 * m.n_qubits) (h2 : 2 ≤ m.n_qubits)
    {rho : Tensor ℂ} {R : QOp m.n_qubits} (hR : Represents rho R) :
    Computes (m.qconv rho) (circuitOp (convItems m.angles) * R * (circuitOp (convItems m.angles))ᴴ) := by
  rw [qconv_eq m hw]
  obtain ⟨U, hU, rU⟩ := adds_U (convItems m.angles) (conv_wf _ h2) m.convOps (by
    refine List.rel_append (forall₂_map_range _ _ fun q => by
      refine .cons ?_ (.cons ?_ (.cons ?_ .nil)) <;> rfl) ?_
    rw [List.map_eq_flatMap, List.map_eq_flatMap]
    exact forall₂_map_range _ _ fun q => .cons rfl .nil)
  rw [hU, Py.ok_bind]
  exact conj_rep rU hR

theorem init_rep : Represents (Tensor.ofFn [2 ^ N, 2 ^ N] (fun idx => if idx = [0, 0] then (1 : ℂ) else 0))
    (vecMulVec (fun a : Bits N => if a = 0 then (1 : ℂ) else 0) (star fun a : Bits N => if a = 0 then (1 : ℂ) else 0)) := by
  refine ⟨rfl, fun a b => ?_⟩
  have hz : ∀ a : Bits N, enc a = 0 ↔ a = 0 := by
    intro a
    have h0 : enc (0 : Bits N) = 0 := by simp [enc]
    constructor
    · intro h; exact enc_injective (h.trans h0.symm)
    · rintro rfl; exact h0
  rw [Tensor.get_ofFn (inB_enc2 a b), Matrix.vecMulVec_apply]
  simp only [List.cons.injEq, and_true, hz, Pi.star_apply]
  by_cases ha : a = 0 <;> by_cases hb : b = 0 <;> simp [ha, hb]

/-- The values of one patch. -/
theorem cell_ok (m : QuanConv) (hw : m.weight.length = 3 * m.n_qubits) (h2 : 2 ≤ m.n_qubits) (x : List ℝ)
    (hx : m.n_qubits ≤ x.length) :
    m.cell x = .ok (List.ofFn (convValue m.angles (fun q => x.getD q 0))) := by
  obtain ⟨U1, hU1, rU1⟩ := m.input_ok x hx
  obtain ⟨r1, hr1, rr1⟩ := conj_rep rU1 init_rep
  obtain ⟨r2, hr2, rr2⟩ := m.qconv_ok hw h2 rr1
  unfold cell
  simp only
  rw [hU1, Py.ok_bind]
  have e : ∀ {β : Type} (f : Tensor ℂ → Py β), ((U1.matmul (Tensor.ofFn [2 ^ m.n_qubits, 2 ^ m.n_qubits]
      (fun idx => if idx = [0, 0] then (1 : ℂ) else 0)) >>= fun a => dag U1 >>= fun d => a.matmul d >>= f)) = f r1 := by
    intro β f
    rw [← Py.ok_bind r1 f, ← hr1]
    simp only [bind_assoc]
  rw [e, hr2, Py.ok_bind]
  rw [conj_outer, conj_outer] at rr2
  set ψ := circuitOp (convItems m.angles) *ᵥ (circuitOp (pixelItems fun q : Fin m.n_qubits => x.getD q 0) *ᵥ
    fun a => if a = 0 then (1 : ℂ) else 0) with hψ
  have hd : ∀ a, ψ a * star (ψ a) = ((‖ψ a‖ ^ 2 : ℝ) : ℂ) := by
    intro a
    rw [Complex.star_def, Complex.mul_conj, Complex.normSq_eq_norm_sq]
  have hr : ∀ a, r2.get [enc a, enc a] = ((‖ψ a‖ ^ 2 : ℝ) : ℂ) := by
    intro a; rw [rr2.2, Matrix.vecMulVec_apply, Pi.star_apply, hd]
  have hn : ∑ a, ‖ψ a‖ ^ 2 = 1 := by
    have h1 := sqNorm_unitary (circuitOp_unitary _ (conv_wf m.angles h2))
      (circuitOp (pixelItems fun q : Fin m.n_qubits => x.getD q 0) *ᵥ fun a => if a = 0 then (1 : ℂ) else 0)
    rw [sqNorm_unitary (circuitOp_unitary _ (pixel_wf _))] at h1
    refine h1.trans ?_
    unfold sqNorm
    rw [Finset.sum_eq_single 0] <;> simp +contextual
  have hp : HasProbs r2 (fun a => ‖ψ a‖ ^ 2) := by
    refine .inr ⟨_, rep_isMat rr2, ?_, fun a => ?_⟩
    · simp only [hr]
      rw [← Complex.ofReal_sum, hn]; norm_num
    · rw [hr, Complex.ofReal_re]
  have := measure_list (by omega) hp (List.finRange m.n_qubits)
  rw [wires_finRange, ← List.ofFn_eq_map] at this
  exact this

/-! ## Exceptions -/

/-- A step returns or raises `e`. -/
def OkOr {α : Type} (e : PyErr) (p : Py α) : Prop := p = .error e ∨ ∃ a, p = .ok a

theorem foldlM_okOr {α β : Type} {e : PyErr} {f : β → α → Py β} (l : List α)
    (h : ∀ b, ∀ a ∈ l, OkOr e (f b a)) (b : β) : OkOr e (l.foldlM f b) := by
  induction l generalizing b with
  | nil => exact .inr ⟨b, rfl⟩
  | cons a l ih =>
    rw [List.foldlM_cons]
    rcases h b a (by simp) with he | ⟨b', he⟩
    · rw [he]; exact .inl rfl
    · rw [he, Py.ok_bind]; exact ih (fun b a ha => h b a (by simp [ha])) b'

theorem foldlM_error {α β : Type} {e : PyErr} {f : β → α → Py β} (l : List α)
    (h : ∀ b, ∀ a ∈ l, OkOr e (f b a)) (hx : ∃ a ∈ l, ∀ b, f b a = .error e) (b : β) :
    l.foldlM f b = .error e := by
  induction l generalizing b with
  | nil => obtain ⟨a, ha, -⟩ := hx; simp at ha
  | cons a l ih =>
    rw [List.foldlM_cons]
    rcases h b a (by simp) with he | ⟨b', he⟩
    · rw [he]; rfl
    · rw [he, Py.ok_bind]
      apply ih (fun b a ha => h b a (by simp [ha]))
      obtain ⟨x, hx, hex⟩ := hx
      rcases List.mem_cons.1 hx with rfl | hx
      · rw [hex b] at he; cases he
      · exact ⟨x, hx, hex⟩

theorem OkOr.bind {α β : Type} {e : PyErr} {p : Py α} {f : α → Py β} (hp : OkOr e p)
    (hf : ∀ a, p = .ok a → OkOr e (f a)) : OkOr e (p >>= f) := by
  rcases hp with rfl | ⟨a, rfl⟩
  · exact .inl rfl
  · exact hf a rfl

theorem pyGet_okOr {α : Type} (l : List α) (k : ℕ) : OkOr .indexError (pyGet l (k : ℤ)) := by
  by_cases h : k < l.length
  · exact .inr ⟨_, pyGet_nat h⟩
  · left; unfold pyGet; rw [wrapIdx_raises (by exact_mod_cast not_lt.1 h)]; rfl

/-- A patch that was cut off raises. -/
theorem input_short (m : QuanConv) (x : List ℝ) (hx : x.length < m.n_qubits) :
    m.input x = .error .indexError := by
  unfold input
  rw [foldlM_error (e := .indexError)]
  · rfl
  · intro c q _
    exact (pyGet_okOr x q).bind fun a _ => .inr ⟨_, rfl⟩
  · refine ⟨x.length, by simpa using hx, fun c => ?_⟩
    have : pyGet x ((x.length : ℕ) : ℤ) = .error .indexError := by
      unfold pyGet; rw [wrapIdx_raises le_rfl]; rfl
    rw [this]; rfl

theorem cell_short (m : QuanConv) (x : List ℝ) (hx : x.length < m.n_qubits) :
    m.cell x = .error .indexError := by
  unfold cell
  simp only
  rw [input_short m x hx]
  rfl

/-- With one qubit the CNOT of the trainable circuit has equal wires. -/
theorem cell_one (m : QuanConv) (h1 : m.n_qubits = 1) (hw : m.weight.length = 3 * m.n_qubits) (x : List ℝ)
    (hx : m.n_qubits ≤ x.length) : m.cell x = .error .valueError := by
  obtain ⟨U1, hU1, rU1⟩ := m.input_ok x hx
  obtain ⟨r1, hr1, rr1⟩ := conj_rep rU1 init_rep
  unfold cell
  simp only
  rw [hU1, Py.ok_bind]
  have e : ∀ {β : Type} (f : Tensor ℂ → Py β), ((U1.matmul (Tensor.ofFn [2 ^ m.n_qubits, 2 ^ m.n_qubits]
      (fun idx => if idx = [0, 0] then (1 : ℂ) else 0)) >>= fun a => dag U1 >>= fun d => a.matmul d >>= f)) = f r1 := by
    intro β f
    rw [← Py.ok_bind r1 f, ← hr1]
    simp only [bind_assoc]
  rw [e, qconv_eq m hw]
  have hU : (m.convOps.foldl Circuit.add (Circuit.new m.n_qubits)).U = .error .valueError := by
    unfold Circuit.U
    rw [adds_gate, adds_nqubits]
    obtain ⟨A, hA, -⟩ := adds_U ((List.finRange m.n_qubits).flatMap (fun q =>
        [Item.gate (.rx (m.angles q 0) q), .gate (.rz (m.angles q 1) q), .gate (.rx (m.angles q 2) q)])) (by
        intro it hit
        simp only [List.mem_flatMap, List.mem_cons, List.not_mem_nil, or_false] at hit
        obtain ⟨q, -, rfl | rfl | rfl⟩ := hit <;> trivial) _
      (forall₂_map_range _ (fun q =>
        [.gate (mkRx (m.weight.getD (3 * q + 0) 0 * m.w_mul) m.n_qubits (.int q)),
         .gate (mkRz (m.weight.getD (3 * q + 1) 0 * m.w_mul) m.n_qubits (.int q)),
         .gate (mkRx (m.weight.getD (3 * q + 2) 0 * m.w_mul) m.n_qubits (.int q))]) fun q => by
        refine .cons ?_ (.cons ?_ (.cons ?_ .nil)) <;> rfl)
    unfold Circuit.U at hA
    rw [adds_gate, adds_nqubits] at hA
    rw [convOps, ← List.append_assoc, List.foldlM_append, hA, Py.ok_bind]
    have hr : List.range m.n_qubits = [0] := by rw [h1]; decide
    rw [hr, List.map_singleton, List.foldlM_cons]
    have hc : (Op.gate (mkCnot m.n_qubits (.list [(0 : ℕ), ((0 + 1) % m.n_qubits : ℕ)]))).U_expand = .error .valueError :=
      ctrl_raises _ rfl (.inl (by rw [h1]))
    rw [hc]
    rfl
  rw [hU]
  rfl

/-! ## Assignments -/

/-- `out[idx] = v` for an index in range. -/
noncomputable def Out.put (o : Out) (w : List ℕ × ℝ) : Out :=
  ⟨Tensor.ofFn o.t.shape (fun i => if i = w.1 then w.2 else o.t.get i), o.written ++ [w.1]⟩

/-- Several assignments in a row. -/
noncomputable def Out.puts (o : Out) (l : List (List ℕ × ℝ)) : Out := l.foldl Out.put o

theorem puts_shape (o : Out) (l : List (List ℕ × ℝ)) : (o.puts l).t.shape = o.t.shape := by
  induction l generalizing o with
  | nil => rfl
  | cons w l ih => exact ih (o.put w)

theorem puts_written (o : Out) (l : List (List ℕ × ℝ)) : (o.puts l).written = o.written ++ l.map Prod.fst := by
  induction l generalizing o with
  | nil => simp [Out.puts]
  | cons w l ih =>
    have := ih (o.put w)
    rw [show o.puts (w :: l) = (o.put w).puts l from rfl, this]; simp [Out.put]

theorem assign_ok {o : Out} {idx : List ℕ} (h : inB o.t.shape idx = true) (v : ℝ) :
    o.assign idx v = .ok (o.put (idx, v)) := by
  unfold Out.assign
  rw [raiseIf_false (by simp [h]), Py.ok_bind]
  rfl

theorem puts_other (o : Out) (l : List (List ℕ × ℝ)) (idx : List ℕ) (h : idx ∉ l.map Prod.fst) :
    (o.puts l).t.get idx = o.t.get idx := by
  induction l generalizing o with
  | nil => rfl
  | cons w l ih =>
    simp only [List.map_cons, List.mem_cons, not_or] at h
    rw [show o.puts (w :: l) = (o.put w).puts l from rfl, ih _ h.2]
    by_cases hb : inB o.t.shape idx = true
    · unfold Out.put; rw [Tensor.get_ofFn hb, if_neg h.1]
    · have hb' : inB o.t.shape idx = false := by simpa using hb
      rw [o.t.supp idx hb', (o.put w).t.supp idx hb']

theorem puts_get (o : Out) (l : List (List ℕ × ℝ)) (hn : (l.map Prod.fst).Nodup) (idx : List ℕ) (v : ℝ)
    (h : (idx, v) ∈ l) (hb : inB o.t.shape idx = true) : (o.puts l).t.get idx = v := by
  induction l generalizing o with
  | nil => simp at h
  | cons w l ih =>
    rw [show o.puts (w :: l) = (o.put w).puts l from rfl]
    rw [List.map_cons, List.nodup_cons] at hn
    rcases List.mem_cons.1 h with rfl | h
    · rw [puts_other _ _ _ hn.1]
      unfold Out.put
      rw [Tensor.get_ofFn hb, if_pos rfl]
    · exact ih (o.put w) hn.2 h hb

theorem foldlM_puts {ι : Type} {S : List ℕ} (L : List ι) (f : Out → ι → Py Out) (w : ι → List (List ℕ × ℝ))
    (h : ∀ o : Out, o.t.shape = S → ∀ i ∈ L, f o i = .ok (o.puts (w i))) (o : Out) (ho : o.t.shape = S) :
    L.foldlM f o = .ok (o.puts (L.flatMap w)) := by
  induction L generalizing o with
  | nil => rfl
  | cons i L ih =>
    rw [List.foldlM_cons, h o ho i (by simp), Py.ok_bind,
      ih (fun o ho i hi => h o ho i (by simp [hi])) _ (by rw [puts_shape, ho]),
      List.flatMap_cons]
    simp [Out.puts, List.foldl_append]

/-! ## The grid -/

theorem rangeStep_mem {n s j : ℕ} (hs : 0 < s) : j ∈ rangeStep n s ↔ ∃ a, j = a * s ∧ a * s < n := by
  unfold rangeStep
  simp only [List.mem_map, List.mem_range]
  have : ∀ a, a < (n + s - 1) / s ↔ a * s < n := by
    intro a
    rw [Nat.lt_div_iff_mul_lt hs]
    omega
  constructor
  · rintro ⟨a, ha, rfl⟩; exact ⟨a, rfl, (this a).1 ha⟩
  · rintro ⟨a, rfl, ha⟩; exact ⟨a, (this a).2 ha, rfl⟩

/-- If all windows fit, the loop visits as many positions as the output has. -/
theorem steps_eq {n k s : ℕ} (hs : 0 < s) (hk : 0 < k) (hn : k ≤ n) (hf : WindowsFit n k s) :
    (n + s - 1) / s = (n - k) / s + 1 := by
  have h1 : ∀ a, a < (n + s - 1) / s ↔ a * s < n := by
    intro a
    rw [Nat.lt_div_iff_mul_lt hs]
    omega
  apply le_antisymm
  · by_contra hc
    push Not at hc
    have := hf _ ((h1 _).1 hc)
    have h2 : ((n - k) / s + 1) * s ≤ n - k := by omega
    have := (Nat.le_div_iff_mul_le hs).2 h2
    omega
  · have : (n - k) / s * s ≤ n - k := Nat.div_mul_le_self _ _
    have := (h1 ((n - k) / s)).2 (by omega)
    omega

theorem range_grid {α : Type} (A B : ℕ) (hB : 0 < B) (f : ℕ → ℕ → α) :
    (List.range A).flatMap (fun i => (List.range B).map (f i)) =
      (List.range (A * B)).map (fun q => f (q / B) (q % B)) := by
  induction A with
  | zero => simp
  | succ A ih =>
    rw [List.range_succ, List.flatMap_append, ih, Nat.succ_mul, List.range_add, List.map_append, List.flatMap_singleton,
      List.map_map]
    congr 1
    apply List.map_congr_left
    intro j hj
    rw [List.mem_range] at hj
    simp only [Function.comp]
    rw [show (A * B + j) / B = A by rw [mul_comm, Nat.mul_add_div hB, Nat.div_eq_of_lt hj, add_zero],
      show (A * B + j) % B = j by rw [mul_comm, Nat.mul_add_mod, Nat.mod_eq_of_lt hj]]

theorem patch_full (img : Tensor ℝ) {ch lx ly b j l k : ℕ} (hc : 0 < ch) (hk : 0 < k) (hj : j + k ≤ lx)
    (hl : l + k ≤ ly) : patch img ch lx ly b j l k =
      .ok ((List.range (k * k)).map (fun q => img.get [b, 0, j + q / k, l + q % k])) := by
  unfold patch
  rw [raiseIf_false (by omega), Py.ok_bind, Nat.min_eq_left hj, Nat.min_eq_left hl, Nat.add_sub_cancel_left,
    Nat.add_sub_cancel_left, range_grid k k hk]

theorem patch_short (img : Tensor ℝ) {ch lx ly b j l k : ℕ} (hc : 0 < ch) (hk : 0 < k)
    (h : lx < j + k ∨ ly < l + k) : ∃ x, patch img ch lx ly b j l k = .ok x ∧ x.length < k ^ 2 := by
  unfold patch
  rw [raiseIf_false (by omega), Py.ok_bind]
  refine ⟨_, rfl, ?_⟩
  rw [List.length_flatMap]
  simp only [List.length_map, List.length_range, List.map_const', List.sum_replicate, smul_eq_mul]
  rw [pow_two]
  rcases h with h | h
  · exact Nat.mul_lt_mul_of_lt_of_le (by omega) (by omega) hk
  · exact Nat.mul_lt_mul_of_le_of_lt (by omega) (by omega) hk

theorem nodup_flatMap_proj {α β γ : Type} {l : List α} {f : α → List β} (hl : l.Nodup)
    (hf : ∀ x ∈ l, (f x).Nodup) (π : β → γ) (g : α → γ) (hp : ∀ x ∈ l, ∀ y ∈ f x, π y = g x)
    (hg : ∀ x ∈ l, ∀ y ∈ l, g x = g y → x = y) : (l.flatMap f).Nodup := by
  rw [List.nodup_flatMap]
  refine ⟨hf, ?_⟩
  refine hl.imp_of_mem ?_
  intro a b ha hb hab y hya hyb
  exact hab (hg a ha b hb ((hp a ha y hya).symm.trans (hp b hb y hyb)))

/-- The assignments of `forward`. -/
noncomputable def writes (batch K s lx ly : ℕ) (v : ℕ → ℕ → ℕ → ℕ → ℝ) : List (List ℕ × ℝ) :=
  (List.range batch).flatMap fun b => (rangeStep lx s).flatMap fun j => (rangeStep ly s).flatMap fun k =>
    (List.range K).map fun c => ([b, c, j / s, k / s], v b j k c)

theorem rangeStep_nodup {n s : ℕ} (hs : 0 < s) : (rangeStep n s).Nodup := by
  unfold rangeStep
  exact (List.nodup_range).map (fun a b h => Nat.eq_of_mul_eq_mul_right hs h)

theorem rangeStep_inj {n s : ℕ} (hs : 0 < s) : ∀ x ∈ rangeStep n s, ∀ y ∈ rangeStep n s, x / s = y / s → x = y := by
  intro x hx y hy h
  obtain ⟨a, rfl, -⟩ := (rangeStep_mem hs).1 hx
  obtain ⟨b, rfl, -⟩ := (rangeStep_mem hs).1 hy
  rw [Nat.mul_div_cancel _ hs, Nat.mul_div_cancel _ hs] at h
  rw [h]

theorem mem_writes {batch K s lx ly : ℕ} (v : ℕ → ℕ → ℕ → ℕ → ℝ) (w : List ℕ × ℝ) (hs : 0 < s) :
    w ∈ writes batch K s lx ly v ↔ ∃ b c x y, b < batch ∧ c < K ∧ x * s < lx ∧ y * s < ly ∧
      w = ([b, c, x, y], v b (x * s) (y * s) c) := by
  unfold writes
  simp only [List.mem_flatMap, List.mem_range, List.mem_map, rangeStep_mem hs]
  constructor
  · rintro ⟨b, hb, j, ⟨x, rfl, hx⟩, k, ⟨y, rfl, hy⟩, c, hc, rfl⟩
    exact ⟨b, c, x, y, hb, hc, hx, hy, by rw [Nat.mul_div_cancel _ hs, Nat.mul_div_cancel _ hs]⟩
  · rintro ⟨b, c, x, y, hb, hc, hx, hy, rfl⟩
    exact ⟨b, hb, _, ⟨x, rfl, hx⟩, _, ⟨y, rfl, hy⟩, c, hc, by
      rw [Nat.mul_div_cancel _ hs, Nat.mul_div_cancel _ hs]⟩

theorem writes_nodup {batch K s lx ly : ℕ} (v : ℕ → ℕ → ℕ → ℕ → ℝ) (hs : 0 < s) :
    ((writes batch K s lx ly v).map Prod.fst).Nodup := by
  unfold writes
  simp only [List.map_flatMap, List.map_map]
  refine nodup_flatMap_proj List.nodup_range (fun b _ => ?_) (fun y => y.getD 0 0) id ?_ (fun _ _ _ _ h => h)
  · refine nodup_flatMap_proj (rangeStep_nodup hs) (fun j _ => ?_) (fun y => y.getD 2 0) (fun j => j / s) ?_
      (rangeStep_inj hs)
    · refine nodup_flatMap_proj (rangeStep_nodup hs) (fun k _ => ?_) (fun y => y.getD 3 0) (fun j => j / s) ?_
        (rangeStep_inj hs)
      · refine List.nodup_range.map (fun c d h => ?_)
        simpa using h
      · intro k _ y hy
        simp only [List.mem_map] at hy
        obtain ⟨c, -, rfl⟩ := hy
        rfl
    · intro j _ y hy
      simp only [List.mem_flatMap, List.mem_map] at hy
      obtain ⟨k, -, c, -, rfl⟩ := hy
      rfl
  · intro b _ y hy
    simp only [List.mem_flatMap, List.mem_map] at hy
    obtain ⟨j, -, k, -, c, -, rfl⟩ := hy
    rfl

theorem out_len {n k s : ℕ} (hn : k ≤ n) : ((((n : ℤ) - k) / s + 1).toNat = (n - k) / s + 1) ∧
    ¬ (((n : ℤ) - k) / s + 1 < 0) := by
  have : ((n : ℤ) - k) / s + 1 = (((n - k) / s + 1 : ℕ) : ℤ) := by
    push_cast [Nat.cast_sub hn]; rfl
  rw [this]
  exact ⟨Int.toNat_natCast _, not_lt.2 (Int.natCast_nonneg _)⟩

/-- `forward` when all windows fit. -/
theorem forward_ok (m : QuanConv) (hn : m.n_qubits = m.kernel_size ^ 2) (hw : m.weight.length = 3 * m.n_qubits)
    (hK : 2 ≤ m.kernel_size) (hs : 0 < m.stride) (img : Tensor ℝ) {batch ch lx ly : ℕ}
    (hi : img.shape = [batch, ch, lx, ly]) (hc : 0 < ch) (hx : m.kernel_size ≤ lx) (hy : m.kernel_size ≤ ly)
    (fx : WindowsFit lx m.kernel_size m.stride) (fy : WindowsFit ly m.kernel_size m.stride) :
    m.forwardOut img = .ok ((⟨Tensor.zeros [batch, m.kernel_size ^ 2, (lx - m.kernel_size) / m.stride + 1,
      (ly - m.kernel_size) / m.stride + 1], []⟩ : Out).puts (writes batch (m.kernel_size ^ 2) m.stride lx ly
        (fun b j k c => if h : c < m.n_qubits then convValue m.angles
          (fun q => img.get [b, 0, j + q / m.kernel_size, k + q % m.kernel_size]) ⟨c, h⟩ else 0))) := by
  unfold forwardOut
  rw [hi]
  simp only
  have hox := out_len (s := m.stride) hx
  have hoy := out_len (s := m.stride) hy
  rw [raiseIf_false (by omega), Py.ok_bind, raiseIf_false (by tauto), Py.ok_bind, hox.1, hoy.1]
  have h2 : 2 ≤ m.n_qubits := by rw [hn]; nlinarith
  have cx := steps_eq hs (by omega) hx fx
  have cy := steps_eq hs (by omega) hy fy
  unfold writes
  refine foldlM_puts (S := [batch, m.kernel_size ^ 2, (lx - m.kernel_size) / m.stride + 1,
      (ly - m.kernel_size) / m.stride + 1]) _ _ _ (fun o ho b hb => ?_) _ rfl
  refine foldlM_puts _ _ _ (fun o ho j hj => ?_) _ ho
  refine foldlM_puts _ _ _ (fun o ho k hk => ?_) _ ho
  obtain ⟨x, rfl, hjx⟩ := (rangeStep_mem hs).1 hj
  obtain ⟨y, rfl, hky⟩ := (rangeStep_mem hs).1 hk
  rw [patch_full img hc (by omega) (fx x hjx) (fy y hky), Py.ok_bind, cell_ok m hw h2 _ (by simp [hn, pow_two]), Py.ok_bind]
  rw [foldlM_puts (S := [batch, m.kernel_size ^ 2, (lx - m.kernel_size) / m.stride + 1,
      (ly - m.kernel_size) / m.stride + 1]) _ _ (fun c => [([b, c, x * m.stride / m.stride, y * m.stride / m.stride],
      if h : c < m.n_qubits then convValue m.angles
          (fun q => img.get [b, 0, x * m.stride + q / m.kernel_size, y * m.stride + q % m.kernel_size]) ⟨c, h⟩ else 0)]) ?_ o ho]
  · rw [List.map_eq_flatMap]
  · intro o ho c hc
    rw [List.mem_range, ← hn] at hc
    rw [pyGet_nat (by simpa using hc), Py.ok_bind, assign_ok]
    · rw [dif_pos hc, List.getElem_ofFn]
      have : (fun q : Fin m.n_qubits => ((List.range (m.kernel_size * m.kernel_size)).map
          (fun q => img.get [b, 0, x * m.stride + q / m.kernel_size, y * m.stride + q % m.kernel_size])).getD q 0) =
          fun q : Fin m.n_qubits => img.get [b, 0, x * m.stride + q / m.kernel_size, y * m.stride + q % m.kernel_size] := by
        funext q
        have := q.2
        rw [List.getD_eq_getElem?_getD, List.getElem?_map, List.getElem?_range (by rw [← pow_two, ← hn]; exact this)]
        rfl
      exact congrArg (fun d => Except.ok (o.put ([b, c, x * m.stride / m.stride, y * m.stride / m.stride],
        convValue m.angles d ⟨c, hc⟩))) this
    · rw [ho]
      rw [List.mem_range] at hb
      have hx' : x < (lx - m.kernel_size) / m.stride + 1 := by
        have := (Nat.le_div_iff_mul_le hs).2 (show x * m.stride ≤ lx - m.kernel_size by have := fx x hjx; omega)
        omega
      have hy' : y < (ly - m.kernel_size) / m.stride + 1 := by
        have := (Nat.le_div_iff_mul_le hs).2 (show y * m.stride ≤ ly - m.kernel_size by have := fy y hky; omega)
        omega
      simp only [inB, Nat.mul_div_cancel _ hs, hb, ← hn, hc, hx', hy', decide_true, Bool.and_self]

theorem rangeStep_zero_mem {n s : ℕ} (hs : 0 < s) (hn : 0 < n) : 0 ∈ rangeStep n s :=
  (rangeStep_mem hs).2 ⟨0, by simp, by simpa using hn⟩

/-- A window that does not fit makes `forward` raise. -/
theorem forward_short (m : QuanConv) (hn : m.n_qubits = m.kernel_size ^ 2) (hw : m.weight.length = 3 * m.n_qubits)
    (hK : 2 ≤ m.kernel_size) (hs : 0 < m.stride) (img : Tensor ℝ) {batch ch lx ly : ℕ}
    (hi : img.shape = [batch, ch, lx, ly]) (hb : 0 < batch) (hc : 0 < ch) (hx : m.kernel_size ≤ lx)
    (hy : m.kernel_size ≤ ly)
    (hf : ¬ (WindowsFit lx m.kernel_size m.stride ∧ WindowsFit ly m.kernel_size m.stride)) :
    m.forwardOut img = .error .indexError := by
  unfold forwardOut
  rw [hi]
  simp only
  have hox := out_len (s := m.stride) hx
  have hoy := out_len (s := m.stride) hy
  rw [raiseIf_false (by omega), Py.ok_bind, raiseIf_false (by tauto), Py.ok_bind]
  have h2 : 2 ≤ m.n_qubits := by rw [hn]; nlinarith
  -- every step returns or raises an IndexError
  have hcell : ∀ (o : Out) (b j k : ℕ), OkOr .indexError (do
      let x ← patch img ch lx ly b j k m.kernel_size
      let v ← m.cell x
      (List.range (m.kernel_size ^ 2)).foldlM (fun (out : Out) (c : ℕ) => do
        out.assign [b, c, j / m.stride, k / m.stride] (← pyGet v (c : ℤ))) o) := by
    intro o b j k
    refine OkOr.bind ?_ fun x hx => OkOr.bind ?_ fun v hv => foldlM_okOr _ (fun o c _ => ?_) _
    · unfold patch; rw [raiseIf_false (by omega)]; exact .inr ⟨_, rfl⟩
    · by_cases hl : m.n_qubits ≤ x.length
      · exact .inr ⟨_, cell_ok m hw h2 x hl⟩
      · exact .inl (cell_short m x (not_le.1 hl))
    · refine (pyGet_okOr v c).bind fun y _ => ?_
      unfold Out.assign raiseIf
      split_ifs
      · exact .inl rfl
      · exact .inr ⟨_, rfl⟩
  have hbad : ∀ (o : Out) (b j k : ℕ), lx < j + m.kernel_size ∨ ly < k + m.kernel_size → (do
      let x ← patch img ch lx ly b j k m.kernel_size
      let v ← m.cell x
      (List.range (m.kernel_size ^ 2)).foldlM (fun (out : Out) (c : ℕ) => do
        out.assign [b, c, j / m.stride, k / m.stride] (← pyGet v (c : ℤ))) o) = .error .indexError := by
    intro o b j k h
    obtain ⟨x, hx, hl⟩ := patch_short img (b := b) hc (by omega) h
    rw [hx, Py.ok_bind, cell_short m x (by rw [hn]; exact hl)]
    rfl
  obtain ⟨j, hj, k, hk, hjk⟩ : ∃ j ∈ rangeStep lx m.stride, ∃ k ∈ rangeStep ly m.stride,
      lx < j + m.kernel_size ∨ ly < k + m.kernel_size := by
    by_cases h1 : WindowsFit lx m.kernel_size m.stride
    · have h2 : ¬ WindowsFit ly m.kernel_size m.stride := fun h2 => hf ⟨h1, h2⟩
      unfold WindowsFit at h2
      push Not at h2
      obtain ⟨a, ha, hl⟩ := h2
      exact ⟨0, rangeStep_zero_mem hs (by omega), a * m.stride, (rangeStep_mem hs).2 ⟨a, rfl, ha⟩, .inr hl⟩
    · unfold WindowsFit at h1
      push Not at h1
      obtain ⟨a, ha, hl⟩ := h1
      exact ⟨a * m.stride, (rangeStep_mem hs).2 ⟨a, rfl, ha⟩, 0, rangeStep_zero_mem hs (by omega), .inl hl⟩
  refine foldlM_error _ (fun o b _ => foldlM_okOr _ (fun o j _ => foldlM_okOr _ (fun o k _ => hcell o b j k) _) _)
    ⟨0, by simpa using hb, fun o => ?_⟩ _
  refine foldlM_error _ (fun o j _ => foldlM_okOr _ (fun o k _ => hcell o 0 j k) _) ⟨j, hj, fun o => ?_⟩ _
  exact foldlM_error _ (fun o k _ => hcell o 0 j k) ⟨k, hk, fun o => hbad o 0 j k hjk⟩ _

/-- With kernel size 1 `forward` raises on every nonempty image. -/
theorem forward_one (m : QuanConv) (hn : m.n_qubits = m.kernel_size ^ 2) (hw : m.weight.length = 3 * m.n_qubits)
    (hK : m.kernel_size = 1) (hs : 0 < m.stride) (img : Tensor ℝ) {batch ch lx ly : ℕ}
    (hi : img.shape = [batch, ch, lx, ly]) (hb : 0 < batch) (hc : 0 < ch) (hx : 0 < lx) (hy : 0 < ly) :
    m.forwardOut img = .error .valueError := by
  unfold forwardOut
  rw [hi]
  simp only
  have hox := out_len (s := m.stride) (show m.kernel_size ≤ lx by omega)
  have hoy := out_len (s := m.stride) (show m.kernel_size ≤ ly by omega)
  rw [raiseIf_false (by omega), Py.ok_bind, raiseIf_false (by tauto), Py.ok_bind]
  have h1 : m.n_qubits = 1 := by rw [hn, hK]; norm_num
  have hbad : ∀ (o : Out) (b : ℕ), ∀ j ∈ rangeStep lx m.stride, ∀ k ∈ rangeStep ly m.stride, (do
      let x ← patch img ch lx ly b j k m.kernel_size
      let v ← m.cell x
      (List.range (m.kernel_size ^ 2)).foldlM (fun (out : Out) (c : ℕ) => do
        out.assign [b, c, j / m.stride, k / m.stride] (← pyGet v (c : ℤ))) o) = .error .valueError := by
    intro o b j hj k hk
    obtain ⟨x, rfl, hjx⟩ := (rangeStep_mem hs).1 hj
    obtain ⟨y, rfl, hky⟩ := (rangeStep_mem hs).1 hk
    rw [patch_full img hc (by omega) (by omega) (by omega), Py.ok_bind, cell_one m h1 hw _ (by simp [h1, hK])]
    rfl
  have zx := rangeStep_zero_mem (s := m.stride) hs hx
  have zy := rangeStep_zero_mem (s := m.stride) hs hy
  have hin : ∀ (o : Out) (b : ℕ), ∀ j ∈ rangeStep lx m.stride, (rangeStep ly m.stride).foldlM (fun out k => do
          let x ← patch img ch lx ly b j k m.kernel_size
          let v ← m.cell x
          (List.range (m.kernel_size ^ 2)).foldlM (fun (out : Out) (c : ℕ) => do
            out.assign [b, c, j / m.stride, k / m.stride] (← pyGet v (c : ℤ))) out) o = .error .valueError :=
    fun o b j hj => foldlM_error _ (fun o k hk => .inl (hbad o b j hj k hk)) ⟨0, zy, fun o => hbad o b j hj 0 zy⟩ _
  have hin2 : ∀ (o : Out) (b : ℕ), (rangeStep lx m.stride).foldlM (fun out j =>
        (rangeStep ly m.stride).foldlM (fun out k => do
          let x ← patch img ch lx ly b j k m.kernel_size
          let v ← m.cell x
          (List.range (m.kernel_size ^ 2)).foldlM (fun (out : Out) (c : ℕ) => do
            out.assign [b, c, j / m.stride, k / m.stride] (← pyGet v (c : ℤ))) out) out) o = .error .valueError :=
    fun o b => foldlM_error _ (fun o j hj => .inl (hin o b j hj)) ⟨0, zx, fun o => hin o b 0 zx⟩ _
  exact foldlM_error _ (fun o b _ => .inl (hin2 o b)) ⟨0, by simpa using hb, fun o => hin2 o 0⟩ _

end QuanConv

end QTN
