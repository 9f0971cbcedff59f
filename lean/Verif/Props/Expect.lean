import Verif.Lemmas.Expect
import Verif.Lemmas.Expval
import Verif.Props.Mps

/-! # Properties C28, C29 and C37: expectation values -/

namespace QTN.Props

open QTN QTN.Spec Matrix

variable {N : ℕ}

/-! ## C28 -/

/-- C28: the matrix path returns `Re ⟨ψ|U† M U|ψ⟩` for every circuit of valid gates and layers, every
input row and every observable, and does not decompose anything. -/
theorem C28_matrix_path (svd : SVDOracle) (l : List (Item N)) (h : ∀ it ∈ l, it.WF)
    (init M : Tensor ℂ) (v : QState N) (hi : IsRow init v) (O : QOp N) (hM : Represents M O)
    (s : List (Tensor ℂ)) :
    ∃ ops, l.mapM buildItem = .ok ops ∧
      (circ N ops).cir_expectation svd init M false s =
        (.ok (braket ((circuitOp l)ᴴ * O * circuitOp l) v).re, s) := by
  obtain ⟨ops, hops, hU, -⟩ := C13_items N l h
  refine ⟨ops, hops, ?_⟩
  rw [cir_expectation_matrix svd _ (circ_nqubits N ops) hU hi hM false (by simp), braket_mul]

/-- C28 (partial: circuits all of whose operations have a working `TN_operation`, input not the zero
vector, no non-zero singular value discarded): both paths return `Re ⟨ψ|U† M U|ψ⟩`.
Missing for the full statement: circuits with rxx, ryy, rzz or a CNOT ring on other wires, for which it
is false (`C28_flagged_but_missing`). -/
theorem C28_paths_agree_partial {svd : SVDOracle} (hv : ValidSVD svd) (hN : 0 < N) (l : List (Item N))
    (h : ∀ it ∈ l, it.WF) (hc : ∀ it ∈ l, HasTN it) (init M : Tensor ℂ) (v : QState N)
    (hi : IsRow init v) (h0 : v ≠ 0) (O : QOp N) (hM : Represents M O) :
    ∃ ops, l.mapM buildItem = .ok ops ∧ ∀ s,
      (∀ A ∈ ((circ N ops).cir_expectation svd init M true s).2, Lossless A) →
      ∃ r s', (circ N ops).cir_expectation svd init M true s = (.ok r, s') ∧
        (circ N ops).cir_expectation svd init M false s = (.ok r, s) ∧
        r = (braket ((circuitOp l)ᴴ * O * circuitOp l) v).re := by
  obtain ⟨ops, hops, hF, hU⟩ := items_mps hv l h (fun it hit => hasTN_iff (hc it hit))
  refine ⟨ops, hops, fun s hl => ?_⟩
  obtain ⟨s', e⟩ := cir_expectation_tn hv hN (circ N ops) (circ_nqubits N ops) _
    (by rw [circ_gate]; exact hF) hi h0 hM s hl
  refine ⟨_, s', e, ?_, by rw [← braket_mul]; rfl⟩
  exact cir_expectation_matrix svd _ (circ_nqubits N ops) (C13_circuit_U N ops _ hU).1 hi hM false (by simp) s

/-- The operations flagged `supportTN=False`. -/
def Unflagged : Item N → Prop
  | .gate (.mcnot _ _) | .ring2 _ | .basic _ _ _ => True
  | _ => False

theorem py_bind_ok {α β : Type} {x : Py α} {f : α → Py β} {b : β} (h : (x >>= f) = .ok b) :
    ∃ a, x = .ok a ∧ f a = .ok b := by
  cases x with
  | error e => cases h
  | ok a => exact ⟨a, rfl, h⟩

theorem build_supportTN (it : Item N) (o : Op) (h : buildItem it = .ok o) :
    o.supportTN = false ↔ Unflagged it := by
  cases it with
  | gate ins =>
    obtain ⟨g, hg, h⟩ := py_bind_ok h
    cases h
    have hb := hg
    cases ins with
    | u3 => obtain ⟨m, hm, h⟩ := py_bind_ok hg; cases h; simp [Unflagged, Op.supportTN, Gate.supportTN]
    | cu3 =>
      obtain ⟨m, hm, h⟩ := py_bind_ok hg
      obtain ⟨m', hm', h⟩ := py_bind_ok h
      cases h; simp [Unflagged, Op.supportTN, Gate.supportTN]
    | toffoli a b t => cases hg; simp [Unflagged, Op.supportTN, Gate.supportTN]
    | mcnot cs t =>
      obtain ⟨m, hm, h⟩ := py_bind_ok hg
      obtain ⟨m', hm', h⟩ := py_bind_ok h
      cases h; simp [Unflagged, Op.supportTN, Gate.supportTN]
    | _ => cases hg; simp [Unflagged, Op.supportTN, Gate.supportTN]; rfl
  | layer k ws p =>
    obtain ⟨g, hg, h⟩ := py_bind_ok h
    cases h; simp [Unflagged, Op.supportTN]
  | hlayer ws =>
    obtain ⟨g, hg, h⟩ := py_bind_ok h
    cases h; simp [Unflagged, Op.supportTN]
  | basic ws p r =>
    obtain ⟨g, hg, h⟩ := py_bind_ok h
    cases h; simp [Unflagged, Op.supportTN]
  | _ =>
    obtain ⟨g, hg, h⟩ := py_bind_ok h
    obtain ⟨_, _, hg⟩ := py_bind_ok hg
    obtain ⟨_, _, hg⟩ := py_bind_ok hg
    cases h; cases hg; simp [Unflagged, Op.supportTN, Ring.supportTN]

theorem mapM_mem {α β : Type} {f : α → Py β} : ∀ {l : List α} {m : List β}, l.mapM f = .ok m →
    List.Forall₂ (fun a b => f a = .ok b) l m := by
  intro l
  induction l with
  | nil => intro m h; cases h; exact .nil
  | cons a l ih =>
    intro m h
    rw [List.mapM_cons] at h
    obtain ⟨b, hb, h⟩ := py_bind_ok h
    obtain ⟨bs, hbs, h⟩ := py_bind_ok h
    cases h
    exact .cons hb (ih hbs)

theorem forall₂_mem {α β : Type} {R : α → β → Prop} {l : List α} {m : List β} (h : List.Forall₂ R l m)
    {a : α} (ha : a ∈ l) : ∃ b ∈ m, R a b := by
  induction h with
  | nil => simp at ha
  | cons hr _ ih =>
    rcases List.mem_cons.1 ha with rfl | ha
    · exact ⟨_, by simp, hr⟩
    · obtain ⟨b, hb, h⟩ := ih ha
      exact ⟨b, by simp [hb], h⟩

/-- C28: a circuit with an operation flagged `supportTN=False` is evaluated by the matrix path whatever
is asked for, so both calls return `Re ⟨ψ|U† M U|ψ⟩` (for every input row, also the zero one). -/
theorem C28_fallback (svd : SVDOracle) (l : List (Item N)) (h : ∀ it ∈ l, it.WF)
    (it : Item N) (hit : it ∈ l) (hu : Unflagged it) (init M : Tensor ℂ) (v : QState N)
    (hi : IsRow init v) (O : QOp N) (hM : Represents M O) (tn : Bool) (s : List (Tensor ℂ)) :
    ∃ ops, l.mapM buildItem = .ok ops ∧
      (circ N ops).cir_expectation svd init M tn s =
        (.ok (braket ((circuitOp l)ᴴ * O * circuitOp l) v).re, s) := by
  obtain ⟨ops, hops, hU, -⟩ := C13_items N l h
  refine ⟨ops, hops, ?_⟩
  obtain ⟨o, ho, hb⟩ := forall₂_mem (mapM_mem hops) hit
  rw [cir_expectation_matrix svd _ (circ_nqubits N ops) hU hi hM tn ?_, braket_mul]
  rintro ⟨hc, -⟩
  unfold Circuit.TN_check at hc
  rw [circ_gate, List.all_eq_true] at hc
  have := hc o ho
  rw [(build_supportTN it o hb).2 hu] at this
  simp at this

/-- An operation flagged `supportTN=True` without a working `TN_operation`. -/
theorem flagged_raises (svd : SVDOracle) (it : Item N) (hw : it.WF) (hu : ¬ Unflagged it) (ht : ¬ HasTN it)
    (o : Op) (h : buildItem it = .ok o) (mps s : List (Tensor ℂ)) :
    ∃ e s', o.TN_operation svd mps s = (.error e, s') := by
  have hring : ∀ (ws : List (Fin N)), ws ≠ List.finRange N → wires ws ≠ pyRange N := by
    intro ws hws he
    apply hws
    have : wires (List.finRange N) = pyRange N := by
      unfold wires pyRange
      rw [Int.toNat_natCast]
      apply List.ext_getElem (by simp)
      intro i h1 h2
      simp
    rw [← this] at he
    exact List.map_injective_iff.2 (fun a b hab => Fin.ext (by simpa using hab)) he
  cases it with
  | gate ins =>
    obtain ⟨g, hg, h⟩ := py_bind_ok h
    cases h
    cases ins with
    | rxx θ p q => cases hg; exact ⟨_, _, rfl⟩
    | ryy θ p q => cases hg; exact ⟨_, _, rfl⟩
    | rzz θ p q => cases hg; exact ⟨_, _, rfl⟩
    | mcnot cs t => exact absurd trivial hu
    | _ => exact absurd trivial ht
  | ring ws =>
    obtain ⟨g, hg, h⟩ := py_bind_ok h
    obtain ⟨_, _, hg⟩ := py_bind_ok hg
    obtain ⟨_, _, hg⟩ := py_bind_ok hg
    cases h; cases hg
    exact ⟨_, _, (C21_other_wires svd N (wires ws) (hring ws ht) mps s).1⟩
  | ringDag ws =>
    obtain ⟨g, hg, h⟩ := py_bind_ok h
    obtain ⟨_, _, hg⟩ := py_bind_ok hg
    obtain ⟨_, _, hg⟩ := py_bind_ok hg
    cases h; cases hg
    exact ⟨_, _, (C21_other_wires svd N (wires ws) (hring ws ht) mps s).2⟩
  | _ => first | exact absurd trivial hu | exact absurd trivial ht

/-- C28, the remaining circuits: all operations are flagged `supportTN=True` but one of them (rxx, ryy,
rzz, or a CNOT ring on other wires) has no working `TN_operation`.  Then the claim is false: the
default call raises for every SVD routine, input and observable while `TN=False` returns the value. -/
theorem C28_flagged_but_missing (svd : SVDOracle) (l : List (Item N)) (h : ∀ it ∈ l, it.WF)
    (hf : ∀ it ∈ l, ¬ Unflagged it) (it : Item N) (hit : it ∈ l) (ht : ¬ HasTN it)
    (init M : Tensor ℂ) (v : QState N) (hi : IsRow init v) (O : QOp N) (hM : Represents M O)
    (s : List (Tensor ℂ)) :
    ∃ ops, l.mapM buildItem = .ok ops ∧
      (∃ e s', (circ N ops).cir_expectation svd init M true s = (.error e, s')) ∧
      ∃ r, (circ N ops).cir_expectation svd init M false s = (.ok r, s) := by
  obtain ⟨ops, hops, e0⟩ := C28_matrix_path svd l h init M v hi O hM s
  refine ⟨ops, hops, ?_, _, e0⟩
  have hc : (circ N ops).TN_check = true := by
    unfold Circuit.TN_check
    rw [circ_gate, List.all_eq_true]
    intro o ho
    obtain ⟨j, hj, hb⟩ := forall₂_mem (mapM_mem hops).flip ho
    have := build_supportTN j o hb
    by_contra hno
    exact hf j hj (this.1 (by simpa using hno))
  obtain ⟨o, ho, hb⟩ := forall₂_mem (mapM_mem hops) hit
  rw [cir_expectation_checks svd _ (by rw [hi.1, circ_nqubits]) hM.1, if_pos ⟨hc, rfl⟩, row_view_row hi,
    TNM.lift_ok_bind]
  rcases e1 : StateVec2MPS svd init (circ N ops).nqubits s with ⟨e | mps, s1⟩
  · exact ⟨e, s1, TNM.bind_error e1 _⟩
  rw [TNM.bind_ok e1]
  have : ∃ e s', (circ N ops).TN_evolution svd mps s1 = (.error e, s') := by
    by_cases hl : mps.length = (circ N ops).nqubits
    · unfold Circuit.TN_evolution
      rw [raiseIf_false (by simpa using hl), TNM.lift_ok_bind, circ_gate]
      refine tnm_foldlM_raises _ ops o ho (fun b s => ?_) mps s1
      split
      · exact flagged_raises svd it (h it hit) (hf it hit) ht o hb b s
      · exact ⟨_, _, rfl⟩
    · exact ⟨_, _, C22_wrong_length svd _ mps s1 hl⟩
  obtain ⟨e, s', e2⟩ := this
  exact ⟨e, s', TNM.bind_error e2 _⟩

/-- C28, error branch: an initial state that is not a `1 × 2^N` row raises ValueError (IndexError if it
has fewer than two dimensions). -/
theorem C28_rejects_init (svd : SVDOracle) (c : Circuit) (init M : Tensor ℂ) (tn : Bool)
    (a b : ℕ) (r : List ℕ) (hi : init.shape = a :: b :: r) (h : a ≠ 1 ∨ b ≠ 2 ^ c.nqubits)
    (s : List (Tensor ℂ)) : c.cir_expectation svd init M tn s = (.error .valueError, s) := by
  unfold Circuit.cir_expectation
  rw [show pyGet init.shape 0 = .ok a by rw [hi]; exact pyGet_nat (k := 0) (by simp), TNM.lift_ok_bind]
  by_cases ha : a = 1
  · rw [raiseIf_false (by simpa using ha), TNM.lift_ok_bind,
      show pyGet init.shape 1 = .ok b by rw [hi]; exact pyGet_nat (k := 1) (by simp), TNM.lift_ok_bind,
      raiseIf_true (by tauto), TNM.lift_error_bind]
  · rw [raiseIf_true ha, TNM.lift_error_bind]

/-- A single rotation on the Bell state. -/
example : ∃ svd, ValidSVD svd ∧ ∃ (init : Tensor ℂ) (v : QState 2) (ops : List Op), IsRow init v ∧ v ≠ 0 ∧
    [Item.gate (.rx 0.3 (0 : Fin 2))].mapM buildItem = .ok ops ∧
    ∀ A ∈ ((circ 2 ops).cir_expectation svd init (Tensor.eye 4) true []).2, Lossless A := by
  obtain ⟨svd, hv⟩ := exists_validSVD
  have hr : IsRow (bellVec 1 1) (fun a : Bits 2 => (bellVec 1 1).get [0, enc a]) := row_of_shape rfl
  have h0 : (fun a : Bits 2 => (bellVec 1 1).get [0, enc a]) ≠ 0 := by
    intro h
    have := congrFun h ![0, 0]
    have e : enc (![0, 0] : Bits 2) = 0 := by simp [enc]
    simp [e, bellVec, Tensor.ofFn] at this
  obtain ⟨o, ho, hf⟩ := single_item svd (Item.gate (.rx 0.3 (0 : Fin 2))) trivial trivial
  have hb := bell_lossless hv (p := 1) (q := 1) (by norm_num) (by norm_num)
  have hs : o.supportTN = true := by cases ho; rfl
  obtain ⟨mps, s1, e1, hm⟩ := sv2mps_exact hv (by omega) hr h0 (s := []) hb
  obtain ⟨mps', e, hm'⟩ := hf _ _ hm
  refine ⟨svd, hv, _, _, [o], hr, h0, by rw [List.mapM_cons, ho, Py.ok_bind]; rfl, ?_⟩
  have e2 : (circ 2 [o]).TN_evolution svd mps s1 = (.ok mps', s1) := by
    unfold Circuit.TN_evolution
    rw [raiseIf_false (by simp [circ_nqubits, hm.1]), TNM.lift_ok_bind, circ_gate, List.foldlM_cons, if_pos hs,
      TNM.bind_ok (e s1)]
    rfl
  have : ((circ 2 [o]).cir_expectation svd (bellVec 1 1) (Tensor.eye 4) true []).2 = s1 := by
    have hc : (circ 2 [o]).TN_check = true := by unfold Circuit.TN_check; rw [circ_gate]; simp [hs]
    obtain ⟨sv, esv, rsv⟩ := mps2sv_rep hm' (by omega)
    rw [cir_expectation_checks svd _ (by rw [hr.1, circ_nqubits]) (k := 4) rfl, if_pos ⟨hc, rfl⟩, row_view_row hr,
      TNM.lift_ok_bind, circ_nqubits, TNM.bind_ok e1, TNM.bind_ok e2, esv, TNM.lift_ok_bind]
    rfl
  rw [this]
  rw [e1] at hb
  exact hb

example : HasTN (.gate (.rx 0.3 (0 : Fin 2))) ∧ Unflagged (.ring2 [0, 1, 2] : Item 3) ∧
    ¬ HasTN (.gate (.rxx 0.3 0 1) : Item 2) ∧ ¬ Unflagged (.gate (.rxx 0.3 0 1) : Item 2) ∧
    Item.WF (.gate (.rxx 0.3 0 1) : Item 2) ∧
    Represents (Tensor.eye (2 ^ 2)) (1 : QOp 2) :=
  ⟨trivial, trivial, id, id, show (0 : Fin 2) ≠ 1 by decide, represents_eye⟩

/-! ## C29 -/

/-- C29: for a Hermitian observable the value returned by `cir_expectation` is the whole of
`⟨ψ|U† M U|ψ⟩`: the discarded imaginary part is zero. (Whichever path returned it; the paths are
covered by C28.) -/
theorem C29_cir_real (l : List (Item N)) (O : QOp N) (hO : Hermitian O) (v : QState N) :
    (((braket ((circuitOp l)ᴴ * O * circuitOp l) v).re : ℝ) : ℂ) =
      braket ((circuitOp l)ᴴ * O * circuitOp l) v := by
  apply Complex.ext
  · simp
  · rw [Complex.ofReal_im, ← braket_mul, braket_im hO]

/-- C29: for a circuit of valid gates and layers and a normalised input, every value returned by the
matrix path is the whole quadratic form and is bounded by every bound `B` of the quadratic form of the
observable on normalised states. -/
theorem C29_cir_bound (svd : SVDOracle) (l : List (Item N)) (h : ∀ it ∈ l, it.WF)
    (init M : Tensor ℂ) (v : QState N) (hi : IsRow init v) (hn : sqNorm v = 1) (O : QOp N)
    (hO : Hermitian O) (hM : Represents M O) (B : ℝ)
    (hB : ∀ w : QState N, sqNorm w = 1 → ‖braket O w‖ ≤ B) (s : List (Tensor ℂ)) :
    ∃ ops r, l.mapM buildItem = .ok ops ∧
      (circ N ops).cir_expectation svd init M false s = (.ok r, s) ∧
      (r : ℂ) = braket ((circuitOp l)ᴴ * O * circuitOp l) v ∧ |r| ≤ B := by
  obtain ⟨ops, hops, e⟩ := C28_matrix_path svd l h init M v hi O hM s
  refine ⟨ops, _, hops, e, C29_cir_real l O hO v, ?_⟩
  have h1 := hB (circuitOp l *ᵥ v) (by rw [sqNorm_unitary (circuitOp_unitary l h), hn])
  rw [braket_mul] at h1
  exact (Complex.abs_re_le_norm _).trans h1

/-- C29 for the tensor-network path. -/
theorem C29_cir_bound_tn {svd : SVDOracle} (hv : ValidSVD svd) (hN : 0 < N) (l : List (Item N))
    (h : ∀ it ∈ l, it.WF) (hc : ∀ it ∈ l, HasTN it)
    (init M : Tensor ℂ) (v : QState N) (hi : IsRow init v) (hn : sqNorm v = 1) (O : QOp N)
    (hO : Hermitian O) (hM : Represents M O) (B : ℝ)
    (hB : ∀ w : QState N, sqNorm w = 1 → ‖braket O w‖ ≤ B) :
    ∃ ops, l.mapM buildItem = .ok ops ∧ ∀ s,
      (∀ A ∈ ((circ N ops).cir_expectation svd init M true s).2, Lossless A) →
      ∃ r s', (circ N ops).cir_expectation svd init M true s = (.ok r, s') ∧
        (r : ℂ) = braket ((circuitOp l)ᴴ * O * circuitOp l) v ∧ |r| ≤ B := by
  have h0 : v ≠ 0 := by
    rintro rfl
    simp [sqNorm] at hn
  obtain ⟨ops, hops, hp⟩ := C28_paths_agree_partial hv hN l h hc init M v hi h0 O hM
  refine ⟨ops, hops, fun s hl => ?_⟩
  obtain ⟨r, s', e, -, hr⟩ := hp s hl
  refine ⟨r, s', e, by rw [hr]; exact C29_cir_real l O hO v, ?_⟩
  have h1 := hB (circuitOp l *ᵥ v) (by rw [sqNorm_unitary (circuitOp_unitary l h), hn])
  rw [braket_mul] at h1
  rw [hr]
  exact (Complex.abs_re_le_norm _).trans h1

theorem qsum_im {m : ℕ → ℕ → ℂ} {d : ℕ} (hH : ∀ i j, i < d → j < d → m i j = star (m j i)) (f : ℕ → ℂ) :
    (∑ i ∈ Finset.range d, ∑ j ∈ Finset.range d, star (f i) * m i j * f j).im = 0 := by
  rw [← Complex.conj_eq_iff_im, map_sum, Finset.sum_comm]
  refine Finset.sum_congr rfl fun a ha => ?_
  rw [map_sum]
  refine Finset.sum_congr rfl fun b hb => ?_
  rw [hH b a (by simpa using hb) (by simpa using ha)]
  simp only [map_mul, Complex.star_def, Complex.conj_conj]
  ring

/-- C29 for `expval` of a vector of any dimension: for Hermitian `M` the returned number is
`⟨ψ|M|ψ⟩` itself (nothing is lost by taking the real part), and any bound of the quadratic form on
vectors of that norm bounds it. -/
theorem C29_expval_vector (state M : Tensor ℂ) (d : ℕ) (psi : ℕ → ℂ) (m : ℕ → ℕ → ℂ)
    (hs : IsVec state d psi) (hM : IsMat M d m) (hH : ∀ i j, i < d → j < d → m i j = star (m j i))
    (B : ℝ) (hB : ‖∑ i ∈ Finset.range d, ∑ j ∈ Finset.range d, star (psi i) * m i j * psi j‖ ≤ B) :
    ∃ r, expval state M false = .ok r ∧
      (r : ℂ) = ∑ i ∈ Finset.range d, ∑ j ∈ Finset.range d, star (psi i) * m i j * psi j ∧ |r| ≤ B := by
  refine ⟨_, expval_vec hs hM, ?_, (Complex.abs_re_le_norm _).trans hB⟩
  apply Complex.ext
  · simp
  · rw [Complex.ofReal_im, qsum_im hH]

/-- C29 for `expval` of a density matrix: for Hermitian `rho` of unit trace and Hermitian `M` the
returned number is `Tr(rho M)` itself. -/
theorem C29_expval_density (rho M : Tensor ℂ) (d : ℕ) (r m : ℕ → ℕ → ℂ) (hr : IsMat rho d r)
    (hM : IsMat M d m) (hR : ∀ i j, i < d → j < d → r i j = star (r j i))
    (hH : ∀ i j, i < d → j < d → m i j = star (m j i)) (ht : ∑ i ∈ Finset.range d, r i i = 1) :
    ∃ e, expval rho M true = .ok e ∧
      (e : ℂ) = ∑ i ∈ Finset.range d, ∑ j ∈ Finset.range d, r i j * m j i := by
  refine ⟨_, by rw [expval_mat hr hM, if_neg (by rw [ht]; norm_num)], ?_⟩
  apply Complex.ext
  · simp
  · rw [Complex.ofReal_im, eq_comm, ← Complex.conj_eq_iff_im, map_sum, Finset.sum_comm]
    refine Finset.sum_congr rfl fun a ha => ?_
    rw [map_sum]
    refine Finset.sum_congr rfl fun b hb => ?_
    rw [hR b a (by simpa using hb) (by simpa using ha), hH a b (by simpa using ha) (by simpa using hb)]
    simp only [map_mul, Complex.star_def]

/-- Pauli Z on the first of two qubits is Hermitian and its quadratic form is bounded by 1. -/
example : Hermitian (onQubit (0 : Fin 2) Spec.Z) ∧
    ∀ w : QState 2, sqNorm w = 1 → ‖braket (onQubit (0 : Fin 2) Spec.Z) w‖ ≤ 1 :=
  ⟨hermitian_Z 0, fun w hw => hw ▸ braket_Z_le 0 w⟩

/-! ## C37 -/

/-- C37: for every vector `psi` of squared norm within `1e-4` of one and every `M` (not only Hermitian),
`expval(psi, M)` equals `expval(|psi⟩⟨psi|, M, rho=True)`. -/
theorem C37_vector_density (state rho M : Tensor ℂ) (d : ℕ) (psi : ℕ → ℂ) (m : ℕ → ℕ → ℂ)
    (hs : IsVec state d psi) (hr : IsMat rho d (fun i j => psi i * star (psi j))) (hM : IsMat M d m)
    (hn : |∑ i ∈ Finset.range d, ‖psi i‖ ^ 2 - 1| ≤ 1e-4) :
    ∃ e, expval state M false = .ok e ∧ expval rho M true = .ok e := by
  refine ⟨_, expval_vec hs hM, ?_⟩
  have ht : ∑ i ∈ Finset.range d, psi i * star (psi i) = ((∑ i ∈ Finset.range d, ‖psi i‖ ^ 2 : ℝ) : ℂ) := by
    rw [Complex.ofReal_sum]
    refine Finset.sum_congr rfl fun i _ => ?_
    rw [Complex.star_def, Complex.mul_conj, Complex.normSq_eq_norm_sq]
  rw [expval_mat hr hM, ht, if_neg]
  · refine congrArg Except.ok (congrArg Complex.re ?_)
    rw [Finset.sum_comm]
    refine Finset.sum_congr rfl fun i _ => Finset.sum_congr rfl fun j _ => ?_
    ring
  · rw [← Complex.ofReal_one, ← Complex.ofReal_sub, Complex.norm_real, Real.norm_eq_abs]
    exact not_lt.2 hn

/-- C37, boundary: the density-matrix call raises ValueError as soon as the squared norm is more than
`1e-4` away from one, whereas the vector call never checks the norm. -/
theorem C37_unnormalised (state rho M : Tensor ℂ) (d : ℕ) (psi : ℕ → ℂ) (m : ℕ → ℕ → ℂ)
    (hs : IsVec state d psi) (hr : IsMat rho d (fun i j => psi i * star (psi j))) (hM : IsMat M d m)
    (hn : |∑ i ∈ Finset.range d, ‖psi i‖ ^ 2 - 1| > 1e-4) :
    (∃ e, expval state M false = .ok e) ∧ expval rho M true = .error .valueError := by
  refine ⟨⟨_, expval_vec hs hM⟩, ?_⟩
  have ht : ∑ i ∈ Finset.range d, psi i * star (psi i) = ((∑ i ∈ Finset.range d, ‖psi i‖ ^ 2 : ℝ) : ℂ) := by
    rw [Complex.ofReal_sum]
    refine Finset.sum_congr rfl fun i _ => ?_
    rw [Complex.star_def, Complex.mul_conj, Complex.normSq_eq_norm_sq]
  rw [expval_mat hr hM, ht, if_pos]
  rw [← Complex.ofReal_one, ← Complex.ofReal_sub, Complex.norm_real, Real.norm_eq_abs]
  exact hn

/-- A normalised complex vector with its projector and a non-Hermitian matrix. -/
example : ∃ (state rho M : Tensor ℂ) (psi : ℕ → ℂ) (m : ℕ → ℕ → ℂ), IsVec state 2 psi ∧
    IsMat rho 2 (fun i j => psi i * star (psi j)) ∧ IsMat M 2 m ∧
    |∑ i ∈ Finset.range 2, ‖psi i‖ ^ 2 - 1| ≤ 1e-4 ∧ m 0 1 ≠ star (m 1 0) := by
  let psi : ℕ → ℂ := fun i => if i = 0 then (3 / 5 : ℝ) else (4 / 5 : ℝ) * Complex.I
  let m : ℕ → ℕ → ℂ := fun i j => if i < j then 1 else 0
  refine ⟨Tensor.ofFn [2] (fun x => psi (x.getD 0 0)),
    Tensor.ofFn [2, 2] (fun x => psi (x.getD 0 0) * star (psi (x.getD 1 0))),
    Tensor.ofFn [2, 2] (fun x => m (x.getD 0 0) (x.getD 1 0)), psi, m, .inl ⟨rfl, fun i hi => ?_⟩,
    ⟨rfl, fun i j hi hj => ?_⟩, ⟨rfl, fun i j hi hj => ?_⟩, ?_, ?_⟩
  · rw [Tensor.get_ofFn (by simp [hi])]; rfl
  · rw [Tensor.get_ofFn (by simp [hi, hj])]; rfl
  · rw [Tensor.get_ofFn (by simp [hi, hj])]; rfl
  · simp [Finset.sum_range_succ, psi]; norm_num
  · simp [m]

end QTN.Props
