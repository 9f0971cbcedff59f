import Verif.Lemmas.TrigPoly
import Verif.Lemmas.Shift
import Verif.Props.Classify
import Verif.Props.Train

/-! # Property C91: the networks are trigonometric polynomials of their inputs and weights -/

namespace QTN.Props

open QTN QTN.Spec Matrix Finset

variable {N : ℕ}

theorem halfState_each {G : ℝ → Fin N → Mat2} {δ : Fin N → ℕ}
    (h : ∀ j a, HalfTrig (δ j) (fun x => G x j a 0) ∧ HalfTrig (δ j) (fun x => star (G x j a 0))) :
    HalfState (∑ j, δ j) (fun x => onEach (G x) *ᵥ ket0 N) := by
  intro a
  constructor
  · exact (HalfTrig.prod univ δ (fun j x => G x j (a j) 0) fun j _ => (h j (a j)).1).congr
      fun x => onEach_ket0 _ _
  · refine (HalfTrig.prod univ δ (fun j x => star (G x j (a j) 0)) fun j _ => (h j (a j)).2).congr fun x => ?_
    beta_reduce
    rw [onEach_ket0, star_prod]

theorem halfTrig_rot (P : Mat2) (a b : Fin 2) : HalfTrig 1 (fun x => rot P x a b) ∧
    HalfTrig 1 (fun x => star (rot P x a b)) := by
  constructor
  · refine (HalfTrig.half ((1 : Mat2) a b) (-(Complex.I * P a b))).congr fun x => ?_
    simp [rot]
    ring
  · refine (HalfTrig.half (star ((1 : Mat2) a b)) (star (-(Complex.I * P a b)))).congr fun x => ?_
    simp only [rot, Matrix.sub_apply, Matrix.smul_apply, smul_eq_mul, star_sub, star_mul', star_neg,
      Complex.star_def, Complex.conj_ofReal]
    ring

theorem getD_set (x : List ℝ) (m j : ℕ) (θ : ℝ) (h : m < x.length) :
    (x.set m θ).getD j 0 = if j = m then θ else x.getD j 0 := by
  rw [List.getD_eq_getElem?_getD, List.getElem?_set, List.getD_eq_getElem?_getD]
  by_cases e : j = m
  · subst e; simp [h]
  · simp [e, Ne.symm e]

theorem copies_eq (N n m : ℕ) : copies N n m = ∑ j : Fin N, if (j : ℕ) % n = m then 1 else 0 := by
  unfold copies
  rw [card_filter, Fin.sum_univ_eq_sum_range (fun j => if j % n = m then 1 else 0)]

/-- The encoded state as a function of one entry of the sample. -/
theorem halfState_enc (P : Mat2) (x : List ℝ) (m : ℕ) (h : m < x.length) :
    HalfState (copies N x.length m) (fun θ => encOp P (x.set m θ) (List.finRange N) *ᵥ ket0 N) := by
  rw [copies_eq]
  refine halfState_each (G := fun θ j => if j ∈ List.finRange N then
    rot P ((x.set m θ).getD ((List.finRange N).idxOf j % (x.set m θ).length) 0) else 1) fun j a => ?_
  simp only [List.mem_finRange, if_true, List.length_set, List.idxOf_finRange, getD_set _ _ _ _ h]
  split_ifs
  · exact halfTrig_rot P a 0
  · exact ⟨HalfTrig.const _, HalfTrig.const _⟩

theorem trigPoly_enc (P : Mat2) (U O : QOp N) (x : List ℝ) (m : ℕ) (h : m < x.length) :
    IsTrigPoly (copies N x.length m)
      (fun θ => (braket O (U *ᵥ encOp P (x.set m θ) (List.finRange N) *ᵥ ket0 N)).re) :=
  ((halfState_enc P x m h).mulVec U).braket O

/-! ## The inputs -/

theorem goodSamples_set {pre post : List (List ℝ)} {x : List ℝ} (hb : GoodSamples N (pre ++ x :: post)) (m : ℕ)
    (θ : ℝ) : GoodSamples N (pre ++ x.set m θ :: post) := by
  intro y hy
  rcases List.mem_append.1 hy with h | h
  · exact hb y (List.mem_append_left _ h)
  rcases List.mem_cons.1 h with rfl | h
  · have := hb x (by simp)
    simpa using this
  · exact hb y (List.mem_append_right _ (List.mem_cons_of_mem _ h))

theorem goodBatch_set {pre post : List (List ℝ)} {x : List ℝ} (hb : GoodBatch N (pre ++ x :: post)) (m : ℕ)
    (θ : ℝ) : GoodBatch N (pre ++ x.set m θ :: post) :=
  ⟨by simp, goodSamples_set hb.2 m θ⟩

/-- C91: an output of test_qnn_demo.py, as a function of one entry of a sample, is a trigonometric polynomial; its
degree is at most the number of qubits that are rotated by this entry. -/
theorem C91_qnn (hN : 2 ≤ N) (w : List ℝ) (hw : w.length = 15 * N) (pre post : List (List ℝ)) (x : List ℝ)
    (hb : GoodSamples N (pre ++ x :: post)) (m : ℕ) (hm : m < x.length) (i : Fin N) :
    ∃ f, IsTrigPoly (copies N x.length m) f ∧ ∀ θ, ∃ t,
      Qnn.forward Qnn.layers N w (pre ++ x.set m θ :: post) = .ok t ∧ t.get [pre.length, (i : ℕ)] = f θ := by
  refine ⟨_, (trigPoly_enc Spec.Y (circuitOp (qnnItems N w)) (onQubit i Spec.Z) x m hm).const_mul 4, fun θ => ?_⟩
  obtain ⟨t, et, -, gt⟩ := C75_qnn hN w hw _ (goodSamples_set hb m θ)
  refine ⟨t, et, ?_⟩
  have := gt ⟨pre.length, by simp⟩ i
  simpa [qnnValue, qnnState] using this

/-- C91: the same for test_qcnn_demo.py. -/
theorem C91_qcnn (hN : 2 ≤ N) (w : List ℝ) (hw : w.length = 18 * N) (pre post : List (List ℝ)) (x : List ℝ)
    (hb : GoodSamples N (pre ++ x :: post)) (m : ℕ) (hm : m < x.length) (i : Fin N) :
    ∃ f, IsTrigPoly (copies N x.length m) f ∧ ∀ θ, ∃ t,
      Qnn.forward Qnn.layersQcnn N w (pre ++ x.set m θ :: post) = .ok t ∧ t.get [pre.length, (i : ℕ)] = f θ := by
  refine ⟨_, (trigPoly_enc Spec.Y (circuitOp (qcnnItems N w)) (onQubit i Spec.Z) x m hm).const_mul 4, fun θ => ?_⟩
  obtain ⟨t, et, -, gt⟩ := C75_qcnn hN w hw _ (goodSamples_set hb m θ)
  refine ⟨t, et, ?_⟩
  have := gt ⟨pre.length, by simp⟩ i
  simpa [qnnValue, qnnState] using this

/-- C91: the same for the two matrix variants of test_TN_train2.py. -/
theorem C91_train (hN : 2 ≤ N) (w : List ℝ) (hw : w.length = 21 * N) (pre post : List (List ℝ)) (x : List ℝ)
    (hb : GoodBatch N (pre ++ x :: post)) (m : ℕ) (hm : m < x.length) :
    ∃ f, IsTrigPoly (copies N x.length m) f ∧ ∀ θ, ∃ t,
      Train2.forward3 N w (pre ++ x.set m θ :: post) = .ok t ∧
      Train2.forward1 N w (pre ++ x.set m θ :: post) = .ok t ∧ t.get [pre.length, 0] = f θ := by
  refine ⟨_, trigPoly_enc Spec.X (circuitOp (trainItems N w)) (onQubit ⟨0, by omega⟩ Spec.Z) x m hm, fun θ => ?_⟩
  obtain ⟨t, ht, e3, e1⟩ := C72_matrix hN w hw _ (goodBatch_set hb m θ)
  refine ⟨t, e3, e1, ?_⟩
  have := ht.2 pre.length (by simp)
  simpa [trainValue, trainState] using this

/-- C91: the circuit of the classifier turns every qubit twice by its angle: the degree is at most twice the number
of these qubits. -/
theorem C91_classify (hN : 2 ≤ N) (w : List ℝ) (hw : w.length = 21 * N) (pre post : List (List ℝ)) (x : List ℝ)
    (hb : GoodSamples N (pre ++ x :: post)) (m : ℕ) (hm : m < x.length) (i : Fin N) :
    ∃ f, IsTrigPoly (2 * copies N x.length m) f ∧ ∀ θ, ∃ t,
      Classify.forward N w (pre ++ x.set m θ :: post) = .ok t ∧ t.get [pre.length, (i : ℕ)] = f θ := by
  have hs : HalfState (2 * copies N x.length m) (fun θ => (clsEncoded (x.set m θ) : QState N)) := by
    rw [copies_eq, mul_sum]
    simp only [clsEncoded_eq, List.length_set, getD_set _ _ _ _ hm]
    refine halfState_each (G := fun θ (j : Fin N) => rot Spec.Z (if (j : ℕ) % x.length = m then θ else
      x.getD (j % x.length) 0) * rot Spec.Y (if (j : ℕ) % x.length = m then θ else x.getD (j % x.length) 0))
      fun j a => ?_
    split_ifs
    · constructor
      · exact HalfTrig.sum univ (fun b θ => rot Spec.Z θ a b * rot Spec.Y θ b 0)
          fun b _ => (halfTrig_rot _ _ _).1.mul (halfTrig_rot _ _ _).1
      · refine (HalfTrig.sum univ (fun b θ => star (rot Spec.Z θ a b) * star (rot Spec.Y θ b 0))
          fun b _ => (halfTrig_rot _ _ _).2.mul (halfTrig_rot _ _ _).2).congr fun θ => ?_
        rw [Matrix.mul_apply, star_sum]
        exact sum_congr rfl fun b _ => star_mul' _ _
    · exact ⟨HalfTrig.const _, HalfTrig.const _⟩
  refine ⟨_, ((hs.mulVec (circuitOp (clsItems N w))).braket (onQubit i Spec.Z)).const_mul 4, fun θ => ?_⟩
  obtain ⟨t, et, -, gt⟩ := C81_circuit hN w hw _ (goodSamples_set hb m θ)
  refine ⟨t, et, ?_⟩
  have := gt ⟨pre.length, by simp⟩ i
  simpa [clsState] using this

/-! ## The weights -/

/-- A part of the circuits of the demos. -/
inductive Piece
  | yzy
  | ring
  | ring2
  | basic (reps : ℕ)

/-- The number of weights of a part. -/
def Piece.size (N : ℕ) : Piece → ℕ
  | .yzy => 3 * N
  | .basic r => 3 * N * r
  | _ => 0

/-- The part with its weights. -/
noncomputable def Piece.item (N : ℕ) (p : List ℝ) : Piece → Item N
  | .yzy => .layer .yzy (List.finRange N) p
  | .ring => .ring (List.finRange N)
  | .ring2 => .ring2 (List.finRange N)
  | .basic r => .basic (List.finRange N) p r

/-- Parts in sequence that take their weights from one list. -/
noncomputable def assemble (N : ℕ) : List Piece → List ℝ → List (Item N)
  | [], _ => []
  | p :: ps, w => p.item N (w.take (p.size N)) :: assemble N ps (w.drop (p.size N))

theorem assemble_set (ps : List Piece) (w : List ℝ) (hw : w.length = (ps.map (Piece.size N)).sum) (j : ℕ)
    (hj : j < w.length) : (∀ x, setParam (assemble N ps w) j x = assemble N ps (w.set j x)) ∧
      (∀ it, ownerOf (assemble N ps w) j = some it → Spec.Item.shiftOk it) ∧ j < (allParams (assemble N ps w)).length := by
  induction ps generalizing w j with
  | nil =>
    simp at hw
    simp [hw] at hj
  | cons p ps ih =>
    simp only [List.map_cons, List.sum_cons] at hw
    have hlen : (p.item N (w.take (p.size N))).params.length = p.size N := by
      cases p <;> simp [Piece.item, Item.params, Piece.size] <;> simp [Piece.size] at hw <;> omega
    have hall : (allParams (assemble N (p :: ps) w)).length = p.size N +
        (allParams (assemble N ps (w.drop (p.size N)))).length := by
      simp only [assemble, allParams, List.flatMap_cons, List.length_append]
      rw [hlen]
    by_cases h : j < p.size N
    · have hp : Spec.Item.shiftOk (p.item N (w.take (p.size N))) := by cases p <;> trivial
      refine ⟨fun x => ?_, fun it hit => ?_, by rw [hall]; omega⟩
      · rw [assemble, setParam, if_pos (by rw [hlen]; exact h), assemble, drop_set_lt _ _ _ _ h, List.take_set]
        congr 1
        cases p
        · rfl
        · simp [Piece.size] at h
        · simp [Piece.size] at h
        · rfl
      · rw [assemble, ownerOf, if_pos (by rw [hlen]; exact h)] at hit
        cases hit
        exact hp
    · obtain ⟨h1, h2, h3⟩ := ih (w.drop (p.size N)) (by rw [List.length_drop, hw]; omega) (j - p.size N)
        (by rw [List.length_drop]; omega)
      refine ⟨fun x => ?_, fun it hit => ?_, by rw [hall]; omega⟩
      · rw [assemble, setParam, if_neg (by rw [hlen]; exact h), hlen, h1, assemble,
          drop_set_ge _ _ _ _ (by omega), List.take_set_of_le (by omega)]
      · rw [assemble, ownerOf, if_neg (by rw [hlen]; exact h), hlen] at hit
        exact h2 it hit

/-- C91: an expectation value, as a function of one parameter of a circuit, is a trigonometric polynomial of degree
at most 1, unless the parameter belongs to a controlled U3. -/
theorem C91_parameter (O : QOp N) (v : QState N) (l : List (Item N)) (h : ∀ it ∈ l, it.WF) (j : ℕ)
    (hj : j < (allParams l).length) (hs : ∀ it, ownerOf l j = some it → Spec.Item.shiftOk it) :
    IsTrigPoly 1 (fun x => energy O v (setParam l j x)) := by
  obtain ⟨pre, it, post, i, rfl, hi, rfl⟩ := split_param l j hj
  unfold energy
  simp only [setParam_append _ _ _ _ hi, circuitOp_split]
  obtain ⟨G, g, ⟨C, S, hG⟩, hg, e⟩ := ((item_shiftable it (h it (by simp))
    (hs it (ownerOf_append _ _ _ _ hi)) i hi).mul_left (circuitOp post)).mul_right (circuitOp pre)
  obtain ⟨α, β, γ, hk⟩ := braket_trig O (C *ᵥ v) (S *ᵥ v)
  refine ⟨fun k => if k = 0 then α else β, fun _ => γ, fun x => ?_⟩
  beta_reduce at e ⊢
  rw [e, Matrix.smul_mulVec, braket_phase _ _ _ (hg x), hG, Matrix.add_mulVec, Matrix.smul_mulVec,
    Matrix.smul_mulVec, hk]
  simp [sum_range_succ]
  ring

theorem controlled_trig {F : ℝ → Mat2} (h : Trig F) (c t : Fin N) : ∃ A C S : QOp N, ∀ x,
    controlled [c] t (F x) = A + (Real.cos (x / 2) : ℂ) • C + (Real.sin (x / 2) : ℂ) • S := by
  obtain ⟨C, S, h⟩ := h
  refine ⟨Matrix.of fun a b => if b c = 1 then 0 else (1 : QOp N) a b,
    Matrix.of fun a b => if b c = 1 then onQubit t C a b else 0,
    Matrix.of fun a b => if b c = 1 then onQubit t S a b else 0, fun x => ?_⟩
  rw [h]
  funext a b
  rw [Matrix.add_apply, Matrix.add_apply, Matrix.smul_apply, Matrix.smul_apply]
  unfold controlled
  by_cases hc : b c = 1
  · simp [hc, onQubit_add, onQubit_smul']
  · simp [hc]

/-- C91: as a function of one angle of a controlled U3 an expectation value also has the frequency one half: it is a
trigonometric polynomial of degree at most 2 of half the angle. -/
theorem C91_cu3 (O : QOp N) (v : QState N) (pre post : List (Item N)) (θ φ l : ℝ) (c t : Fin N) :
    (∃ f, IsTrigPoly 2 f ∧ ∀ x, energy O v (pre ++ .gate (.cu3 x φ l c t) :: post) = f (x / 2)) ∧
    (∃ f, IsTrigPoly 2 f ∧ ∀ x, energy O v (pre ++ .gate (.cu3 θ x l c t) :: post) = f (x / 2)) ∧
    (∃ f, IsTrigPoly 2 f ∧ ∀ x, energy O v (pre ++ .gate (.cu3 θ φ x c t) :: post) = f (x / 2)) := by
  have key : ∀ (F : ℝ → Mat2), Trig F → ∃ f, IsTrigPoly 2 f ∧ ∀ x,
      (braket O ((circuitOp post * controlled [c] t (F x) * circuitOp pre) *ᵥ v)).re = f (x / 2) := by
    intro F hF
    obtain ⟨A, C, S, e⟩ := controlled_trig hF c t
    refine ⟨fun y => (braket O (circuitOp post *ᵥ (A *ᵥ circuitOp pre *ᵥ v +
      (Real.cos y : ℂ) • (C *ᵥ circuitOp pre *ᵥ v) + (Real.sin y : ℂ) • (S *ᵥ circuitOp pre *ᵥ v)))).re, ?_, ?_⟩
    · refine HalfState.braket (HalfState.mulVec (fun a => ⟨?_, ?_⟩) _) _
      · exact HalfTrig.full _ _ _
      · refine (HalfTrig.full (star ((A *ᵥ circuitOp pre *ᵥ v) a)) (star ((C *ᵥ circuitOp pre *ᵥ v) a))
          (star ((S *ᵥ circuitOp pre *ᵥ v) a))).congr fun x => ?_
        simp only [Pi.add_apply, Pi.smul_apply, smul_eq_mul, star_add, star_mul', Complex.star_def,
          Complex.conj_ofReal]
    · intro x
      rw [e, ← mulVec_mulVec, ← mulVec_mulVec, add_mulVec, add_mulVec, smul_mulVec, smul_mulVec]
  simp only [energy, circuitOp_split]
  exact ⟨key _ (trig_U3_theta φ l), key _ (trig_U3_phi θ l), key _ (trig_U3_lambda θ φ)⟩

/-- The parts of the circuits of test_qnn_demo.py, test_qcnn_demo.py, test_TN_train2.py and the classifier. -/
def qnnPieces : List Piece := [.basic 1, .basic 1, .yzy, .ring2, .yzy, .ring2, .yzy]
def qcnnPieces : List Piece := [.yzy, .ring, .yzy, .ring, .yzy, .ring2, .yzy, .ring2, .basic 1, .yzy]
def trainPieces : List Piece := [.yzy, .ring, .yzy, .ring, .yzy, .ring, .yzy, .ring, .yzy, .ring, .yzy, .ring, .yzy]
def clsPieces : List Piece := [.basic 6, .yzy]

theorem qnn_assemble (N : ℕ) (w : List ℝ) : qnnItems N w = assemble N qnnPieces w := by
  have : 3 * N + 3 * N = 3 * N * 2 ∧ 3 * N * 2 + 3 * N = 3 * N * 3 ∧ 3 * N * 3 + 3 * N = 3 * N * 4 := by omega
  simp [qnnItems, qnnPieces, assemble, Piece.item, Piece.size, weightBlock, List.drop_drop, this]

theorem qcnn_assemble (N : ℕ) (w : List ℝ) : qcnnItems N w = assemble N qcnnPieces w := by
  have : 3 * N + 3 * N = 3 * N * 2 ∧ 3 * N * 2 + 3 * N = 3 * N * 3 ∧ 3 * N * 3 + 3 * N = 3 * N * 4 ∧
    3 * N * 4 + 3 * N = 3 * N * 5 := by omega
  simp [qcnnItems, qcnnPieces, assemble, Piece.item, Piece.size, weightBlock, List.drop_drop, this]

theorem train_assemble (N : ℕ) (w : List ℝ) : trainItems N w = assemble N trainPieces w := by
  have : 3 * N + 3 * N = 3 * N * 2 ∧ 3 * N * 2 + 3 * N = 3 * N * 3 ∧ 3 * N * 3 + 3 * N = 3 * N * 4 ∧
    3 * N * 4 + 3 * N = 3 * N * 5 ∧ 3 * N * 5 + 3 * N = 3 * N * 6 := by omega
  simp [trainItems, trainPieces, assemble, Piece.item, Piece.size, List.drop_drop, this, List.range_succ]

theorem cls_assemble (N : ℕ) (w : List ℝ) : clsItems N w = assemble N clsPieces w := by
  have : 3 * N * 6 = 18 * N := by omega
  simp [clsItems, clsPieces, assemble, Piece.item, Piece.size, weightBlock, this]

theorem trigPoly_weight (O : QOp N) (v : QState N) (ps : List Piece) (w : List ℝ)
    (hw : w.length = (ps.map (Piece.size N)).sum) (hwf : ∀ it ∈ assemble N ps w, it.WF) (j : ℕ) (hj : j < w.length) :
    IsTrigPoly 1 (fun θ => (braket O (circuitOp (assemble N ps (w.set j θ)) *ᵥ v)).re) := by
  obtain ⟨h1, h2, h3⟩ := assemble_set ps w hw j hj
  exact (C91_parameter O v _ hwf j h3 h2).congr fun θ => by rw [h1]; rfl

/-- C91: as a function of one of its weights, an output of each of the four networks is `α + β cos θ + γ sin θ`. -/
theorem C91_weight (hN : 2 ≤ N) (w : List ℝ) (batch : List (List ℝ)) (j : ℕ) (hj : j < w.length)
    (k : Fin batch.length) (i : Fin N) :
    (w.length = 15 * N → GoodSamples N batch → ∃ f, IsTrigPoly 1 f ∧ ∀ θ, ∃ t,
      Qnn.forward Qnn.layers N (w.set j θ) batch = .ok t ∧ t.get [(k : ℕ), (i : ℕ)] = f θ) ∧
    (w.length = 18 * N → GoodSamples N batch → ∃ f, IsTrigPoly 1 f ∧ ∀ θ, ∃ t,
      Qnn.forward Qnn.layersQcnn N (w.set j θ) batch = .ok t ∧ t.get [(k : ℕ), (i : ℕ)] = f θ) ∧
    (w.length = 21 * N → GoodBatch N batch → ∃ f, IsTrigPoly 1 f ∧ ∀ θ, ∃ t,
      Train2.forward3 N (w.set j θ) batch = .ok t ∧ Train2.forward1 N (w.set j θ) batch = .ok t ∧
        t.get [(k : ℕ), 0] = f θ) ∧
    (w.length = 21 * N → GoodSamples N batch → ∃ f, IsTrigPoly 1 f ∧ ∀ θ, ∃ t,
      Classify.forward N (w.set j θ) batch = .ok t ∧ t.get [(k : ℕ), (i : ℕ)] = f θ) := by
  refine ⟨fun hw hb => ?_, fun hw hb => ?_, fun hw hb => ?_, fun hw hb => ?_⟩
  · refine ⟨_, (trigPoly_weight (onQubit i Spec.Z) (encOp Spec.Y batch[k] (List.finRange N) *ᵥ ket0 N) qnnPieces w
      (by simp [qnnPieces, Piece.size, hw]; omega) (by rw [← qnn_assemble]; exact qnnItems_wf hN hw) j hj).const_mul 4,
      fun θ => ?_⟩
    obtain ⟨t, et, -, gt⟩ := C75_qnn hN (w.set j θ) (by simpa using hw) batch hb
    exact ⟨t, et, by rw [gt, qnnValue, qnnState, qnn_assemble]⟩
  · refine ⟨_, (trigPoly_weight (onQubit i Spec.Z) (encOp Spec.Y batch[k] (List.finRange N) *ᵥ ket0 N) qcnnPieces w
      (by simp [qcnnPieces, Piece.size, hw]; omega) (by rw [← qcnn_assemble]; exact qcnnItems_wf hN hw) j hj).const_mul 4,
      fun θ => ?_⟩
    obtain ⟨t, et, -, gt⟩ := C75_qcnn hN (w.set j θ) (by simpa using hw) batch hb
    exact ⟨t, et, by rw [gt, qnnValue, qnnState, qcnn_assemble]⟩
  · refine ⟨_, trigPoly_weight (onQubit ⟨0, by omega⟩ Spec.Z) (encOp Spec.X batch[k] (List.finRange N) *ᵥ ket0 N)
      trainPieces w (by simp [trainPieces, Piece.size, hw]; omega)
      (by rw [← train_assemble]; exact fun it hit => (trainItems_wf hN hw it hit).1) j hj, fun θ => ?_⟩
    obtain ⟨t, ht, e3, e1⟩ := C72_matrix hN (w.set j θ) (by simpa using hw) batch hb
    refine ⟨t, e3, e1, ?_⟩
    have := ht.2 k (by simp)
    rw [this, List.getElem_map, trainValue, trainState, train_assemble]
    rfl
  · refine ⟨_, (trigPoly_weight (onQubit i Spec.Z) (clsEncoded batch[k]) clsPieces w
      (by simp [clsPieces, Piece.size, hw]; omega) (by rw [← cls_assemble]; exact clsItems_wf hN hw) j hj).const_mul 4,
      fun θ => ?_⟩
    obtain ⟨t, et, -, gt⟩ := C81_circuit hN (w.set j θ) (by simpa using hw) batch hb
    exact ⟨t, et, by rw [gt, clsState, cls_assemble]⟩

/-! ## Consequences -/

/-- C91: a whole turn more of an input or a weight makes no difference. -/
theorem C91_period {d : ℕ} {f : ℝ → ℝ} (hf : IsTrigPoly d f) (x : ℝ) (n : ℤ) : f (x + n * (2 * Real.pi)) = f x :=
  hf.periodic x n

/-- C91: what these networks cannot learn.  If the target oscillates faster in an input than the number of qubits
that get this input, then no weights bring the error below the amplitude of the target: for samples at the
`2n` points of the grid, the mean square error is at least the square of the amplitude, and the largest error is at
least the amplitude. -/
theorem C91_limit (hN : 2 ≤ N) (w : List ℝ) (hw : w.length = 15 * N) (pre post : List (List ℝ)) (x : List ℝ)
    (hb : GoodSamples N (pre ++ x :: post)) (m : ℕ) (hm : m < x.length) (i : Fin N) (n : ℕ)
    (hn : copies N x.length m < n) (A c : ℝ) :
    ∃ f : ℝ → ℝ, (∀ θ, ∃ t, Qnn.forward Qnn.layers N w (pre ++ x.set m θ :: post) = .ok t ∧
        t.get [pre.length, (i : ℕ)] = f θ) ∧
      (∃ k < 2 * n, |A| ≤ |f ((k * Real.pi - c) / n) - A * Real.cos (n * ((k * Real.pi - c) / n) + c)|) ∧
      2 * n * A ^ 2 ≤ ∑ k ∈ range (2 * n),
        (f ((k * Real.pi - c) / n) - A * Real.cos (n * ((k * Real.pi - c) / n) + c)) ^ 2 := by
  obtain ⟨f, hf, h⟩ := C91_qnn hN w hw pre post x hb m hm i
  exact ⟨f, h, trig_miss hn hf A c, trig_miss_sq hn hf A c⟩

/-- C91: the same for test_qcnn_demo.py. -/
theorem C91_limit_qcnn (hN : 2 ≤ N) (w : List ℝ) (hw : w.length = 18 * N) (pre post : List (List ℝ)) (x : List ℝ)
    (hb : GoodSamples N (pre ++ x :: post)) (m : ℕ) (hm : m < x.length) (i : Fin N) (n : ℕ)
    (hn : copies N x.length m < n) (A c : ℝ) :
    ∃ f : ℝ → ℝ, (∀ θ, ∃ t, Qnn.forward Qnn.layersQcnn N w (pre ++ x.set m θ :: post) = .ok t ∧
        t.get [pre.length, (i : ℕ)] = f θ) ∧
      (∃ k < 2 * n, |A| ≤ |f ((k * Real.pi - c) / n) - A * Real.cos (n * ((k * Real.pi - c) / n) + c)|) ∧
      2 * n * A ^ 2 ≤ ∑ k ∈ range (2 * n),
        (f ((k * Real.pi - c) / n) - A * Real.cos (n * ((k * Real.pi - c) / n) + c)) ^ 2 := by
  obtain ⟨f, hf, h⟩ := C91_qcnn hN w hw pre post x hb m hm i
  exact ⟨f, h, trig_miss hn hf A c, trig_miss_sq hn hf A c⟩

/-- C91: the same for the matrix variants of test_TN_train2.py. -/
theorem C91_limit_train (hN : 2 ≤ N) (w : List ℝ) (hw : w.length = 21 * N) (pre post : List (List ℝ)) (x : List ℝ)
    (hb : GoodBatch N (pre ++ x :: post)) (m : ℕ) (hm : m < x.length) (n : ℕ)
    (hn : copies N x.length m < n) (A c : ℝ) :
    ∃ f : ℝ → ℝ, (∀ θ, ∃ t, Train2.forward3 N w (pre ++ x.set m θ :: post) = .ok t ∧
        Train2.forward1 N w (pre ++ x.set m θ :: post) = .ok t ∧
        t.get [pre.length, 0] = f θ) ∧
      (∃ k < 2 * n, |A| ≤ |f ((k * Real.pi - c) / n) - A * Real.cos (n * ((k * Real.pi - c) / n) + c)|) ∧
      2 * n * A ^ 2 ≤ ∑ k ∈ range (2 * n),
        (f ((k * Real.pi - c) / n) - A * Real.cos (n * ((k * Real.pi - c) / n) + c)) ^ 2 := by
  obtain ⟨f, hf, h⟩ := C91_train hN w hw pre post x hb m hm
  refine ⟨f, fun θ => ?_, trig_miss hn hf A c, trig_miss_sq hn hf A c⟩
  obtain ⟨t, h1, h2, h3⟩ := h θ
  exact ⟨t, h1, h2, h3⟩

/-- C91: the same for the circuit of the classifier, where twice as many oscillations fit. -/
theorem C91_limit_classify (hN : 2 ≤ N) (w : List ℝ) (hw : w.length = 21 * N) (pre post : List (List ℝ)) (x : List ℝ)
    (hb : GoodSamples N (pre ++ x :: post)) (m : ℕ) (hm : m < x.length) (i : Fin N) (n : ℕ)
    (hn : 2 * copies N x.length m < n) (A c : ℝ) :
    ∃ f : ℝ → ℝ, (∀ θ, ∃ t, Classify.forward N w (pre ++ x.set m θ :: post) = .ok t ∧
        t.get [pre.length, (i : ℕ)] = f θ) ∧
      (∃ k < 2 * n, |A| ≤ |f ((k * Real.pi - c) / n) - A * Real.cos (n * ((k * Real.pi - c) / n) + c)|) ∧
      2 * n * A ^ 2 ≤ ∑ k ∈ range (2 * n),
        (f ((k * Real.pi - c) / n) - A * Real.cos (n * ((k * Real.pi - c) / n) + c)) ^ 2 := by
  obtain ⟨f, hf, h⟩ := C91_classify hN w hw pre post x hb m hm i
  exact ⟨f, h, trig_miss hn hf A c, trig_miss_sq hn hf A c⟩

/-- C91: the degree is reached: after the encoding of one number on all qubits the product of all Z has the
expectation value `cos θ ^ N`, and this is no trigonometric polynomial of a degree less than `N`. -/
theorem C91_reached (N : ℕ) :
    (∀ θ, braket (onEach (fun _ => Spec.Z)) (encOp Spec.Y [θ] (List.finRange N) *ᵥ ket0 N) = (Real.cos θ ^ N : ℝ)) ∧
      copies N 1 0 = N ∧ ∀ d < N, ¬ IsTrigPoly d (fun θ => Real.cos θ ^ N) := by
  refine ⟨fun θ => ?_, by simp [copies, Nat.mod_one], fun d hd => not_trigPoly_cos_pow hd⟩
  have e : encOp Spec.Y [θ] (List.finRange N) = onEach (fun _ : Fin N => rot Spec.Y θ) := by
    unfold encOp
    simp [Nat.mod_one]
  rw [e, braket_mul, onEach_conjTranspose, onEach_mul, onEach_mul]
  have h1 : ((rot Spec.Y θ)ᴴ * Spec.Z * rot Spec.Y θ) 0 0 = (Real.cos θ : ℂ) := by
    have h2 : Real.cos θ = Real.cos (θ / 2) ^ 2 - Real.sin (θ / 2) ^ 2 := by
      rw [← Real.cos_two_mul']; congr 1; ring
    rw [sandwich, h2]
    have c0 : rot Spec.Y θ 0 0 = (Real.cos (θ / 2) : ℂ) := by simp [rot, Spec.Y]
    have c1 : rot Spec.Y θ 1 0 = (Real.sin (θ / 2) : ℂ) := by
      simp [rot, Spec.Y]
      linear_combination (-Complex.sin (θ / 2)) * Complex.I_sq
    rw [c0, c1]
    simp only [Complex.star_def, Complex.conj_ofReal, Spec.Z]
    simp
    ring
  unfold braket ket0
  simp only [apply_ite star, star_one, star_zero, mul_ite, mul_one, mul_zero, ite_mul, one_mul, zero_mul,
    Finset.sum_ite_eq', Finset.mem_univ, if_true]
  simp only [onEach, Pi.zero_apply, h1]
  simp

/-- One input on three qubits; and the two inputs of test_qnn_demo_free.py on three qubits, whose target
`2 cos (2 x₁ + x₂)` just fits. -/
example : copies 3 1 0 = 3 ∧ copies 3 2 0 = 2 ∧ copies 3 2 1 = 1 := by decide

/-- The hypotheses of `C91_limit`: four oscillations are too many for three qubits. -/
example : (2 ≤ 3) ∧ (List.replicate 45 (0.3 : ℝ)).length = 15 * 3 ∧ GoodSamples 3 ([[0.1]] ++ [0.2] :: [[0.3]]) ∧
    0 < ([0.2] : List ℝ).length ∧ copies 3 ([0.2] : List ℝ).length 0 < 4 := by
  refine ⟨by omega, by simp, ?_, by simp, by decide⟩
  simp [GoodSamples]

/-- The hypotheses of the other three; the classifier has room for six. -/
example : (List.replicate 54 (0.3 : ℝ)).length = 18 * 3 ∧ (List.replicate 63 (0.3 : ℝ)).length = 21 * 3 ∧
    GoodBatch 3 ([[0.1]] ++ [0.2] :: [[0.3]]) ∧ 2 * copies 3 ([0.2] : List ℝ).length 0 < 7 := by
  refine ⟨by simp, by simp, ?_, by decide⟩
  simp [GoodBatch]

/-- The hypotheses of `C91_parameter`. -/
example : (∀ it ∈ ([.gate (.rx 0.3 0), .gate (.cphase 0.4 0 1)] : List (Item 2)), it.WF) ∧
    1 < (allParams ([.gate (.rx 0.3 0), .gate (.cphase 0.4 0 1)] : List (Item 2))).length ∧
    ∀ it, ownerOf ([.gate (.rx 0.3 0), .gate (.cphase 0.4 0 1)] : List (Item 2)) 1 = some it → it.shiftOk := by
  refine ⟨?_, by simp [allParams, Item.params, Instr.params], fun it h => ?_⟩
  · intro it hit
    simp only [List.mem_cons, List.not_mem_nil, or_false] at hit
    rcases hit with rfl | rfl <;> simp [Item.WF, Instr.WF]
  · simp [ownerOf, Item.params, Instr.params] at h
    subst h
    trivial

end QTN.Props
