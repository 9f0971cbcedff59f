import Verif.SpecLip
import Verif.Lemmas.Rewrite
import Verif.Props.DaggerTest
import Mathlib.Analysis.SpecialFunctions.Trigonometric.Bounds

/-! # How far a circuit moves when its parameters change -/

namespace QTN

open Spec Matrix Finset Complex

variable {N : ℕ}

/-- `A` differs from `B`, up to the phase `z`, by at most `δ` on unit vectors. -/
def NearOp (z : ℂ) (δ : ℝ) (A B : QOp N) : Prop :=
  IsUnitaryOp A ∧ IsUnitaryOp B ∧ ‖z‖ = 1 ∧ ∀ v, norm2 (A *ᵥ v - z • (B *ᵥ v)) ≤ δ * norm2 v

theorem norm2_smul (z : ℂ) (v : QState N) : norm2 (z • v) = ‖z‖ * norm2 v := by
  rw [norm2_eq, norm2_eq, WithLp.toLp_smul, norm_smul]

theorem NearOp.refl {A : QOp N} (h : IsUnitaryOp A) : NearOp 1 0 A A :=
  ⟨h, h, by simp, fun v => by simp [norm2]⟩

theorem NearOp.mono {z : ℂ} {δ ε : ℝ} {A B : QOp N} (h : NearOp z δ A B) (hl : δ ≤ ε) : NearOp z ε A B :=
  ⟨h.1, h.2.1, h.2.2.1, fun v => (h.2.2.2 v).trans (mul_le_mul_of_nonneg_right hl (norm2_nonneg v))⟩

theorem NearOp.mul {z z' : ℂ} {δ δ' : ℝ} {A B A' B' : QOp N} (h : NearOp z δ A B) (h' : NearOp z' δ' A' B') :
    NearOp (z * z') (δ + δ') (A * A') (B * B') := by
  obtain ⟨hA, hB, hz, hd⟩ := h
  obtain ⟨hA', hB', hz', hd'⟩ := h'
  refine ⟨hA.mul hA', hB.mul hB', by rw [norm_mul, hz, hz', one_mul], fun v => ?_⟩
  have e : (A * A') *ᵥ v - (z * z') • ((B * B') *ᵥ v) =
      A *ᵥ (A' *ᵥ v - z' • (B' *ᵥ v)) + z' • (A *ᵥ (B' *ᵥ v) - z • (B *ᵥ (B' *ᵥ v))) := by
    rw [Matrix.mulVec_sub, Matrix.mulVec_smul, Matrix.mulVec_mulVec, Matrix.mulVec_mulVec, Matrix.mulVec_mulVec, smul_sub,
      smul_smul, mul_comm z' z]
    abel
  rw [e]
  refine (norm2_add_le _ _).trans ?_
  rw [norm2_unitary hA, norm2_smul, hz', one_mul]
  have h1 := hd' v
  have h2 := hd (B' *ᵥ v)
  rw [norm2_unitary hB'] at h2
  linarith

theorem NearOp.mul1 {δ δ' : ℝ} {A B A' B' : QOp N} (h : NearOp 1 δ A B) (h' : NearOp 1 δ' A' B') :
    NearOp 1 (δ + δ') (A * A') (B * B') := by
  have := h.mul h'
  rwa [one_mul] at this

/-- A unitary with all eigenvalues `e^{±ix}` moves vectors by at most `|x|`. -/
theorem move_le {R : QOp N} (hR : IsUnitaryOp R) {x : ℝ} (h : R + Rᴴ = ((2 * Real.cos x : ℝ) : ℂ) • (1 : QOp N))
    (v : QState N) : norm2 (R *ᵥ v - v) ≤ |x| * norm2 v := by
  have hsub : ∀ a b c : QState N, ip (a - b) c = ip a c - ip b c := fun a b c => by
    simp [ip, sub_mul, Finset.sum_sub_distrib]
  have hsub' : ∀ a b c : QState N, ip a (b - c) = ip a b - ip a c := fun a b c => by
    simp [ip, mul_sub, Finset.sum_sub_distrib]
  have hadd' : ∀ a b c : QState N, ip a (b + c) = ip a b + ip a c := fun a b c => by
    simp [ip, mul_add, Finset.sum_add_distrib]
  have e : ip (R *ᵥ v - v) (R *ᵥ v - v) = ((2 - 2 * Real.cos x : ℝ) : ℂ) * ip v v := by
    have e1 : ip (R *ᵥ v) v = ip v (Rᴴ *ᵥ v) := by
      have := ip_adj Rᴴ v v
      rwa [conjTranspose_conjTranspose] at this
    have e2 : ip (R *ᵥ v) (R *ᵥ v) = ip v v := by
      rw [Props.ip_self, Props.ip_self, norm2_unitary hR]
    have e3 : ip v (R *ᵥ v) + ip v (Rᴴ *ᵥ v) = ((2 * Real.cos x : ℝ) : ℂ) * ip v v := by
      rw [← hadd', ← Matrix.add_mulVec, h, Matrix.smul_mulVec, Matrix.one_mulVec]
      unfold ip
      rw [Finset.mul_sum]
      exact Finset.sum_congr rfl fun a _ => by simp; ring
    rw [hsub, hsub', hsub', e2, e1]
    push_cast at e3 ⊢
    linear_combination (-1 : ℂ) * e3
  rw [Props.ip_self, Props.ip_self, ← Complex.ofReal_mul, Complex.ofReal_inj] at e
  have hc : 2 - 2 * Real.cos x ≤ |x| ^ 2 := by
    have := Real.one_sub_sq_div_two_le_cos (x := x)
    rw [sq_abs]; linarith
  refine le_of_sq_le_sq ?_ (mul_nonneg (abs_nonneg _) (norm2_nonneg _))
  rw [e, mul_pow]
  exact mul_le_mul_of_nonneg_right hc (sq_nonneg _)

theorem ctrl_mulVec (cs : List (Fin N)) (v : QState N) (a : Bits N) :
    (onEach (ctrlProj cs) *ᵥ v) a = if ∀ c ∈ cs, a c = 1 then v a else 0 := by
  rw [Matrix.mulVec, dotProduct, Finset.sum_eq_single a]
  · rw [onEach_ctrlProj]; simp
  · intro b _ hb
    rw [onEach_ctrlProj, if_neg fun h => hb h.1.symm, zero_mul]
  · intro h; exact absurd (Finset.mem_univ a) h

/-- Controls do not make a gate move vectors further. -/
theorem move_controlled {cs : List (Fin N)} {t : Fin N} (ht : t ∉ cs) {g : Mat2} {δ : ℝ} (h0 : 0 ≤ δ)
    (h : ∀ v : QState N, norm2 (onQubit t g *ᵥ v - v) ≤ δ * norm2 v) (v : QState N) :
    norm2 (controlled cs t g *ᵥ v - v) ≤ δ * norm2 v := by
  have e : controlled cs t g - 1 = (onQubit t g - 1) * onEach (ctrlProj cs) := by
    rw [controlled_multi_eq cs ht, ← onEach_update_one, sub_mul, one_mul, onEach_mul]
    have : (fun i => Function.update (fun _ => (1 : Mat2)) t g i * ctrlProj cs i) = Function.update (ctrlProj cs) t g := by
      funext j
      by_cases hj : j = t
      · subst hj; simp [ctrlProj, ht]
      · simp [Function.update_of_ne hj]
    rw [this]
    abel
  have e' : controlled cs t g *ᵥ v - v = onQubit t g *ᵥ (onEach (ctrlProj cs) *ᵥ v) - onEach (ctrlProj cs) *ᵥ v := by
    have := congrArg (· *ᵥ v) e
    simpa [Matrix.sub_mulVec, ← Matrix.mulVec_mulVec] using this
  rw [e']
  refine (h _).trans (mul_le_mul_of_nonneg_left ?_ h0)
  unfold norm2
  refine Real.sqrt_le_sqrt (Finset.sum_le_sum fun a _ => ?_)
  rw [ctrl_mulVec]
  split_ifs
  · exact le_rfl
  · simp

theorem near_of_move {R A B : QOp N} {δ : ℝ} (hB : IsUnitaryOp B) (hR : IsUnitaryOp R) (e : A = B * R)
    (h : ∀ v : QState N, norm2 (R *ᵥ v - v) ≤ δ * norm2 v) : NearOp 1 δ A B := by
  subst e
  refine ⟨hB.mul hR, hB, by simp, fun v => ?_⟩
  rw [one_smul, ← Matrix.mulVec_mulVec, ← Matrix.mulVec_sub, norm2_unitary hB]
  exact h v

theorem IsAxis.herm {P : Mat2} (h : IsAxis P) : Pᴴ = P := by
  rcases h with rfl | rfl | rfl
  exacts [X_conj, Y_conj, Z_conj]

theorem IsAxis.sq {P : Mat2} (h : IsAxis P) : P * P = 1 := by
  rcases h with rfl | rfl | rfl
  exacts [X_sq, Y_sq, Z_sq]

theorem near_rot {P : Mat2} (hP : IsAxis P) {cs : List (Fin N)} {t : Fin N} (ht : t ∉ cs) (α β : ℝ) :
    NearOp 1 (|α - β| / 2) (controlled cs t (rot P α)) (controlled cs t (rot P β)) := by
  have hu : ∀ θ, IsU2 (rot P θ) := fun θ => rot_u2 hP.herm hP.sq θ
  refine near_of_move (R := controlled cs t (rot P (α - β))) (controlled_unitary (hu _) ht)
    (controlled_unitary (hu _) ht) ?_ (move_controlled ht (by positivity) fun v => ?_)
  · rw [controlled_mul ht, rot_mul hP.sq, add_sub_cancel]
  · have := move_le (onQubit_unitary (hu (α - β)) t) (x := (α - β) / 2) ?_ v
    · rwa [abs_div, abs_two] at this
    · rw [onQubit_conjTranspose, rot_conj hP.herm, ← onQubit_add]
      unfold rot
      rw [neg_div, Real.cos_neg, Real.sin_neg, ← onQubit_one t, ← onQubit_smul]
      congr 1
      push_cast
      module

theorem near_rot1 {P : Mat2} (hP : IsAxis P) (t : Fin N) (α β : ℝ) :
    NearOp 1 (|α - β| / 2) (onQubit t (rot P α)) (onQubit t (rot P β)) := by
  rw [← Props.controlled_nil, ← Props.controlled_nil]
  exact near_rot hP (by simp) α β

theorem near_rot2 {P : Mat2} (hP : IsAxis P) {p q : Fin N} (h : p ≠ q) (α β : ℝ) :
    NearOp 1 (|α - β| / 2) (rot2 P α p q) (rot2 P β p q) := by
  refine near_of_move (R := rot2 P (α - β) p q) (rot2_unitary hP.herm hP.sq h _) (rot2_unitary hP.herm hP.sq h _) ?_ fun v => ?_
  · rw [rot2_mul hP.sq h, add_sub_cancel]
  · have := move_le (rot2_unitary hP.herm hP.sq h (α - β)) (x := (α - β) / 2) ?_ v
    · rwa [abs_div, abs_two] at this
    · rw [rot2_conj hP.herm h]
      unfold rot2
      rw [neg_div, Real.cos_neg, Real.sin_neg]
      push_cast
      module

theorem near_U3 {cs : List (Fin N)} {t : Fin N} (ht : t ∉ cs) (θ φ l θ' φ' l' : ℝ) :
    NearOp 1 ((|θ - θ'| + |φ - φ'| + |l - l'|) / 2) (controlled cs t (U3 θ φ l)) (controlled cs t (U3 θ' φ' l')) := by
  have hY : IsAxis Spec.Y := Or.inr (Or.inl rfl)
  have hZ : IsAxis Spec.Z := Or.inr (Or.inr rfl)
  rw [← U3_eq, ← U3_eq, ← controlled_mul ht, ← controlled_mul ht, ← controlled_mul ht, ← controlled_mul ht]
  exact (((near_rot hZ ht φ φ').mul1 (near_rot hY ht θ θ')).mul1 (near_rot hZ ht l l')).mono (by linarith)

theorem near_onEach {g g' : Fin N → Mat2} {δ : Fin N → ℝ}
    (h : ∀ j, NearOp 1 (δ j) (onQubit j (g j)) (onQubit j (g' j))) : NearOp 1 (∑ j, δ j) (onEach g) (onEach g') := by
  have key : ∀ s : Finset (Fin N), NearOp 1 (∑ j ∈ s, δ j) (onEach fun j => if j ∈ s then g j else 1)
      (onEach fun j => if j ∈ s then g' j else 1) := by
    intro s
    induction s using Finset.induction_on with
    | empty => simpa [onEach_one] using NearOp.refl (N := N) isUnitaryOp_one
    | insert i s hi ih =>
      have e : ∀ f : Fin N → Mat2, (onEach fun j => if j ∈ insert i s then f j else 1) =
          onQubit i (f i) * onEach fun j => if j ∈ s then f j else 1 := fun f => by
        rw [← onEach_update_one, onEach_mul]
        congr 1
        funext j
        by_cases hj : j = i
        · subst hj; simp [hi]
        · simp [hj, Finset.mem_insert]
      rw [e, e, Finset.sum_insert hi]
      exact (h i).mul1 ih
  simpa using key Finset.univ

theorem near_diag {A B : QOp N} {f f' : Bits N → ℂ} {δ : ℝ} (z : ℂ) (hz : ‖z‖ = 1) (hA : IsUnitaryOp A)
    (hB : IsUnitaryOp B) (eA : A = pd (fun b => b) f) (eB : B = pd (fun b => b) f')
    (h : ∀ b, ‖f b - z * f' b‖ ≤ δ) (h0 : 0 ≤ δ) : NearOp z δ A B := by
  refine ⟨hA, hB, hz, fun v => ?_⟩
  have hv : ∀ (f : Bits N → ℂ) a, (pd (fun b => b) f *ᵥ v) a = f a * v a := fun f a => by
    simp [Matrix.mulVec, dotProduct, pd]
  refine le_of_sq_le_sq ?_ (mul_nonneg h0 (norm2_nonneg _))
  rw [mul_pow, norm2_sq, norm2_sq, Finset.mul_sum]
  refine Finset.sum_le_sum fun a _ => ?_
  rw [Pi.sub_apply, Pi.smul_apply, eA, eB, hv, hv, smul_eq_mul, ← mul_assoc, ← sub_mul, norm_mul, mul_pow]
  exact mul_le_mul_of_nonneg_right (pow_le_pow_left₀ (norm_nonneg _) (h a) 2) (sq_nonneg _)

theorem norm_exp_sub (α β : ℝ) : ‖exp (α * I) - exp (β * I)‖ ≤ |α - β| := by
  have e : exp (α * I) - exp (β * I) = exp (β * I) * (exp (I * ((α - β : ℝ) : ℂ)) - 1) := by
    rw [mul_sub, mul_one, ← Complex.exp_add]
    congr 2
    push_cast; ring
  rw [e, norm_mul, Complex.norm_exp_ofReal_mul_I, one_mul]
  exact (Real.norm_exp_I_mul_ofReal_sub_one_le).trans (le_of_eq (Real.norm_eq_abs _))

theorem near_phase {cs : List (Fin N)} {t : Fin N} (ht : t ∉ cs) (α β : ℝ) :
    NearOp 1 |α - β| (controlled cs t (Spec.phase α)) (controlled cs t (Spec.phase β)) ∧
    NearOp (exp (((α - β) / 2 : ℝ) * I)) (|α - β| / 2) (controlled cs t (Spec.phase α))
      (controlled cs t (Spec.phase β)) := by
  have hu := fun θ => controlled_unitary (cs := cs) (phase_u2 θ) ht
  constructor
  · refine near_diag 1 (by simp) (hu _) (hu _) (cphase_pd cs t α) (cphase_pd cs t β) (fun b => ?_)
      (abs_nonneg _)
    rw [one_mul]
    split_ifs
    · exact norm_exp_sub α β
    · simp
  · refine near_diag _ (Complex.norm_exp_ofReal_mul_I _) (hu _) (hu _) (cphase_pd cs t α)
      (cphase_pd cs t β) (fun b => ?_) (by positivity)
    split_ifs
    · rw [← Complex.exp_add, ← add_mul, ← Complex.ofReal_add]
      refine (norm_exp_sub _ _).trans (le_of_eq ?_)
      rw [show α - ((α - β) / 2 + β) = (α - β) / 2 by ring, abs_div, abs_two]
    · have := norm_exp_sub 0 ((α - β) / 2)
      rw [mul_one]
      simpa [abs_div, abs_neg] using this

theorem near_seqRot (j : Fin N) (axes : List Mat2) (ha : ∀ P ∈ axes, IsAxis P) (p p' : List ℝ) (h : axes.length ≤ p.length)
    (h' : axes.length ≤ p'.length) :
    NearOp 1 ((∑ i ∈ range axes.length, |p.getD i 0 - p'.getD i 0|) / 2) (onQubit j (seqRot axes p))
      (onQubit j (seqRot axes p')) := by
  induction axes generalizing p p' with
  | nil =>
    simp only [seqRot, onQubit_one, List.length_nil, Finset.range_zero, Finset.sum_empty, zero_div]
    exact NearOp.refl isUnitaryOp_one
  | cons P axes ih =>
    match p, p', h, h' with
    | a :: p, b :: p', h, h' =>
      simp only [seqRot, List.length_cons]
      rw [Finset.sum_range_succ', ← onQubit_mul, ← onQubit_mul]
      simp only [List.getD_cons_succ, List.getD_cons_zero]
      rw [add_div]
      refine (ih (fun Q hQ => ha Q (List.mem_cons_of_mem _ hQ)) p p' ?_ ?_).mul1 (near_rot1 (ha P (by simp)) j a b)
      · simpa using h
      · simpa using h'

theorem sum_blocks (f : ℕ → ℝ) (m W : ℕ) : ∑ k ∈ range W, ∑ i ∈ range m, f (m * k + i) = ∑ i ∈ range (m * W), f i := by
  induction W with
  | zero => simp
  | succ W ih => rw [Finset.sum_range_succ, ih, Nat.mul_succ, Finset.sum_range_add]

theorem sum_idxOf (f : ℕ → ℝ) {ws : List (Fin N)} (h : ws.Nodup) :
    ∑ j, (if j ∈ ws then f (ws.idxOf j) else 0) = ∑ k ∈ range ws.length, f k := by
  have e : ws.map (fun j => f (ws.idxOf j)) = (List.range ws.length).map f := by
    refine List.ext_getElem (by simp) fun i h1 h2 => ?_
    simp only [List.getElem_map, List.getElem_range, h.idxOf_getElem]
  have e' : ∀ n, ((List.range n).map f).sum = ∑ k ∈ range n, f k := fun n => by
    induction n with
    | zero => simp
    | succ n ih => rw [List.range_succ, List.map_append, List.sum_append, ih, Finset.sum_range_succ]; simp
  rw [← e', ← e, ← List.sum_toFinset _ h, ← Finset.sum_filter]
  exact Finset.sum_congr (by ext; simp) fun _ _ => rfl

theorem near_layer (axes : List Mat2) (ha : ∀ P ∈ axes, IsAxis P) {ws : List (Fin N)} (hws : ws.Nodup) (p p' : List ℝ)
    (h : axes.length * ws.length ≤ p.length) (h' : axes.length * ws.length ≤ p'.length) :
    NearOp 1 ((∑ i ∈ range (axes.length * ws.length), |p.getD i 0 - p'.getD i 0|) / 2) (layerOp axes ws p)
      (layerOp axes ws p') := by
  have key := near_onEach (N := N)
    (g := fun j => if j ∈ ws then seqRot axes (p.drop (axes.length * ws.idxOf j)) else 1)
    (g' := fun j => if j ∈ ws then seqRot axes (p'.drop (axes.length * ws.idxOf j)) else 1)
    (δ := fun j => if j ∈ ws then (∑ i ∈ range axes.length,
      |p.getD (axes.length * ws.idxOf j + i) 0 - p'.getD (axes.length * ws.idxOf j + i) 0|) / 2 else 0) (fun j => ?_)
  · rw [sum_idxOf (fun k => (∑ i ∈ range axes.length,
      |p.getD (axes.length * k + i) 0 - p'.getD (axes.length * k + i) 0|) / 2) hws, ← Finset.sum_div,
      sum_blocks (fun i => |p.getD i 0 - p'.getD i 0|)] at key
    exact key
  · by_cases hj : j ∈ ws
    · simp only [if_pos hj]
      have hi := List.idxOf_lt_length_of_mem hj
      have hb : axes.length * ws.idxOf j + axes.length ≤ axes.length * ws.length := by
        rw [← Nat.mul_succ]; exact Nat.mul_le_mul_left _ hi
      have := near_seqRot j axes ha (p.drop (axes.length * ws.idxOf j)) (p'.drop (axes.length * ws.idxOf j))
        (by rw [List.length_drop]; omega) (by rw [List.length_drop]; omega)
      simpa [List.getD_eq_getElem?_getD] using this
    · simp only [if_neg hj, onQubit_one]
      exact NearOp.refl isUnitaryOp_one

theorem near_basic {ws : List (Fin N)} (hws : ws.Nodup) (h2 : 2 ≤ ws.length) (p p' : List ℝ) (reps : ℕ)
    (h : 3 * ws.length * reps ≤ p.length) (h' : 3 * ws.length * reps ≤ p'.length) :
    NearOp 1 ((∑ i ∈ range (3 * ws.length * reps), |p.getD i 0 - p'.getD i 0|) / 2) (basicOp ws p reps)
      (basicOp ws p' reps) := by
  induction reps with
  | zero =>
    simp only [basicOp, List.range_zero, List.map_nil, mul_zero, Finset.range_zero, Finset.sum_empty, zero_div]
    exact NearOp.refl isUnitaryOp_one
  | succ n ih =>
    have e : ∀ p : List ℝ, basicOp ws p (n + 1) =
        ringOp 1 ws * layerOp [Spec.Y, Spec.Z, Spec.Y] ws (p.drop (n * (3 * ws.length))) * basicOp ws p n := fun p => by
      unfold basicOp
      rw [List.range_succ, List.map_append, timeOrdered_append]
      simp [timeOrdered]
    have hm : 3 * ws.length * (n + 1) = 3 * ws.length * n + 3 * ws.length := Nat.mul_succ _ _
    have hc : n * (3 * ws.length) = 3 * ws.length * n := mul_comm _ _
    rw [e, e, hm, Finset.sum_range_add, add_comm, add_div]
    refine NearOp.mul1 ?_ (ih (by omega) (by omega))
    have hl := near_layer [Spec.Y, Spec.Z, Spec.Y] (axes_axis .yzy) hws (p.drop (n * (3 * ws.length)))
      (p'.drop (n * (3 * ws.length))) (by rw [List.length_drop]; simp; omega) (by rw [List.length_drop]; simp; omega)
    have hr := (NearOp.refl (item_unitary (Item.ring ws) ⟨hws, h2⟩)).mul1 hl
    rw [zero_add] at hr
    simpa [List.getD_eq_getElem?_getD, hc, Item.op] using hr

theorem paramDist_nonneg (p p' : List ℝ) : 0 ≤ paramDist p p' := Finset.sum_nonneg fun _ _ => abs_nonneg _

/-- Gates and layers other than the phase gates move without a change of phase. -/
theorem near_item {it : Item N} (hw : it.WF) {p : List ℝ} (hp : p.length = it.params.length) :
    NearOp 1 (it.speed * paramDist it.params p) it.op (it.withParams p).op ∧
    ∃ z, NearOp z (paramDist it.params p / 2) it.op (it.withParams p).op := by
  have both : ∀ {A B : QOp N} {d : ℝ}, NearOp 1 (d / 2) A B → NearOp 1 (1 / 2 * d) A B ∧ ∃ z, NearOp z (d / 2) A B :=
    fun h => ⟨by rw [one_div_mul_eq_div]; exact h, 1, h⟩
  have fixed : ∀ {A : QOp N}, IsUnitaryOp A → NearOp 1 (0 / 2) A A := fun h => by rw [zero_div]; exact NearOp.refl h
  have one : ∀ a b : ℝ, |a - b| = paramDist [a] [b] := fun a b => by simp [paramDist]
  have hu : IsUnitaryOp it.op := item_unitary it hw
  rcases it with ins | ⟨k, ws, q⟩ | ws | ws | ws | ws | ⟨ws, q, reps⟩
  · cases ins <;> simp only [Item.params, Instr.params, List.length_cons, List.length_nil, zero_add] at hp
    case rx θ i =>
      obtain ⟨a, rfl⟩ := List.length_eq_one_iff.mp hp
      exact one _ _ ▸ both (near_rot1 (Or.inl rfl) i θ a)
    case ry θ i =>
      obtain ⟨a, rfl⟩ := List.length_eq_one_iff.mp hp
      exact one _ _ ▸ both (near_rot1 (Or.inr (Or.inl rfl)) i θ a)
    case rz θ i =>
      obtain ⟨a, rfl⟩ := List.length_eq_one_iff.mp hp
      exact one _ _ ▸ both (near_rot1 (Or.inr (Or.inr rfl)) i θ a)
    case u1 θ i =>
      obtain ⟨a, rfl⟩ := List.length_eq_one_iff.mp hp
      have := near_phase (cs := []) (t := i) (by simp) θ a
      simp only [Props.controlled_nil] at this
      have e : paramDist (Item.gate (Instr.u1 θ i)).params [a] = |θ - a| := by simp [paramDist, Item.params, Instr.params]
      rw [e]
      exact ⟨(one_mul |θ - a|).symm ▸ this.1, _, this.2⟩
    case cphase θ c t =>
      obtain ⟨a, rfl⟩ := List.length_eq_one_iff.mp hp
      have := near_phase (cs := [c]) (t := t) (by simpa using Ne.symm hw) θ a
      have e : paramDist (Item.gate (Instr.cphase θ c t)).params [a] = |θ - a| := by
        simp [paramDist, Item.params, Instr.params]
      rw [e]
      exact ⟨(one_mul |θ - a|).symm ▸ this.1, _, this.2⟩
    case rxx θ i j =>
      obtain ⟨a, rfl⟩ := List.length_eq_one_iff.mp hp
      exact one _ _ ▸ both (near_rot2 (Or.inl rfl) hw θ a)
    case ryy θ i j =>
      obtain ⟨a, rfl⟩ := List.length_eq_one_iff.mp hp
      exact one _ _ ▸ both (near_rot2 (Or.inr (Or.inl rfl)) hw θ a)
    case rzz θ i j =>
      obtain ⟨a, rfl⟩ := List.length_eq_one_iff.mp hp
      exact one _ _ ▸ both (near_rot2 (Or.inr (Or.inr rfl)) hw θ a)
    case u3 θ φ l i =>
      obtain ⟨a, b, c, rfl⟩ := List.length_eq_three.mp hp
      have := near_U3 (cs := []) (t := i) (by simp) θ φ l a b c
      simp only [Props.controlled_nil] at this
      have e : paramDist (Item.gate (Instr.u3 θ φ l i)).params [a, b, c] = |θ - a| + |φ - b| + |l - c| := by
        simp [paramDist, Item.params, Instr.params, Finset.sum_range_succ]
      rw [e]
      exact both this
    case cu3 θ φ l c' t =>
      obtain ⟨a, b, c, rfl⟩ := List.length_eq_three.mp hp
      have := near_U3 (cs := [c']) (t := t) (by simpa using Ne.symm hw) θ φ l a b c
      have e : paramDist (Item.gate (Instr.cu3 θ φ l c' t)).params [a, b, c] = |θ - a| + |φ - b| + |l - c| := by
        simp [paramDist, Item.params, Instr.params, Finset.sum_range_succ]
      rw [e]
      exact both this
    all_goals
      simpa [Item.speed, paramDist, Item.params, Instr.params, Item.withParams, Instr.withParams] using both (fixed hu)
  · obtain ⟨hN, hn, hl⟩ := hw
    have hp' : p.length = q.length := hp
    have := near_layer k.axes (axes_axis k) hn q p hl.ge (by omega)
    rw [← hl] at this
    exact both this
  · simpa [Item.speed, paramDist, Item.params, Item.withParams] using both (fixed hu)
  · simpa [Item.speed, paramDist, Item.params, Item.withParams] using both (fixed hu)
  · simpa [Item.speed, paramDist, Item.params, Item.withParams] using both (fixed hu)
  · simpa [Item.speed, paramDist, Item.params, Item.withParams] using both (fixed hu)
  · obtain ⟨hn, h2, h1, hl⟩ := hw
    have hp' : p.length = q.length := hp
    have := near_basic hn h2 q p reps hl.ge (by omega)
    rw [← hl] at this
    exact both this

theorem paramDist_append {a a' b b' : List ℝ} (h : a.length = a'.length) :
    paramDist (a ++ b) (a' ++ b') = paramDist a a' + paramDist b b' := by
  unfold paramDist
  rw [List.length_append, Finset.sum_range_add]
  congr 1
  · refine Finset.sum_congr rfl fun i hi => ?_
    rw [Finset.mem_range] at hi
    rw [List.getD_append _ _ _ _ hi, List.getD_append _ _ _ _ (h ▸ hi)]
  · refine Finset.sum_congr rfl fun i _ => ?_
    rw [List.getD_append_right _ _ _ _ (by omega), List.getD_append_right _ _ _ _ (by omega)]
    congr 3 <;> omega

theorem near_circuit {l l' : List (Item N)} (hs : SameForm l l') (hw : ∀ it ∈ l, it.WF) :
    NearOp 1 (stateDist l l') (circuitOp l) (circuitOp l') ∧
    ∃ z, NearOp z (paramDist (allParams l) (allParams l') / 2) (circuitOp l) (circuitOp l') := by
  induction hs with
  | nil =>
    have : NearOp (N := N) 1 0 (circuitOp []) (circuitOp []) := NearOp.refl isUnitaryOp_one
    exact ⟨by simpa [stateDist] using this, 1, by simpa [paramDist, allParams] using this⟩
  | cons h hs ih =>
    rename_i it it' l l'
    obtain ⟨p, hp, rfl⟩ := h
    obtain ⟨h1, z, h2⟩ := near_item (hw it (by simp)) hp
    obtain ⟨i1, z', i2⟩ := ih fun x hx => hw x (by simp [hx])
    have e : (it.withParams p).params = p := params_withParams it p hp
    rw [circuitOp_cons, circuitOp_cons]
    constructor
    · have := i1.mul1 h1
      rw [add_comm] at this
      simpa [stateDist, e] using this
    · refine ⟨_, (i2.mul h2).mono (le_of_eq ?_)⟩
      simp only [allParams, List.flatMap_cons]
      rw [paramDist_append (by rw [e, hp]), e]
      ring

end QTN
