import Verif.Lemmas.Cdo

/-! # Circuits of rotations and NOTs whose controls are in basis states -/

namespace QTN

open Finset Spec Matrix

variable {N : ℕ}

/-! ## Product states -/

/-- The product of one-qubit states. -/
noncomputable def tens (w : Fin N → Fin 2 → ℂ) : QState N := fun a => ∏ j, w j (a j)

theorem onQubit_tens (t : Fin N) (g : Mat2) (w : Fin N → Fin 2 → ℂ) :
    onQubit t g *ᵥ tens w = tens (Function.update w t (g *ᵥ w t)) := by
  ext a
  have hr : ∀ f : Fin N → Fin 2 → ℂ, (∀ j, j ≠ t → f j = w j) → ∀ b : Bits N, (∀ j, j ≠ t → b j = a j) →
      tens f b = f t (b t) * ∏ j ∈ univ.erase t, w j (a j) := by
    intro f hf b hb
    unfold tens
    rw [← Finset.mul_prod_erase univ _ (mem_univ t)]
    congr 1
    refine Finset.prod_congr rfl fun j hj => ?_
    have hj := Finset.ne_of_mem_erase hj
    rw [hf j hj, hb j hj]
  rw [hr _ (fun j hj => Function.update_of_ne hj _ _) a (fun _ _ => rfl), Function.update_self]
  simp only [mulVec, dotProduct, onQubit]
  rw [Finset.sum_mul]
  symm
  refine Finset.sum_of_injOn (fun x => Function.update a t x) ?_ ?_ ?_ ?_
  · intro x _ y _ h
    simpa using congrFun h t
  · intro x _
    simp
  · intro b _ hb
    rw [if_neg, zero_mul]
    intro h
    apply hb
    refine ⟨b t, by simp, ?_⟩
    funext j
    by_cases hj : j = t
    · subst hj; simp
    · show Function.update a t (b t) j = b j
      rw [Function.update_of_ne hj, h j hj]
  · intro x _
    rw [if_pos (fun j hj => by rw [Function.update_of_ne hj]),
      hr w (fun _ _ => rfl) _ (fun j hj => Function.update_of_ne hj _ _), Function.update_self, mul_assoc]

/-- A basis state of one qubit. -/
def basisVec (b : Bool) : Fin 2 → ℂ := fun x => if x = (if b then 1 else 0) then 1 else 0

theorem controlled_tens (cs : List (Fin N)) (t : Fin N) (g : Mat2) (w : Fin N → Fin 2 → ℂ) (b : Fin N → Bool)
    (h : ∀ c ∈ cs, w c = basisVec (b c)) :
    controlled cs t g *ᵥ tens w =
      if ∀ c ∈ cs, b c = true then tens (Function.update w t (g *ᵥ w t)) else tens w := by
  have key : ∀ a : Bits N, (controlled cs t g *ᵥ tens w) a =
      ((if ∀ c ∈ cs, b c = true then onQubit t g else 1) *ᵥ tens w) a := by
    intro a
    simp only [mulVec, dotProduct]
    refine Finset.sum_congr rfl fun x _ => ?_
    by_cases hx : ∀ c ∈ cs, x c = if b c then 1 else 0
    · congr 1
      unfold controlled
      have : (∀ c ∈ cs, x c = 1) ↔ ∀ c ∈ cs, b c = true := by
        refine forall₂_congr fun c hc => ?_
        rw [hx c hc]
        cases b c <;> simp
      by_cases hb : ∀ c ∈ cs, b c = true
      · rw [if_pos hb, if_pos (this.2 hb)]
      · rw [if_neg hb, if_neg (fun h' => hb (this.1 h'))]
    · push Not at hx
      obtain ⟨c, hc, hne⟩ := hx
      have : tens w x = 0 := Finset.prod_eq_zero (mem_univ c) (by rw [h c hc]; exact if_neg hne)
      rw [this, mul_zero, mul_zero]
  ext a
  rw [key a]
  by_cases hb : ∀ c ∈ cs, b c = true
  · rw [if_pos hb, if_pos hb, onQubit_tens]
  · rw [if_neg hb, if_neg hb, one_mulVec]

/-! ## The symbolic states -/

/-- A qubit in a basis state, or rotated from 0 by `Ry(θ)`. -/
inductive Q
  | bit (b : Bool)
  | rot (θ : ℝ)

/-- The amplitude of `x` after `Ry(θ)` on 0. -/
noncomputable def ryAmp (θ : ℝ) (x : Fin 2) : ℝ := if x = 0 then Real.cos (θ / 2) else Real.sin (θ / 2)

noncomputable def Q.vec : Q → Fin 2 → ℂ
  | .bit b => basisVec b
  | .rot θ => fun x => (ryAmp θ x : ℂ)

/-- The product state of a list of qubits. -/
noncomputable def stOf (N : ℕ) (s : List Q) : QState N := tens fun j : Fin N => (s.getD j (.bit false)).vec

theorem stOf_set {s : List Q} (h : s.length = N) (t : Fin N) (q : Q) :
    stOf N (s.set t q) = tens (Function.update (fun j : Fin N => (s.getD j (.bit false)).vec) t q.vec) := by
  unfold stOf
  congr 1
  funext j
  by_cases hj : j = t
  · subst hj
    rw [Function.update_self, List.getD_eq_getElem?_getD, List.getElem?_set_self (by rw [h]; exact j.2)]
    rfl
  · have hj' : (t : ℕ) ≠ j := fun e => hj (Fin.ext e.symm)
    rw [Function.update_of_ne hj, List.getD_eq_getElem?_getD, List.getElem?_set_ne hj',
      ← List.getD_eq_getElem?_getD]

/-- A NOT under the condition `c`. -/
noncomputable def Q.flip (c : Bool) : Q → Q
  | .bit b => .bit (xor b c)
  | .rot θ => .rot (if c then Real.pi - θ else θ)

/-- The rotation angle of a qubit. -/
noncomputable def Q.angle : Q → ℝ
  | .bit b => if b then Real.pi else 0
  | .rot θ => θ

/-- A rotation under the condition `c`. -/
noncomputable def Q.turn (c : Bool) (φ : ℝ) (q : Q) : Q := if c then .rot (q.angle + φ) else q

/-- The control bit. -/
def Q.ctrl : Q → Option Bool
  | .bit b => some b
  | .rot _ => none

theorem Q.vec_angle (q : Q) : q.vec = (Q.rot q.angle).vec := by
  cases q with
  | rot θ => rfl
  | bit b =>
    funext x
    cases b <;> fin_cases x <;> simp [Q.vec, basisVec, Q.angle, ryAmp]

theorem X_vec (q : Q) : Spec.X *ᵥ q.vec = (q.flip true).vec := by
  cases q with
  | bit b =>
    funext x
    cases b <;> fin_cases x <;>
      simp [Q.vec, basisVec, Q.flip, Spec.X, mulVec, dotProduct, Fin.sum_univ_two]
  | rot θ =>
    funext x
    have e : (Real.pi - θ) / 2 = Real.pi / 2 - θ / 2 := by ring
    fin_cases x <;>
      simp [Q.vec, Q.flip, ryAmp, Spec.X, mulVec, dotProduct, Fin.sum_univ_two, e, Complex.cos_pi_div_two_sub,
        Complex.sin_pi_div_two_sub]

theorem Y_rot_vec (φ : ℝ) (q : Q) : Spec.rot Spec.Y φ *ᵥ q.vec = (q.turn true φ).vec := by
  have hq : (q.turn true φ).vec = (Q.rot (q.angle + φ)).vec := rfl
  rw [hq, q.vec_angle]
  generalize q.angle = θ
  have e : (θ + φ) / 2 = θ / 2 + φ / 2 := by ring
  have h0 : ryAmp (θ + φ) 0 = Real.cos (φ / 2) * ryAmp θ 0 - Real.sin (φ / 2) * ryAmp θ 1 := by
    simp only [ryAmp, if_true, one_ne_zero, if_false, e, Real.cos_add]
    ring
  have h1 : ryAmp (θ + φ) 1 = Real.sin (φ / 2) * ryAmp θ 0 + Real.cos (φ / 2) * ryAmp θ 1 := by
    simp only [ryAmp, if_true, one_ne_zero, if_false, e, Real.sin_add]
    ring
  have hI : Complex.I * Complex.I = -1 := Complex.I_mul_I
  funext x
  fin_cases x
  · show _ = ((ryAmp (θ + φ) 0 : ℝ) : ℂ)
    rw [h0]
    simp only [Q.vec, Spec.rot, Spec.Y, mulVec, dotProduct, Fin.sum_univ_two]
    simp
    linear_combination (Complex.sin (φ / 2) * (ryAmp θ 1 : ℂ)) * hI
  · show _ = ((ryAmp (θ + φ) 1 : ℝ) : ℂ)
    rw [h1]
    simp only [Q.vec, Spec.rot, Spec.Y, mulVec, dotProduct, Fin.sum_univ_two]
    simp
    linear_combination (-(Complex.sin (φ / 2) * (ryAmp θ 0 : ℂ))) * hI

/-! ## Gates and programs -/

/-- The gates: a rotation or a NOT under controls. -/
inductive SG (N : ℕ)
  | ry (φ : ℝ) (cs : List (Fin N)) (t : Fin N)
  | x (cs : List (Fin N)) (t : Fin N)

noncomputable def SG.op : SG N → QOp N
  | .ry φ cs t => controlled cs t (Spec.rot Spec.Y φ)
  | .x cs t => controlled cs t Spec.X

/-- The conjunction of the control bits. -/
def ctrls (s : List Q) : List (Fin N) → Option Bool
  | [] => some true
  | c :: cs =>
    match (s.getD c (.bit false)).ctrl, ctrls s cs with
    | some b, some b' => some (b && b')
    | _, _ => none

noncomputable def SG.step (s : List Q) : SG N → Option (List Q)
  | .ry φ cs t =>
    match ctrls s cs with
    | some b => some (s.set t ((s.getD t (.bit false)).turn b φ))
    | none => none
  | .x cs t =>
    match ctrls s cs with
    | some b => some (s.set t ((s.getD t (.bit false)).flip b))
    | none => none

noncomputable def simulate : List (SG N) → List Q → Option (List Q)
  | [], s => some s
  | g :: l, s =>
    match g.step s with
    | some s' => simulate l s'
    | none => none

def Q.value : Q → Bool
  | .bit b => b
  | .rot _ => false

theorem ctrls_bits {s : List Q} : ∀ {cs : List (Fin N)} {b : Bool}, ctrls s cs = some b →
    ∃ f : Fin N → Bool, (∀ c ∈ cs, s.getD c (.bit false) = .bit (f c)) ∧ (b = true ↔ ∀ c ∈ cs, f c = true) := by
  intro cs b h
  refine ⟨fun j => (s.getD j (.bit false)).value, ?_⟩
  induction cs generalizing b with
  | nil =>
    cases h
    simp
  | cons c cs ih =>
    unfold ctrls at h
    cases hc : s.getD c (.bit false) with
    | rot θ => rw [hc] at h; simp [Q.ctrl] at h
    | bit b1 =>
      rw [hc] at h
      cases hcs : ctrls s cs with
      | none => rw [hcs] at h; simp [Q.ctrl] at h
      | some b2 =>
        rw [hcs] at h
        simp only [Q.ctrl, Option.some.injEq] at h
        obtain ⟨i1, i2⟩ := ih hcs
        constructor
        · intro c' hc'
          rcases List.mem_cons.1 hc' with rfl | h'
          · dsimp only
            rw [hc]
            rfl
          · exact i1 c' h'
        · rw [← h, Bool.and_eq_true, List.forall_mem_cons, i2]
          dsimp only
          rw [hc]
          rfl

theorem flip_false (q : Q) : q.flip false = q := by cases q <;> simp [Q.flip]

theorem set_self {s : List Q} (t : ℕ) : s.set t (s.getD t (.bit false)) = s := by
  by_cases h : t < s.length
  · rw [List.getD_eq_getElem?_getD, List.getElem?_eq_getElem h]
    simp
  · rw [List.set_eq_of_length_le (by omega)]

theorem controlled_stOf {s : List Q} (hs : s.length = N) {cs : List (Fin N)} {b : Bool} (h : ctrls s cs = some b)
    (t : Fin N) (g : Mat2) {q : Q} (hq : b = true → g *ᵥ (s.getD t (.bit false)).vec = q.vec)
    (hf : b = false → q = s.getD t (.bit false)) : controlled cs t g *ᵥ stOf N s = stOf N (s.set t q) := by
  obtain ⟨f, h1, h2⟩ := ctrls_bits h
  rw [stOf_set hs]
  unfold stOf
  rw [controlled_tens cs t g _ f (fun c hc => by rw [h1 c hc]; rfl)]
  cases b with
  | true => rw [if_pos (h2.1 rfl), hq rfl]
  | false =>
    rw [if_neg (fun h' => by simpa using h2.2 h'), hf rfl, Function.update_eq_self]

theorem step_sound {s s' : List Q} (hs : s.length = N) (g : SG N) (h : g.step s = some s') :
    s'.length = N ∧ g.op *ᵥ stOf N s = stOf N s' := by
  cases g with
  | ry φ cs t =>
    dsimp only [SG.step] at h
    cases hc : ctrls s cs with
    | none => rw [hc] at h; cases h
    | some b =>
      rw [hc] at h
      cases h
      refine ⟨by rw [List.length_set, hs], controlled_stOf hs hc t _ ?_ ?_⟩
      · rintro rfl; exact Y_rot_vec φ _
      · rintro rfl; rfl
  | x cs t =>
    dsimp only [SG.step] at h
    cases hc : ctrls s cs with
    | none => rw [hc] at h; cases h
    | some b =>
      rw [hc] at h
      cases h
      refine ⟨by rw [List.length_set, hs], controlled_stOf hs hc t _ ?_ ?_⟩
      · rintro rfl; exact X_vec _
      · rintro rfl; exact flip_false _

/-- The simulation is right. -/
theorem simulate_sound (l : List (SG N)) {s s' : List Q} (hs : s.length = N) (h : simulate l s = some s') :
    s'.length = N ∧ timeOrdered (l.map SG.op) *ᵥ stOf N s = stOf N s' := by
  induction l generalizing s with
  | nil =>
    cases h
    exact ⟨hs, by simp [timeOrdered]⟩
  | cons g l ih =>
    unfold simulate at h
    cases hg : g.step s with
    | none => rw [hg] at h; cases h
    | some s1 =>
      rw [hg] at h
      obtain ⟨h1, e1⟩ := step_sound hs g hg
      obtain ⟨h2, e2⟩ := ih h1 h
      refine ⟨h2, ?_⟩
      rw [List.map_cons, timeOrdered_cons, ← mulVec_mulVec, e1, e2]

/-! ## Splitting a rotated qubit -/

theorem stOf_split {s : List Q} (hs : s.length = N) (t : Fin N) (q : Q) :
    stOf N (s.set t q) = ∑ b : Bool, (q.vec (if b then 1 else 0)) • stOf N (s.set t (.bit b)) := by
  ext a
  have hr : ∀ q : Q, stOf N (s.set t q) a =
      q.vec (a t) * ∏ j ∈ univ.erase t, (s.getD j (.bit false)).vec (a j) := by
    intro q
    rw [stOf_set hs]
    unfold tens
    rw [← Finset.mul_prod_erase univ _ (mem_univ t), Function.update_self]
    congr 1
    refine Finset.prod_congr rfl fun j hj => ?_
    rw [Function.update_of_ne (Finset.ne_of_mem_erase hj)]
  rw [hr, Fintype.sum_bool, Pi.add_apply, Pi.smul_apply, Pi.smul_apply, hr, hr, smul_eq_mul, smul_eq_mul,
    ← mul_assoc, ← mul_assoc, ← add_mul]
  congr 1
  rcases Fin.exists_fin_two.1 ⟨a t, rfl⟩ with h | h <;> rw [h] <;> simp [Q.vec, basisVec]

theorem stOf_zero {s : List Q} (t : Fin N) {b : Bool} (h : s.getD t (.bit false) = .bit b) {a : Bits N}
    (hb : b ≠ decide (a t = 1)) : stOf N s a = 0 := by
  refine Finset.prod_eq_zero (mem_univ t) ?_
  dsimp only
  rw [h]
  refine if_neg fun e => hb ?_
  rw [e]
  cases b <;> simp

/-- If a circuit leaves the qubit alone, only one of the branches contributes to an entry. -/
theorem split_eval (U : QOp N) {s : List Q} (hs : s.length = N) (t : Fin N) (q : Q) (a : Bits N)
    (hz : ∀ b : Bool, b ≠ decide (a t = 1) → (U *ᵥ stOf N (s.set t (.bit b))) a = 0) :
    (U *ᵥ stOf N (s.set t q)) a = q.vec (a t) * (U *ᵥ stOf N (s.set t (.bit (decide (a t = 1))))) a := by
  rw [stOf_split hs t q, mulVec_sum, Finset.sum_apply, Finset.sum_eq_single (decide (a t = 1))]
  · rw [mulVec_smul, Pi.smul_apply, smul_eq_mul]
    congr 2
    rcases Fin.exists_fin_two.1 ⟨a t, rfl⟩ with h | h <;> rw [h] <;> simp
  · intro b _ hb
    rw [mulVec_smul, Pi.smul_apply, hz b hb, smul_zero]
  · simp

end QTN
