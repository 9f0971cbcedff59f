import Verif.Lemmas.Grad
import Verif.Lemmas.LosslessEx

/-! # Facts for the examples about gradients -/

namespace QTN

open Spec Matrix QTN.Props

theorem bell_log {svd : SVDOracle} (hv : ValidSVD svd) {p q : ℂ} (hp : ‖p‖ > 1e-8)
    (hq : ‖q‖ > 1e-8) (s : List (Tensor ℂ)) :
    ∃ A, (StateVec2MPS svd (bellVec p q) 2 s).2 = s ++ [A] ∧ Lossless A := by
  rw [sv2mps_unfold svd (N := 2) rfl]
  obtain ⟨A, sA, gA, h0, h1, -⟩ := loop_step (c := bellVec p q) (k := 0) hv (D := 1) (by omega) rfl s
  refine ⟨A, ?_, ?_⟩
  · by_cases hb : bondDim (svd s A).S = 0
    · rw [h0 hb]
    · obtain ⟨U, r, t, tr, -, -, -, h2⟩ := h1 hb
      obtain ⟨t', e, -⟩ := loop_last svd (c := r) tr.shapeR (s ++ [A])
      rw [h2 _ _ e]
  · refine lossless_diag2 sA hp hq ?_
    have e : ∀ i j : ℕ, i < 2 → j < 2 → A.get [i, j] = (bellVec p q).get [0, i * 2 + j] := by
      intro i j hi hj
      have := gA i 0 j hi (by omega) hj
      simpa using this
    ext i j
    show A.get [(i : ℕ), (j : ℕ)] = _
    rw [e i j i.isLt j.isLt]
    unfold bellVec
    fin_cases i <;> fin_cases j
    · exact Tensor.get_ofFn rfl
    · exact Tensor.get_ofFn rfl
    · exact Tensor.get_ofFn rfl
    · exact Tensor.get_ofFn rfl

/-- Nothing is decomposed. -/
def TNM.Silent {α : Type} (x : TNM α) : Prop := ∀ s, (x s).2 = s

theorem TNM.Silent.bind_log {α β : Type} {x : TNM α} {f : α → TNM β} (hf : ∀ a, (f a).Silent)
    (s : List (Tensor ℂ)) : ((x >>= f) s).2 = (x s).2 := by
  rw [TNM.bind_eq]
  rcases h : x s with ⟨r, s'⟩
  cases r with
  | ok a => exact hf a s'
  | error e => rfl

theorem TNM.Silent.lift {α : Type} (x : Py α) : TNM.Silent (liftM x : TNM α) := fun _ => rfl

theorem TNM.Silent.lift' {α : Type} (x : Py α) : TNM.Silent (TNM.lift x) := fun _ => rfl

theorem TNM.Silent.pure {α : Type} (x : α) : TNM.Silent (Pure.pure x : TNM α) := fun _ => rfl

theorem TNM.Silent.bind {α β : Type} {x : TNM α} {f : α → TNM β} (hx : x.Silent) (hf : ∀ a, (f a).Silent) :
    (x >>= f).Silent := fun s => by rw [TNM.Silent.bind_log hf, hx]

/-- The circuit acts on two qubits and consists of x rotations of qubit 0. -/
def RxOnly (c : Circuit) : Prop := c.nqubits = 2 ∧ ∀ o ∈ c.gate, ∃ θ, o = .gate (mkRx θ 2 (.int 0))

theorem silent_foldlM {α β : Type} {f : β → α → TNM β} (l : List α) (h : ∀ a ∈ l, ∀ b, (f b a).Silent) :
    ∀ b, (l.foldlM f b).Silent := by
  induction l with
  | nil => intro b; exact TNM.Silent.pure b
  | cons a l ih =>
    intro b
    rw [List.foldlM_cons]
    exact (h a (by simp) b).bind fun b' => ih (fun a ha => h a (by simp [ha])) b'

/-- All decomposed matrices are lossless after the computation if they were before. -/
def CM.Safe {α : Type} (x : CM α) : Prop := ∀ st, RxOnly st.1 → (∀ A ∈ st.2, Lossless A) →
  RxOnly (x st).2.1 ∧ ∀ A ∈ (x st).2.2, Lossless A

theorem CM.Safe.bind {α β : Type} {x : CM α} {f : α → CM β} (hx : x.Safe) (hf : ∀ a, (f a).Safe) :
    (x >>= f).Safe := by
  intro st h1 h2
  obtain ⟨a1, a2⟩ := hx st h1 h2
  rcases h : x st with ⟨e | a, st'⟩
  · rw [CM.bind_error h]; rw [h] at a1 a2; exact ⟨a1, a2⟩
  · rw [CM.bind_ok h]; rw [h] at a1 a2; exact hf a st' a1 a2

theorem CM.Safe.pure {α : Type} (a : α) : CM.Safe (Pure.pure a : CM α) := fun _ h1 h2 => ⟨h1, h2⟩

theorem CM.Safe.lift {α : Type} (a : Py α) : CM.Safe (CM.lift a) := fun _ h1 h2 => ⟨h1, h2⟩

theorem CM.Safe.read {α : Type} {f : Circuit → TNM α} (h : ∀ c, (f c).Silent) : (CM.read f).Safe :=
  fun st h1 h2 => ⟨h1, by show ∀ A ∈ (f st.1 st.2).2, _; rw [h]; exact h2⟩

theorem CM.Safe.update (idx : ℕ) (p : List ℝ) : (CM.update idx p).Safe := by
  intro st h1 h2
  unfold CM.update
  split
  · exact ⟨h1, h2⟩
  · next o ho =>
    split
    · exact ⟨h1, h2⟩
    · next o' ho' =>
      refine ⟨⟨h1.1, fun x hx => ?_⟩, h2⟩
      rcases List.mem_or_eq_of_mem_set hx with hx | rfl
      · exact h1.2 x hx
      · obtain ⟨θ, rfl⟩ := h1.2 o (List.mem_of_getElem? ho)
        match p, ho' with
        | [a], ho' => cases ho'; exact ⟨a, rfl⟩

theorem safe_expec {svd : SVDOracle} (hv : ValidSVD svd) {p q : ℂ} (hp : ‖p‖ > 1e-8) (hq : ‖q‖ > 1e-8)
    {M : Tensor ℂ} (hM : M.shape = [4, 4]) : ((⟨bellVec p q, M⟩ : PShift).expec svd).Safe := by
  intro st h1 h2
  refine ⟨h1, ?_⟩
  show ∀ A ∈ (st.1.cir_expectation svd (bellVec p q) M true st.2).2, _
  have hr : IsRow (bellVec p q) (fun a : Bits 2 => (bellVec p q).get [0, enc a]) := row_of_shape rfl
  have hc : st.1.TN_check = true := by
    unfold Circuit.TN_check
    rw [List.all_eq_true]
    intro o ho
    obtain ⟨θ, rfl⟩ := h1.2 o ho
    rfl
  rw [cir_expectation_checks svd _ (by rw [hr.1, h1.1]) hM, if_pos ⟨hc, rfl⟩, row_view_row hr,
    TNM.lift_ok_bind, TNM.Silent.bind_log, h1.1]
  · obtain ⟨A, e, hA⟩ := bell_log hv hp hq st.2
    rw [e]
    intro B hB
    rcases List.mem_append.1 hB with hB | hB
    · exact h2 B hB
    · obtain rfl := List.mem_singleton.1 hB
      exact hA
  · intro mps
    refine TNM.Silent.bind ?_ fun _ => (TNM.Silent.lift _).bind fun _ => TNM.Silent.lift' _
    unfold Circuit.TN_evolution
    refine (TNM.Silent.lift _).bind fun _ => silent_foldlM _ (fun o ho b => ?_) _
    obtain ⟨θ, rfl⟩ := h1.2 o ho
    exact TNM.Silent.lift' _

theorem safe_grad {svd : SVDOracle} {ps : PShift} (he : (ps.expec svd).Safe) : (ps.cal_params_grad svd).Safe := by
  have hvec : ∀ idx is p, (ps.gradVec svd idx is p).Safe := by
    intro idx is
    induction is with
    | nil => intro p; exact CM.Safe.pure _
    | cons i is ih =>
      intro p
      exact (CM.Safe.update _ _).bind fun _ => he.bind fun _ => (CM.Safe.update _ _).bind fun _ =>
        he.bind fun _ => (CM.Safe.update _ _).bind fun _ => (ih _).bind fun _ => CM.Safe.pure _
  have hat : ∀ idx, (ps.gradAt svd idx).Safe := by
    intro idx
    unfold PShift.gradAt
    refine (CM.Safe.read fun c => ?_).bind fun o => ?_
    · split <;> exact TNM.Silent.lift' _
    · split
      · exact CM.Safe.pure _
      · refine (CM.Safe.read fun c => TNM.Silent.lift' _).bind fun p => ?_
        split
        · exact ((CM.Safe.update _ _).bind fun _ => he.bind fun _ => (CM.Safe.update _ _).bind fun _ =>
            he.bind fun _ => (CM.Safe.update _ _).bind fun _ => CM.Safe.pure _).bind fun _ => CM.Safe.pure _
        · exact hvec _ _ _
        · exact CM.Safe.lift _
  have hloop : ∀ l, (ps.gradLoop svd l).Safe := by
    intro l
    induction l with
    | nil => exact CM.Safe.pure _
    | cons i l ih => exact (hat i).bind fun _ => ih.bind fun _ => CM.Safe.pure _
  exact (CM.Safe.read fun _ => TNM.Silent.lift' _).bind fun _ => (hloop _).bind fun _ =>
    (CM.Safe.read fun _ => TNM.Silent.lift' _).bind fun _ => CM.Safe.pure _

end QTN
