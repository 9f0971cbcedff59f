import Verif.Lemmas.Shared

/-! # Shared x rotations: no matrix that is decomposed loses anything -/

namespace QTN

open Spec

/-- The circuit acts on two qubits and its objects are x rotations of qubit 0. -/
def ORxOnly (w : World) : Prop :=
  w.cir.nqubits = 2 ∧ ∀ r ∈ w.cir.gate, ∃ θ, w.heap r = .op (.gate (mkRx θ 2 (.int 0)))

/-- All decomposed matrices are lossless after the computation if they were before. -/
def OM.Safe {α : Type} (x : OM α) : Prop := ∀ w, ORxOnly w → (∀ A ∈ w.log, Lossless A) →
  ORxOnly (x w).2 ∧ ∀ A ∈ (x w).2.log, Lossless A

theorem OM.Safe.bind {α β : Type} {x : OM α} {f : α → OM β} (hx : x.Safe) (hf : ∀ a, (f a).Safe) :
    (x >>= f).Safe := by
  intro st h1 h2
  obtain ⟨a1, a2⟩ := hx st h1 h2
  rcases h : x st with ⟨e | a, st'⟩
  · rw [OM.bind_error h]; rw [h] at a1 a2; exact ⟨a1, a2⟩
  · rw [OM.bind_ok h]; rw [h] at a1 a2; exact hf a st' a1 a2

theorem OM.Safe.pure {α : Type} (a : α) : OM.Safe (Pure.pure a : OM α) := fun _ h1 h2 => ⟨h1, h2⟩

theorem OM.Safe.lift {α : Type} (a : Py α) : OM.Safe (OM.lift a) := fun _ h1 h2 => ⟨h1, h2⟩

theorem OM.Safe.read {α : Type} {f : Heap → OCircuit → TNM α} (h : ∀ p c, (f p c).Silent) : (OM.read f).Safe :=
  fun w h1 h2 => ⟨h1, by show ∀ A ∈ (f w.heap w.cir w.log).2, _; rw [h]; exact h2⟩

theorem OM.Safe.update (idx : ℕ) (p : List ℝ) : (OM.update idx p).Safe := by
  intro w h1 h2
  unfold OM.update OM.touch
  split
  · exact ⟨h1, h2⟩
  · next r hr =>
    obtain ⟨θ, e⟩ := h1.2 r (List.mem_of_getElem? hr)
    split
    · exact ⟨h1, h2⟩
    · next o' ho' =>
      rw [e] at ho'
      refine ⟨⟨h1.1, fun r' hr' => ?_⟩, h2⟩
      by_cases hrr : r' = r
      · subst hrr
        show ∃ θ, Function.update w.heap r' o' r' = _
        rw [Function.update_self]
        match p, ho' with
        | [a], ho' => cases ho'; exact ⟨a, rfl⟩
      · obtain ⟨θ', e'⟩ := h1.2 r' hr'
        exact ⟨θ', by show Function.update w.heap r o' r' = _; rw [Function.update_of_ne hrr]; exact e'⟩

theorem safe_oexpec {svd : SVDOracle} (hv : ValidSVD svd) {p q : ℂ} (hp : ‖p‖ > 1e-8) (hq : ‖q‖ > 1e-8)
    {M : Tensor ℂ} (hM : M.shape = [4, 4]) : ((⟨bellVec p q, M⟩ : PShift).oexpec svd).Safe := by
  intro w h1 h2
  refine ⟨h1, ?_⟩
  have : ∃ ops : List Op, w.cir.gate.map w.heap = ops.map .op ∧ ∀ o ∈ ops, ∃ θ, o = .gate (mkRx θ 2 (.int 0)) := by
    obtain ⟨-, h⟩ := h1
    generalize w.cir.gate = l at h
    induction l with
    | nil => exact ⟨[], rfl, by simp⟩
    | cons r l ih =>
      obtain ⟨θ, e⟩ := h r (by simp)
      obtain ⟨ops, e', h'⟩ := ih fun r hr => h r (by simp [hr])
      refine ⟨.gate (mkRx θ 2 (.int 0)) :: ops, by rw [List.map_cons, List.map_cons, e, e'], fun o ho => ?_⟩
      rcases List.mem_cons.1 ho with rfl | ho
      · exact ⟨θ, rfl⟩
      · exact h' o ho
  obtain ⟨ops, e1, e2⟩ := this
  have v : View w.heap w.cir ⟨w.cir.nqubits, ops, w.cir.cir_params, w.cir.cir_num_params⟩ := ⟨rfl, e1, rfl, rfl⟩
  show ∀ A ∈ (w.cir.cir_expectation svd w.heap (bellVec p q) M true w.log).2, _
  rw [v.cir_expectation]
  exact (safe_expec hv hp hq hM (⟨w.cir.nqubits, ops, w.cir.cir_params, w.cir.cir_num_params⟩, w.log)
    ⟨h1.1, e2⟩ h2).2

theorem safe_ograd {svd : SVDOracle} {ps : PShift} (he : (ps.oexpec svd).Safe) : (ps.ocal_params_grad svd).Safe := by
  have hvec : ∀ idx is p, (ps.ogradVec svd idx is p).Safe := by
    intro idx is
    induction is with
    | nil => intro p; exact OM.Safe.pure _
    | cons i is ih =>
      intro p
      exact (OM.Safe.update _ _).bind fun _ => he.bind fun _ => (OM.Safe.update _ _).bind fun _ =>
        he.bind fun _ => (OM.Safe.update _ _).bind fun _ => (ih _).bind fun _ => OM.Safe.pure _
  have hat : ∀ idx, (ps.ogradAt svd idx).Safe := by
    intro idx
    unfold PShift.ogradAt
    refine OM.Safe.bind (OM.Safe.read fun h c => ?_) fun o => (OM.Safe.lift _).bind fun n => ?_
    · split <;> exact TNM.Silent.lift' _
    · split
      · exact OM.Safe.pure _
      · refine (OM.Safe.read fun _ c => TNM.Silent.lift' _).bind fun p => ?_
        split
        · exact ((OM.Safe.update _ _).bind fun _ => he.bind fun _ => (OM.Safe.update _ _).bind fun _ =>
            he.bind fun _ => (OM.Safe.update _ _).bind fun _ => OM.Safe.pure _).bind fun _ => OM.Safe.pure _
        · exact hvec _ _ _
        · exact OM.Safe.lift _
  have hloop : ∀ l, (ps.ogradLoop svd l).Safe := by
    intro l
    induction l with
    | nil => exact OM.Safe.pure _
    | cons i l ih => exact (hat i).bind fun _ => ih.bind fun _ => OM.Safe.pure _
  exact (OM.Safe.read fun _ _ => TNM.Silent.lift' _).bind fun _ => (hloop _).bind fun _ =>
    (OM.Safe.read fun _ _ => TNM.Silent.lift' _).bind fun _ => OM.Safe.pure _

end QTN
