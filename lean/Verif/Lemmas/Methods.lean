import Verif.Lemmas.Train
import Verif.Lemmas.ContractItems
import Verif.Model.Methods

/-! # Circuits built by method calls -/

namespace QTN

open Spec

variable {N : ℕ}

/-- The method constructs the item. -/
def Makes (m : Method) (it : Item N) : Prop := m.construct N = buildItem it

theorem run_eq {m : Method} {it : Item N} (h : Makes m it) {c : Circuit} (hc : c.nqubits = N) :
    m.run c = c.addBuilt (itemCall it) := by
  unfold Method.run Circuit.addBuilt
  rw [hc, h, itemCall_eq]

theorem methods_from {ms : List Method} {l : List (Item N)} (h : List.Forall₂ Makes ms l) (c : Circuit)
    (hc : c.nqubits = N) :
    ms.foldlM Method.run c = l.foldlM (fun c it => c.addBuilt (itemCall it)) c := by
  induction h generalizing c with
  | nil => rfl
  | @cons m it ms l h _ ih =>
    rw [List.foldlM_cons, List.foldlM_cons, run_eq h hc]
    cases e : c.addBuilt (itemCall it) with
    | error => rfl
    | ok c' =>
      rw [Py.ok_bind, Py.ok_bind]
      refine ih c' ?_
      unfold Circuit.addBuilt at e
      cases e' : itemCall it c.nqubits with
      | error => rw [e', Py.error_bind] at e; cases e
      | ok o =>
        rw [e', Py.ok_bind] at e
        cases e
        rw [← hc]
        exact adds_nqubits c [o]

/-- Method calls that construct the items of a list build its circuit. -/
theorem methods_ok {ms : List Method} {l : List (Item N)} (h : List.Forall₂ Makes ms l) {ops : List Op}
    (ho : l.mapM buildItem = .ok ops) : methods N ms = .ok (Props.circ N ops) := by
  unfold methods
  rw [methods_from h _ rfl, calls_ok l ho]

theorem mapM_built {α β : Type} {f : α → Py β} : ∀ {l : List α} {bs : List β}, l.mapM f = .ok bs →
    List.Forall₂ (fun a b => f a = .ok b) l bs
  | [], _, h => by cases h; exact .nil
  | a :: l, bs, h => by
    rw [List.mapM_cons] at h
    cases ha : f a with
    | error e => rw [ha, Py.error_bind] at h; cases h
    | ok b =>
      cases hl : l.mapM f with
      | error e => rw [ha, Py.ok_bind, hl, Py.error_bind] at h; cases h
      | ok bs' =>
        rw [ha, Py.ok_bind, hl, Py.ok_bind] at h
        cases h
        exact .cons ha (mapM_built hl)

end QTN
