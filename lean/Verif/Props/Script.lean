import Verif.Lemmas.Methods
import Verif.Model.Script
import Verif.Props.Info
import Verif.Props.Qnn

/-! # Property C84: the demo test_torchscript.py -/

namespace QTN.Props

open QTN QTN.Spec Matrix

variable {N : ℕ}

/-- The operations of the circuit; `a`, `b` and `c` are the qubits 0, 1 and 2. -/
noncomputable def scriptItems (w : List ℝ) (a b c : Fin N) : List (Item N) :=
  let ws := List.finRange N
  [.gate (.x a), .gate (.y b), .gate (.z a), .gate (.h b), .gate (.rxx 0.3 b a), .gate (.ryy 0.2 b c),
   .gate (.rzz 0.4 c a), .gate (.swap a c), .basic ws (w.take (3 * N)) 1, .layer .xyz ws ((w.drop (6 * N)).take (3 * N)),
   .ring2 ws, .layer .zx ws ((w.drop (9 * N)).take (2 * N)), .ring ws, .gate (.toffoli c b a)]

theorem script_makes (hN : 3 ≤ N) (w : List ℝ) : List.Forall₂ Makes (Script.calls N w)
    (scriptItems w ⟨0, by omega⟩ ⟨1, by omega⟩ ⟨2, by omega⟩ : List (Item N)) := by
  unfold Script.calls scriptItems
  simp only [← wires_finRange]
  rw [show slc w (0 * N) (3 * N) = w.take (3 * N) by simp [slc],
    show slc w (6 * N) (9 * N) = (w.drop (6 * N)).take (3 * N) by
      unfold slc; rw [List.drop_take, show 9 * N - 6 * N = 3 * N by omega],
    show slc w (9 * N) (11 * N) = (w.drop (9 * N)).take (2 * N) by
      unfold slc; rw [List.drop_take, show 11 * N - 9 * N = 2 * N by omega]]
  repeat' first | exact List.Forall₂.nil | refine List.Forall₂.cons rfl ?_

theorem script_wf (hN : 3 ≤ N) {w : List ℝ} (hw : w.length = 11 * N) :
    ∀ it ∈ (scriptItems w ⟨0, by omega⟩ ⟨1, by omega⟩ ⟨2, by omega⟩ : List (Item N)), it.WF := by
  unfold scriptItems
  simp only [List.forall_mem_cons, List.not_mem_nil, false_imp_iff, implies_true, and_true]
  have hn := List.nodup_finRange N
  refine ⟨trivial, trivial, trivial, trivial, ?_, ?_, ?_, ?_, ?_, ?_, ?_, ?_, ?_, ?_⟩
  all_goals simp [Item.WF, Instr.WF, LayerKind.axes, hn, hw]
  all_goals omega

/-- The line that the script prints. -/
def scriptLine : List String :=
  ["PauliX", "PauliY", "PauliZ", "Hadamard", "Rxx", "Ryy", "Rzz", "SWAP", "BasicEntangleLayer", "XYZLayer",
   "ring_of_cnot2_Layer", "ZXLayer", "ring_of_cnot_Layer", "toffoli"]

/-- The label of a gate or a layer. -/
def itemLabel : Item N → String
  | .gate (.h _) => "Hadamard" | .gate (.x _) => "PauliX" | .gate (.y _) => "PauliY" | .gate (.z _) => "PauliZ"
  | .gate (.rx ..) => "Rx" | .gate (.ry ..) => "Ry" | .gate (.rz ..) => "Rz"
  | .gate (.u1 ..) => "u1" | .gate (.u3 ..) => "u3"
  | .gate (.rxx ..) => "Rxx" | .gate (.ryy ..) => "Ryy" | .gate (.rzz ..) => "Rzz"
  | .gate (.cnot ..) => "cnot" | .gate (.cz ..) => "cz" | .gate (.cphase ..) => "cphase" | .gate (.cu3 ..) => "cu3"
  | .gate (.swap ..) => "SWAP" | .gate (.toffoli ..) => "toffoli"
  | .gate (.mcnot cs _) => toString cs.length ++ "_control_cnot"
  | .layer .xyz .. => "XYZLayer" | .layer .zyx .. => "ZYXLayer" | .layer .yzy .. => "YZYLayer"
  | .layer .xzx .. => "XZXLayer" | .layer .xz .. => "XZLayer" | .layer .zx .. => "ZXLayer"
  | .hlayer .. => "HadamardLayer" | .ring .. => "ring_of_cnot_Layer" | .ringDag .. => "ring_of_cnot_dagger"
  | .ring2 .. => "ring_of_cnot2_Layer" | .basic .. => "BasicEntangleLayer"

theorem ring_label {r : Ring} {i : Info} (h : r.info = .ok i) : i.label = r.label := by
  unfold Ring.info at h
  obtain ⟨_, -, h⟩ := py_bind_ok h
  split_ifs at h
  · obtain ⟨_, -, h⟩ := py_bind_ok h
    obtain ⟨_, -, h⟩ := py_bind_ok h
    cases h; rfl
  · cases h; rfl

theorem item_label (it : Item N) (h : it.WF) {o : Op} (ho : buildItem it = .ok o) :
    ∃ i, o.info = .ok i ∧ i.label = itemLabel it := by
  obtain ⟨a, i, ea, ei, -⟩ := C80_info it h
  rw [ho] at ea
  cases ea
  refine ⟨i, ei, ?_⟩
  cases it with
  | gate ins =>
    cases ins with
    | mcnot cs t =>
      obtain ⟨g, hg, ho⟩ := py_bind_ok ho
      cases ho
      obtain ⟨l, hl, hg'⟩ := py_bind_ok hg
      cases hl
      have hl : pyGet (cs.map wire ++ [wire t]) (-1) = .ok (wire t) := pyGet_last _ _
      rw [hl] at hg'
      cases hg'
      simp only [Op.info, Gate.info, Gate.label, Wires.asList, Py.ok_bind, hl] at ei
      cases ei
      simp [itemLabel]
    | _ => cases ho; cases ei; rfl
  | layer k ws p =>
    obtain ⟨l, hl, ho⟩ := py_bind_ok ho
    cases ho
    have e : l = ⟨layerCls k, N, wires ws, p⟩ := by
      unfold mkSLayer at hl
      obtain ⟨_, -, hl⟩ := py_bind_ok hl
      obtain ⟨_, -, hl⟩ := py_bind_ok hl
      exact (Except.ok.inj hl).symm
    subst e
    cases ei
    cases k <;> rfl
  | hlayer ws =>
    obtain ⟨l, hl, ho⟩ := py_bind_ok ho
    cases ho
    have e : l = ⟨.h, N, wires ws, []⟩ := by
      unfold mkSLayer at hl
      obtain ⟨_, -, hl⟩ := py_bind_ok hl
      obtain ⟨_, -, hl⟩ := py_bind_ok hl
      exact (Except.ok.inj hl).symm
    subst e
    cases ei
    rfl
  | ring ws | ringDag ws | ring2 ws =>
    obtain ⟨r, hr, ho⟩ := py_bind_ok ho
    cases ho
    unfold mkRing at hr
    obtain ⟨_, -, hr⟩ := py_bind_ok hr
    obtain ⟨_, -, hr⟩ := py_bind_ok hr
    cases hr
    rw [ring_label ei]
    rfl
  | basic ws p reps =>
    obtain ⟨b, hb, ho⟩ := py_bind_ok ho
    cases ho
    cases ei
    rfl

theorem labels_ok {l : List (Item N)} (h : ∀ it ∈ l, it.WF) {ops : List Op} (ho : l.mapM buildItem = .ok ops) :
    (circ N ops).labels = .ok (l.map itemLabel) := by
  unfold Circuit.labels
  rw [circ_gate]
  have h2 := mapM_built ho
  clear ho
  induction h2 with
  | nil => rfl
  | cons e _ ih =>
    obtain ⟨i, ei, hi⟩ := item_label _ (h _ (List.mem_cons_self ..)) e
    rw [List.mapM_cons, ei, Py.ok_bind, Py.ok_bind, ih fun it hit => h it (List.mem_cons_of_mem _ hit), Py.ok_bind, hi]
    rfl

/-- C84: `[each.info()['label'] for each in c.gate]` lists, for every circuit of gates and layers on admissible wires,
the labels of its operations in order. -/
theorem C84_labels (l : List (Item N)) (h : ∀ it ∈ l, it.WF) :
    ∃ ops, l.mapM buildItem = .ok ops ∧ (circ N ops).labels = .ok (l.map itemLabel) := by
  obtain ⟨ops, ho, -⟩ := C13_items N l h
  exact ⟨ops, ho, labels_ok h ho⟩

/-- C84: for every number of qubits from 3 on, 11N weights and a batch of samples of 1 to N numbers, `build_circuit`
returns the circuit of the listed operations and the encoded states as columns, and prints the labels. -/
theorem C84_build (hN : 3 ≤ N) (w : List ℝ) (hw : w.length = 11 * N) (batch : List (List ℝ))
    (hb : GoodSamples N batch) :
    ∃ c1 phi, Script.buildCircuit N w batch = .ok (c1, phi, scriptLine) ∧
      Computes c1.U (circuitOp (scriptItems w ⟨0, by omega⟩ ⟨1, by omega⟩ ⟨2, by omega⟩ : List (Item N))) ∧
      IsCols phi batch.length (fun k => encOp Spec.Y batch[k] (List.finRange N) *ᵥ ket0 N) := by
  have hwf := script_wf hN hw
  obtain ⟨phi, e1, h1⟩ := encodeBatch_ok (by omega) batch hb
  obtain ⟨ops, hops, hU, -⟩ := C13_items N _ hwf
  obtain ⟨psi, e2, h2⟩ := rows_permute h1
  refine ⟨circ N ops, psi, ?_, hU, h2⟩
  unfold Script.buildCircuit
  rw [e1, Py.ok_bind, methods_ok (script_makes hN w) hops, Py.ok_bind, labels_ok hwf hops, Py.ok_bind, e2, Py.ok_bind]
  rfl

/-- C84: `forward` prints that line and then raises TypeError: it hands the matrix of states to `measure` as the number
of qubits.  The script therefore ends at its second statement and never exports a file. -/
theorem C84_forward (hN : 3 ≤ N) (w : List ℝ) (hw : w.length = 11 * N) (batch : List (List ℝ))
    (hb : GoodSamples N batch) : Script.forward N w batch = ([scriptLine], .error .typeError) := by
  obtain ⟨c1, phi, e, ⟨U, eU, rU⟩, h2⟩ := C84_build hN w hw batch hb
  obtain ⟨r, e3, -⟩ := cols_matmul rU h2
  obtain ⟨Ms, eM, hM, -⟩ := zmeasure_ok N
  unfold Script.forward
  rw [e]
  dsimp only
  unfold Script.readOut
  rw [eM, Py.ok_bind, eU, Py.ok_bind, e3, Py.ok_bind]
  cases Ms with
  | nil => simp at hM; omega
  | cons M Ms => rfl

/-- C84: whatever the number of qubits, the weights and the samples, `forward` returns no result. -/
theorem C84_never (hN : 0 < N) (w : List ℝ) (batch : List (List ℝ)) : Raises (Script.forward N w batch).2 := by
  obtain ⟨Ms, eM, hM, -⟩ := zmeasure_ok N
  unfold Script.forward
  cases Script.buildCircuit N w batch with
  | error e => exact ⟨e, rfl⟩
  | ok r =>
    obtain ⟨c1, phi, line⟩ := r
    dsimp only
    unfold Script.readOut
    rw [eM, Py.ok_bind]
    refine QTN.bind_raises fun U _ => QTN.bind_raises fun psi _ => ?_
    cases Ms with
    | nil => simp at hM; omega
    | cons M Ms => exact ⟨_, rfl⟩

/-- C84: the weights 3N to 6N, more than a quarter of the 11N that are trained, are not used. -/
theorem C84_unused (w w' : List ℝ) (h1 : w.take (3 * N) = w'.take (3 * N)) (h2 : w.drop (6 * N) = w'.drop (6 * N))
    (batch : List (List ℝ)) : Script.buildCircuit N w batch = Script.buildCircuit N w' batch ∧
      Script.forward N w batch = Script.forward N w' batch := by
  have e : Script.calls N w = Script.calls N w' := by
    have e1 : ∀ w : List ℝ, slc w (0 * N) (3 * N) = w.take (3 * N) := fun w => by simp [slc]
    have e2 : ∀ w : List ℝ, slc w (6 * N) (9 * N) = (w.drop (6 * N)).take (3 * N) := fun w => by
      unfold slc; rw [List.drop_take, show 9 * N - 6 * N = 3 * N by omega]
    have e3 : ∀ w : List ℝ, slc w (9 * N) (11 * N) = ((w.drop (6 * N)).drop (3 * N)).take (2 * N) := fun w => by
      unfold slc; rw [List.drop_take, List.drop_drop, show 11 * N - 9 * N = 2 * N by omega,
        show 6 * N + 3 * N = 9 * N by omega]
    unfold Script.calls
    rw [e1, e2, e3, e1, e2, e3, h1, h2]
  have : Script.buildCircuit N w batch = Script.buildCircuit N w' batch := by
    unfold Script.buildCircuit
    rw [e]
  refine ⟨this, ?_⟩
  unfold Script.forward
  rw [this]

/-- The call of the script, `net2(torch.tensor([[2.5]]))` with 4 qubits, meets the hypotheses; so do two lists of
weights that differ in the weights 12 to 24 only. -/
example : GoodSamples 4 [[2.5]] ∧ (List.replicate 44 (0.3 : ℝ)).length = 11 * 4 ∧
    Script.forward 4 (List.replicate 44 0.3) [[2.5]] = ([scriptLine], .error .typeError) ∧
    (let w' := List.replicate 12 (0.3 : ℝ) ++ List.replicate 12 7 ++ List.replicate 20 0.3
     (List.replicate 44 (0.3 : ℝ)).take (3 * 4) = w'.take (3 * 4) ∧
     (List.replicate 44 (0.3 : ℝ)).drop (6 * 4) = w'.drop (6 * 4) ∧ List.replicate 44 (0.3 : ℝ) ≠ w') := by
  have hb : GoodSamples 4 [[2.5]] := by simp [GoodSamples]
  refine ⟨hb, by simp, C84_forward (by omega) _ (by simp) _ hb, rfl, rfl, fun h => ?_⟩
  have := congrArg (fun l => l.getD 12 0) h
  norm_num at this

end QTN.Props
