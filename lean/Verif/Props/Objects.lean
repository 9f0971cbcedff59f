import Verif.Lemmas.Shared

/-! # Property C63: circuits of distinct objects behave as lists of operations -/

namespace QTN.Props

open QTN QTN.Spec

noncomputable section

/-- What a program can do with one circuit.  `add r` adds the object with the reference `r`. -/
inductive Cmd
  | add (r : Ref)
  | clear
  | update (idx : ℕ) (p : List ℝ)
  | U (leftToRight : Bool)
  | check
  | evolve (svd : SVDOracle) (mps : List (Tensor ℂ))
  | contract (T : Tensor ℂ) (batch : Bool)
  | expectation (svd : SVDOracle) (init M : Tensor ℂ) (tn : Bool)
  | grad (svd : SVDOracle) (ps : PShift)
  | save (svd : SVDOracle) (ps : PShift) (m : Op)
  | grad2 (svd : SVDOracle) (ps : PShift) (d : PShift.Saved)

/-- What a call returns. -/
inductive Out
  | unit
  | bool (b : Bool)
  | real (x : ℝ)
  | reals (l : List ℝ)
  | tensor (T : Tensor ℂ)
  | mps (l : List (Tensor ℂ))
  | saved (d : PShift.Saved) (psi : Tensor ℂ)

/-- The call on objects. -/
def Cmd.onObjects : Cmd → OM Out
  | .add r => do OM.add r; pure .unit
  | .clear => do OM.clear; pure .unit
  | .update idx p => do OM.update idx p; pure .unit
  | .U b => OM.read (fun h c => TNM.lift (c.U h b)) >>= fun T => pure (.tensor T)
  | .check => OM.read (fun h c => TNM.lift (c.TN_check h)) >>= fun b => pure (.bool b)
  | .evolve svd mps => OM.read (fun h c => c.TN_evolution svd h mps) >>= fun l => pure (.mps l)
  | .contract T b => OM.read (fun h c => TNM.lift (c.TN_contract_evolution h T b)) >>= fun T => pure (.tensor T)
  | .expectation svd i M tn => OM.read (fun h c => c.cir_expectation svd h i M tn) >>= fun x => pure (.real x)
  | .grad svd ps => ps.ocal_params_grad svd >>= fun g => pure (.reals g)
  | .save svd ps m => OM.read (fun h c => ps.osave_mid_MPS svd h c m) >>= fun r => pure (.saved r.1 r.2)
  | .grad2 svd ps d => ps.ocal_params_grad2 svd d >>= fun g => pure (.reals g)

/-- The call on a circuit that is a list of operations; `value r` is the operation that reference `r` stands
for. -/
def Cmd.onValues (value : Ref → Op) : Cmd → CM Out
  | .add r => fun st => (.ok .unit, (st.1.add (value r), st.2))
  | .clear => fun st => (.ok .unit, (st.1.clear, st.2))
  | .update idx p => do CM.update idx p; pure .unit
  | .U b => CM.read (fun c => TNM.lift (c.U b)) >>= fun T => pure (.tensor T)
  | .check => CM.read (fun c => TNM.lift (.ok c.TN_check)) >>= fun b => pure (.bool b)
  | .evolve svd mps => CM.read (fun c => c.TN_evolution svd mps) >>= fun l => pure (.mps l)
  | .contract T b => CM.read (fun c => TNM.lift (c.TN_contract_evolution T b)) >>= fun T => pure (.tensor T)
  | .expectation svd i M tn => CM.read (fun c => c.cir_expectation svd i M tn) >>= fun x => pure (.real x)
  | .grad svd ps => ps.cal_params_grad svd >>= fun g => pure (.reals g)
  | .save svd ps m => CM.read (fun c => ps.save_mid_MPS svd c m) >>= fun r => pure (.saved r.1 r.2)
  | .grad2 svd ps d => ps.cal_params_grad2 svd d >>= fun g => pure (.reals g)

/-- A program runs its calls one after the other; an exception ends the call, not the program. -/
def runObjects : List Cmd → World → List (Py Out) × World
  | [], w => ([], w)
  | k :: ks, w => let r := k.onObjects w
    let t := runObjects ks r.2
    (r.1 :: t.1, t.2)

/-- The same program on values. -/
def runValues (value : Ref → Op) : List Cmd → Circuit × List (Tensor ℂ) → List (Py Out) × Circuit × List (Tensor ℂ)
  | [], st => ([], st)
  | k :: ks, st => let r := k.onValues value st
    let t := runValues value ks r.2
    (r.1 :: t.1, t.2)

/-- The references a program adds. -/
def added : List Cmd → List Ref
  | [] => []
  | .add r :: ks => r :: added ks
  | _ :: ks => added ks

theorem Simulates.cmd (value : Ref → Op) (k : Cmd) (h : ∀ r, k ≠ .add r) :
    Simulates k.onObjects (k.onValues value) := by
  cases k with
  | add r => exact absurd rfl (h r)
  | clear => exact fun w st hv => ⟨rfl, ⟨hv.1.nqubits, rfl, hv.1.params, hv.1.num⟩, hv.2.1, List.nodup_nil⟩
  | update idx p => exact (Simulates.update idx p).bind fun _ => Simulates.pure _
  | U b => exact (Simulates.read fun _ _ _ v => by rw [v.U]).bind fun _ => Simulates.pure _
  | check => exact (Simulates.read fun _ _ _ v => by rw [v.TN_check]).bind fun _ => Simulates.pure _
  | evolve svd mps => exact (Simulates.read fun _ _ _ v => by rw [v.TN_evolution]).bind fun _ => Simulates.pure _
  | contract T b =>
    exact (Simulates.read fun _ _ _ v => by rw [v.TN_contract_evolution]).bind fun _ => Simulates.pure _
  | expectation svd i M tn =>
    exact (Simulates.read fun _ _ _ v => by rw [v.cir_expectation]).bind fun _ => Simulates.pure _
  | grad svd ps => exact (sim_grad svd ps).bind fun _ => Simulates.pure _
  | save svd ps m => exact (Simulates.read fun _ _ _ v => by rw [v.save_mid_MPS]).bind fun _ => Simulates.pure _
  | grad2 svd ps d => exact (sim_grad2 svd ps d).bind fun _ => Simulates.pure _

theorem OM.Frames.cmd (k : Cmd) (h : ∀ r, k ≠ .add r) (hc : k ≠ .clear) : k.onObjects.Frames := by
  cases k with
  | add r => exact absurd rfl (h r)
  | clear => exact absurd rfl hc
  | update idx p => exact (OM.Frames.update idx p).bind fun _ => OM.Frames.pure _
  | grad svd ps => exact (frames_grad svd ps).bind fun _ => OM.Frames.pure _
  | grad2 svd ps d => exact (frames_grad2 svd ps d).bind fun _ => OM.Frames.pure _
  | _ => exact (OM.Frames.read _).bind fun _ => OM.Frames.pure _

theorem run_same (value : Ref → Op) : ∀ (ks : List Cmd) (w : World) (st : Circuit × List (Tensor ℂ)),
    WView w st → (∀ r ∈ added ks, w.heap r = .op (value r)) → (added ks).Nodup →
    (∀ r ∈ added ks, r ∉ w.cir.gate) →
    (runObjects ks w).1 = (runValues value ks st).1 ∧ WView (runObjects ks w).2 (runValues value ks st).2
  | [], _, _, hv, _, _, _ => ⟨rfl, hv⟩
  | k :: ks, w, st, hv, hval, hnd, hfresh => by
    unfold runObjects runValues
    dsimp only
    by_cases hk : ∃ r, k = .add r
    · obtain ⟨r, rfl⟩ := hk
      have hn : r ∉ w.cir.gate := hfresh r (by simp [added])
      have hr : r ∈ added (.add r :: ks) := by simp [added]
      obtain ⟨h1, h2⟩ := add_view hv (hval r hr) hn
      have e : Cmd.onObjects (.add r) w = (.ok .unit, (OM.add r w).2) := by
        rcases ea : OM.add r w with ⟨a, w'⟩
        rw [ea] at h1
        dsimp only at h1
        subst h1
        show (OM.add r >>= fun _ => pure Out.unit) w = _
        rw [OM.bind_ok ea]
        rfl
      have eg : (OM.add r w).2.cir.gate = w.cir.gate ++ [r] ∧ (OM.add r w).2.heap = w.heap := by
        unfold OM.add
        rw [hval r hr]
        dsimp only [Obj.numParams, Obj.params]
        split_ifs <;> exact ⟨rfl, rfl⟩
      rw [e]
      have hnd' : r ∉ added ks ∧ (added ks).Nodup := by simpa [added] using hnd
      obtain ⟨h3, h4⟩ := run_same value ks (OM.add r w).2 (st.1.add (value r), st.2) h2
        (fun r' hr' => by
          rw [eg.2]
          exact hval r' (by simp [added, hr']))
        hnd'.2 (fun r' hr' h => by
          rw [eg.1, List.mem_append, List.mem_singleton] at h
          rcases h with h | rfl
          · exact hfresh r' (by simp [added, hr']) h
          · exact hnd'.1 hr')
      exact ⟨congrArg (_ :: ·) h3, h4⟩
    · push Not at hk
      obtain ⟨h1, h2⟩ := Simulates.cmd value k hk w st hv
      have ea : added (k :: ks) = added ks := by
        cases k with
        | add r => exact absurd rfl (hk r)
        | _ => rfl
      rw [ea] at hnd hfresh hval
      have hf : (∀ r ∈ added ks, (k.onObjects w).2.heap r = .op (value r)) ∧
          ∀ r ∈ added ks, r ∉ (k.onObjects w).2.cir.gate := by
        by_cases hc : k = .clear
        · subst hc
          exact ⟨hval, fun r _ h => by cases h⟩
        · obtain ⟨f1, f2⟩ := OM.Frames.cmd k hk hc w
          exact ⟨fun r hr => by rw [f2 r (hfresh r hr)]; exact hval r hr, fun r hr => by rw [f1]; exact hfresh r hr⟩
      obtain ⟨h3, h4⟩ := run_same value ks (k.onObjects w).2 (k.onValues value st).2 h2 hf.1 hnd hf.2
      exact ⟨by rw [h1, h3], h4⟩

/-- C63: take any objects (gates and layers, valid or not) and any program that creates `Circuit(N)` and then, in
any order and any number of times, adds objects, clears the circuit, changes parameters by position, evaluates the circuit on any
path, and computes gradients, catching the exceptions.  If it adds no object twice, every call returns or raises
what it returns or raises when the circuit is a list of the operations themselves, the same matrices are
decomposed in the same order, and at the end the objects in the circuit are the operations in that list and the
two dictionaries of parameters agree. -/
theorem C63_program (N : ℕ) (value : Ref → Op) (ks : List Cmd) (hk : (added ks).Nodup) (s : List (Tensor ℂ)) :
    let w := runObjects ks ⟨fun r => .op (value r), OCircuit.new N, s⟩
    let st := runValues value ks (Circuit.new N, s)
    w.1 = st.1 ∧ w.2.log = st.2.2 ∧ w.2.cir.gate.map w.2.heap = st.2.1.gate.map .op ∧
      w.2.cir.cir_params = st.2.1.cir_params ∧ w.2.cir.cir_num_params = st.2.1.cir_num_params ∧
      w.2.cir.nqubits = st.2.1.nqubits := by
  obtain ⟨h1, h2, h3, -⟩ := run_same value ks ⟨fun r => .op (value r), OCircuit.new N, s⟩ (Circuit.new N, s)
    ⟨⟨rfl, rfl, rfl, rfl⟩, rfl, List.nodup_nil⟩ (fun _ _ => rfl) hk (fun _ _ h => by simp [OCircuit.new] at h)
  exact ⟨h1, h3, h2.gate, h2.params, h2.num, h2.nqubits⟩

/-- A program with two objects that adds, updates, evaluates and differentiates. -/
example (svd : SVDOracle) (ps : PShift) (M : Tensor ℂ) : (added [.add 0, .U true, .clear, .add 1, .update 0 [1],
    .expectation svd ps.init_state M true, .grad svd ps, .update 7 [], .check]).Nodup := by
  simp [added]

/-- C63, evaluation only: the evaluation functions do not tell whether positions share an object.  For any
references, repeated or not, that hold the operations `ops`, adding them one after the other succeeds and every
evaluation returns or raises what it does for the circuit that is the list `ops`. -/
theorem C63_evaluation (N : ℕ) (h : Heap) (refs : List Ref) (ops : List Op) (hr : refs.map h = ops.map .op)
    (s : List (Tensor ℂ)) :
    ∃ c, addAll refs ⟨h, OCircuit.new N, s⟩ = (.ok (), ⟨h, c, s⟩) ∧ c.gate = refs ∧
      c.cir_num_params = (circ N ops).cir_num_params ∧ c.cir_params = (circ N ops).cir_params ∧
      (∀ b, c.U h b = (circ N ops).U b) ∧ c.TN_check h = .ok (circ N ops).TN_check ∧
      (∀ svd mps, c.TN_evolution svd h mps = (circ N ops).TN_evolution svd mps) ∧
      (∀ T b, c.TN_contract_evolution h T b = (circ N ops).TN_contract_evolution T b) ∧
      (∀ svd i M tn, c.cir_expectation svd h i M tn = (circ N ops).cir_expectation svd i M tn) ∧
      ∀ svd (ps : PShift) m, ps.osave_mid_MPS svd h c m = ps.save_mid_MPS svd (circ N ops) m := by
  obtain ⟨c, h1, v, h2⟩ := addAll_view h refs ops hr (OCircuit.new N) (Circuit.new N) s ⟨rfl, rfl, rfl, rfl⟩
  exact ⟨c, h1, h2, v.num, v.params, fun b => v.U b, v.TN_check, fun svd mps => v.TN_evolution svd mps,
    fun T b => v.TN_contract_evolution T b, fun svd i M tn => v.cir_expectation svd i M tn,
    fun svd ps m => v.save_mid_MPS svd ps m⟩

/-- Two positions with one object and one with another. -/
example (g g' : Op) : [0, 1, 0].map (fun r : Ref => if r = 0 then Obj.op g else .op g') =
    [g, g', g].map .op := by simp

end

end QTN.Props
