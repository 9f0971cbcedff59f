import Mathlib.Data.Nat.Digits.Defs
import Verif.Model.QCircuit

/-!
# The comparison of a circuit with Qiskit (deepquantum/tests/test_CDO.py)

The script builds the same 10-qubit circuit with `Circuit` and with Qiskit, runs both on `|0…0⟩` and prints both states.
Qiskit is not part of the repository; its gates are modelled by the matrices of its documentation, and the rounding
of `get_statevector(decimals=4)` by a function that changes no number by more than half a unit of the fourth decimal.
-/

namespace QTN

noncomputable section

namespace Cdo

/-! ## The first half: `Circuit` -/

/-- A method call `a1.…(…)` of the script, with the arguments in the order of the script. -/
inductive Call
  | u3 (p : List ℝ) (w : ℤ) | u1 (θ : ℝ) (w : ℤ) | ry (θ : ℝ) (w : ℤ) | x (w : ℤ)
  | cnot (ws : List ℤ) | toffoli (ws : List ℤ) | cu3 (p : List ℝ) (ws : List ℤ)

/-- qcircuit.py:175-176, 187-188, 193-197, 208-209, 217-218, 223-224: the methods `PauliX`, `ry`, `u1`, `u3`, `cnot`,
`cu3` and `toffoli`. -/
def Call.run (c : Circuit) : Call → Py Circuit
  | .u3 p w => c.addBuilt (fun N => do .ok (.gate (← mkU3 p N (.int w))))
  | .u1 θ w => c.addBuilt (fun N => .ok (.gate (mkU1 θ N (.int w))))
  | .ry θ w => c.addBuilt (fun N => .ok (.gate (mkRy θ N (.int w))))
  | .x w => c.addBuilt (fun N => .ok (.gate (mkPauliX N (.int w))))
  | .cnot ws => c.addBuilt (fun N => .ok (.gate (mkCnot N (.list ws))))
  | .toffoli ws => c.addBuilt (fun N => do .ok (.gate (← mkToffoli N (.list ws))))
  | .cu3 p ws => c.addBuilt (fun N => do .ok (.gate (← mkCu3 p N (.list ws))))

/-- test_CDO.py:40-79 (part 1). -/
def part1 : List Call :=
  [.u3 [Real.pi/2.0, 0, 0] 1, .ry 0.98 2, .ry 1.45 3, .ry 1.5 4, .u1 0 1, .u3 [-0.125, 0, 0] 2,
   .u3 [-0.191, 0, 0] 3, .u3 [-0.116, 0, 0] 4, .cnot [1, 0], .u3 [0.791, 0, 0] 0, .cnot [1, 0],
   .u3 [Real.pi/2.0, 0, 0] 0, .cnot [1, 0], .u1 0 0, .cnot [1, 0], .u1 0 0, .cnot [0, 2], .u3 [0.125, 0, 0] 2,
   .cnot [0, 2], .u3 [-0.251, 0, 0] 2, .cnot [0, 3], .cnot [1, 2], .u3 [0.191, 0, 0] 3, .u3 [0.251, 0, 0] 2,
   .cnot [0, 3], .cnot [1, 2], .u3 [-0.383, 0, 0] 3, .cnot [0, 4], .cnot [1, 3], .u3 [0.116, 0, 0] 4,
   .u3 [0.383, 0, 0] 3, .cnot [0, 4], .cnot [1, 3], .u3 [-0.231, 0, 0] 4, .cnot [1, 4], .u3 [0.231, 0, 0] 4,
   .cnot [1, 4]]

/-- test_CDO.py:81-99 (part 2). -/
def part2 : List Call :=
  [.toffoli [2, 6, 8], .cnot [2, 6], .toffoli [2, 8, 7], .x 6, .toffoli [2, 6, 8], .x 6, .toffoli [3, 6, 8],
   .cnot [3, 6], .toffoli [3, 8, 7], .x 6, .toffoli [3, 6, 8], .x 6, .toffoli [4, 6, 8], .cnot [4, 6],
   .toffoli [4, 8, 7], .x 6, .toffoli [4, 6, 8], .x 6]

/-- test_CDO.py:101-127 (part 3). -/
def part3 : List Call :=
  [.ry (3.0*Real.pi/8) 5, .cnot [6, 9], .u3 [Real.pi, 0, Real.pi] 7, .u3 [Real.pi, 0, Real.pi] 8,
   .u3 [Real.pi, 0, Real.pi] 9, .toffoli [7, 9, 8], .u3 [Real.pi, 0, Real.pi] 7, .u3 [Real.pi, 0, Real.pi] 9,
   .cu3 [-Real.pi/12.0, 0, 0] [8,5], .cnot [6, 9], .cu3 [Real.pi/24.0, 0, 0] [8,5], .toffoli [6, 8, 5],
   .cu3 [-Real.pi/24.0, 0, 0] [8,5], .toffoli [6, 8, 5], .cu3 [Real.pi/12.0, 0, 0] [8,5], .cnot [6, 9],
   .toffoli [7, 8, 5], .u3 [-Real.pi, -Real.pi, 0] 9, .cu3 [-Real.pi/12.0, 0, 0] [8,5], .toffoli [7, 8, 5],
   .u3 [-Real.pi, -Real.pi, 0] 7, .toffoli [7, 9, 8], .u3 [-Real.pi, -Real.pi, 0] 7, .u3 [-Real.pi, -Real.pi, 0] 8,
   .u3 [-Real.pi, -Real.pi, 0] 9, .cnot [6, 9]]

/-- test_CDO.py:129-147 (part 4). -/
def part4 : List Call :=
  [.x 6, .toffoli [4, 6, 8], .x 6, .toffoli [4, 8, 7], .cnot [4, 6], .toffoli [4, 6, 8], .x 6, .toffoli [3, 6, 8],
   .x 6, .toffoli [3, 8, 7], .cnot [3, 6], .toffoli [3, 6, 8], .x 6, .toffoli [2, 6, 8], .x 6, .toffoli [2, 8, 7],
   .cnot [2, 6], .toffoli [2, 6, 8]]

/-- test_CDO.py:33-35 without the normalisation, which divides by 1: the row of `|0…0⟩`. -/
def psi (N : ℕ) : Tensor ℂ := Tensor.ofFn [1, 2 ^ N] (fun idx => if idx = [0, 0] then 1 else 0)

/-- test_CDO.py:37 and 164-167 around the calls `l`: convert the state, contract, flatten. -/
def dqState (svd : SVDOracle) (N : ℕ) (l : List Call) (psi : Tensor ℂ) : TNM (Tensor ℂ) := do
  let a1 ← (l.foldlM Call.run (Circuit.new N) : Py _)
  let mps ← StateVec2MPS svd psi N
  let T ← (MPS2StateVec_tensor mps : Py _)
  let T ← (a1.TN_contract_evolution T false : Py _)
  TNM.lift (T.view [1, -1])

/-! ## The second half: Qiskit -/

/-- A method call of `QuantumCircuit(N)`. -/
inductive QCall (N : ℕ)
  | u (θ φ l : ℝ) (q : Fin N) | ry (θ : ℝ) (q : Fin N) | p (l : ℝ) (q : Fin N) | x (q : Fin N)
  | cx (c t : Fin N) | ccx (a b t : Fin N) | cu (θ φ l γ : ℝ) (c t : Fin N)

/-- test_CDO.py:189-228 (part 1). -/
def qpart1 : List (QCall 10) :=
  [.u (Real.pi/2.0) 0 0 1, .ry 0.98 2, .ry 1.45 3, .ry 1.5 4, .p 0 1, .u (-0.125) 0 0 2, .u (-0.191) 0 0 3,
   .u (-0.116) 0 0 4, .cx 1 0, .u 0.791 0 0 0, .cx 1 0, .u (Real.pi/2.0) 0 0 0, .cx 1 0, .p 0 0, .cx 1 0, .p 0 0,
   .cx 0 2, .u 0.125 0 0 2, .cx 0 2, .u (-0.251) 0 0 2, .cx 0 3, .cx 1 2, .u 0.191 0 0 3, .u 0.251 0 0 2, .cx 0 3,
   .cx 1 2, .u (-0.383) 0 0 3, .cx 0 4, .cx 1 3, .u 0.116 0 0 4, .u 0.383 0 0 3, .cx 0 4, .cx 1 3,
   .u (-0.231) 0 0 4, .cx 1 4, .u 0.231 0 0 4, .cx 1 4]

/-- test_CDO.py:230-248 (part 2). -/
def qpart2 : List (QCall 10) :=
  [.ccx 2 6 8, .cx 2 6, .ccx 2 8 7, .x 6, .ccx 2 6 8, .x 6, .ccx 3 6 8, .cx 3 6, .ccx 3 8 7, .x 6, .ccx 3 6 8,
   .x 6, .ccx 4 6 8, .cx 4 6, .ccx 4 8 7, .x 6, .ccx 4 6 8, .x 6]

/-- test_CDO.py:250-276 (part 3). -/
def qpart3 : List (QCall 10) :=
  [.ry (3.0*Real.pi/8) 5, .cx 6 9, .u Real.pi 0 Real.pi 7, .u Real.pi 0 Real.pi 8, .u Real.pi 0 Real.pi 9,
   .ccx 7 9 8, .u Real.pi 0 Real.pi 7, .u Real.pi 0 Real.pi 9, .cu (-Real.pi/12.0) 0 0 0 8 5, .cx 6 9,
   .cu (Real.pi/24.0) 0 0 0 8 5, .ccx 6 8 5, .cu (-Real.pi/24.0) 0 0 0 8 5, .ccx 6 8 5,
   .cu (Real.pi/12.0) 0 0 0 8 5, .cx 6 9, .ccx 7 8 5, .u (-Real.pi) (-Real.pi) 0 9, .cu (-Real.pi/12.0) 0 0 0 8 5,
   .ccx 7 8 5, .u (-Real.pi) (-Real.pi) 0 7, .ccx 7 9 8, .u (-Real.pi) (-Real.pi) 0 7,
   .u (-Real.pi) (-Real.pi) 0 8, .u (-Real.pi) (-Real.pi) 0 9, .cx 6 9]

/-- test_CDO.py:278-296 (part 4). -/
def qpart4 : List (QCall 10) :=
  [.x 6, .ccx 4 6 8, .x 6, .ccx 4 8 7, .cx 4 6, .ccx 4 6 8, .x 6, .ccx 3 6 8, .x 6, .ccx 3 8 7, .cx 3 6,
   .ccx 3 6 8, .x 6, .ccx 2 6 8, .x 6, .ccx 2 8 7, .cx 2 6, .ccx 2 6 8]

/-- `bin(i)[2:]` as a list of digits. -/
def binDigits (i : ℕ) : List ℕ := if i = 0 then [0] else (Nat.digits 2 i).reverse

/-- `int(s, 2)` -/
def ofBin (s : List ℕ) : ℕ := s.foldl (fun n d => 2 * n + d) 0

/-- test_CDO.py:323-326 in the loop: the index whose binary digits (`N` of them) are those of `i` in reverse order. -/
def revIndex (N i : ℕ) : ℕ :=
  let str1 := binDigits i
  let str2 := List.replicate (N - str1.length) 0 ++ str1
  ofBin str2.reverse

/-- test_CDO.py:318-328: the list that is printed, from the amplitudes in Qiskit's order, each part rounded by `rnd`. -/
def printed (N : ℕ) (rnd : ℝ → ℝ) (outputstate : ℕ → ℂ) : List ℂ :=
  (List.range (2 ^ N)).map (fun i =>
    let z := outputstate (revIndex N i)
    ⟨rnd z.re, rnd z.im⟩)

end Cdo

end

end QTN
