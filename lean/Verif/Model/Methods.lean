import Verif.Model.QCircuit

/-!
# The builder methods of `Circuit` (deepquantum/gates/qcircuit.py:169-254)

One constructor per method, with the arguments in the order of the signature.  A call constructs the operation for
`nqubits` and adds it.
-/

namespace QTN

noncomputable section

/-- The `wires` argument of `Hadamard`: an integer or an iterable. -/
inductive WireArg
  | one (w : ℤ)
  | many (ws : List ℤ)

/-- A method call on a circuit. -/
inductive Method
  | Hadamard (w : WireArg) | PauliX (w : ℤ) | PauliY (w : ℤ) | PauliZ (w : ℤ)
  | rx (θ : ℝ) (w : ℤ) | ry (θ : ℝ) (w : ℤ) | rz (θ : ℝ) (w : ℤ) | u1 (θ : ℝ) (w : ℤ) | u3 (p : List ℝ) (w : ℤ)
  | rxx (θ : ℝ) (ws : List ℤ) | ryy (θ : ℝ) (ws : List ℤ) | rzz (θ : ℝ) (ws : List ℤ)
  | cnot (ws : List ℤ) | cz (ws : List ℤ) | cphase (θ : ℝ) (ws : List ℤ) | cu3 (p : List ℝ) (ws : List ℤ)
  | SWAP (ws : List ℤ) | toffoli (ws : List ℤ) | multi_control_cnot (ws : List ℤ)
  | XYZLayer (ws : List ℤ) (p : List ℝ) | ZYXLayer (ws : List ℤ) (p : List ℝ) | YZYLayer (ws : List ℤ) (p : List ℝ)
  | XZXLayer (ws : List ℤ) (p : List ℝ) | XZLayer (ws : List ℤ) (p : List ℝ) | ZXLayer (ws : List ℤ) (p : List ℝ)
  | ring_of_cnot (ws : List ℤ) | ring_of_cnot2 (ws : List ℤ)
  | BasicEntangleLayer (ws : List ℤ) (p : List ℝ) (reps : ℕ)

namespace Method

/-- qcircuit.py:169-254: the body of the method, the construction of the operation.  The parameters of
`BasicEntangleLayer` are a tensor. -/
def construct : Method → ℤ → Py Op
  | .Hadamard (.many ws), N => do .ok (.single (← mkSLayer .h N ws []))
  | .Hadamard (.one w), N => .ok (.gate (mkHadamard N (.int w)))
  | .PauliX w, N => .ok (.gate (mkPauliX N (.int w)))
  | .PauliY w, N => .ok (.gate (mkPauliY N (.int w)))
  | .PauliZ w, N => .ok (.gate (mkPauliZ N (.int w)))
  | .rx θ w, N => .ok (.gate (mkRx θ N (.int w)))
  | .ry θ w, N => .ok (.gate (mkRy θ N (.int w)))
  | .rz θ w, N => .ok (.gate (mkRz θ N (.int w)))
  | .u1 θ w, N => .ok (.gate (mkU1 θ N (.int w)))
  | .u3 p w, N => do .ok (.gate (← mkU3 p N (.int w)))
  | .rxx θ ws, N => .ok (.gate (mkRxx θ N (.list ws)))
  | .ryy θ ws, N => .ok (.gate (mkRyy θ N (.list ws)))
  | .rzz θ ws, N => .ok (.gate (mkRzz θ N (.list ws)))
  | .cnot ws, N => .ok (.gate (mkCnot N (.list ws)))
  | .cz ws, N => .ok (.gate (mkCz N (.list ws)))
  | .cphase θ ws, N => .ok (.gate (mkCphase θ N (.list ws)))
  | .cu3 p ws, N => do .ok (.gate (← mkCu3 p N (.list ws)))
  | .SWAP ws, N => .ok (.gate (mkSwap N (.list ws)))
  | .toffoli ws, N => do .ok (.gate (← mkToffoli N (.list ws)))
  | .multi_control_cnot ws, N => do .ok (.gate (← mkMcnot N (.list ws)))
  | .XYZLayer ws p, N => do .ok (.single (← mkSLayer .xyz N ws p))
  | .ZYXLayer ws p, N => do .ok (.single (← mkSLayer .zyx N ws p))
  | .YZYLayer ws p, N => do .ok (.single (← mkSLayer .yzy N ws p))
  | .XZXLayer ws p, N => do .ok (.single (← mkSLayer .xzx N ws p))
  | .XZLayer ws p, N => do .ok (.single (← mkSLayer .xz N ws p))
  | .ZXLayer ws p, N => do .ok (.single (← mkSLayer .zx N ws p))
  | .ring_of_cnot ws, N => do .ok (.ring (← mkRing .ring N ws))
  | .ring_of_cnot2 ws, N => do .ok (.ring (← mkRing .ring2 N ws))
  | .BasicEntangleLayer ws p reps, N => do .ok (.basic (← mkBasic N ws p false reps))

/-- The method call. -/
def run (c : Circuit) (m : Method) : Py Circuit := c.addBuilt m.construct

end Method

/-- `c = Circuit(N)` followed by method calls. -/
def methods (N : ℕ) (l : List Method) : Py Circuit := l.foldlM Method.run (Circuit.new N)

end

end QTN
