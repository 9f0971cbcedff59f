import Mathlib.Analysis.SpecialFunctions.Trigonometric.Basic
import Mathlib.LinearAlgebra.UnitaryGroup
import Mathlib.LinearAlgebra.Matrix.ConjTranspose
import Mathlib.Logic.Equiv.Basic
import Verif.Model.Tensor

/-!
# Specification vocabulary

The textbook notions the property theorems are stated with.  Basis states of `N` qubits are bit
strings `Fin N → Fin 2`; operators are matrices over bit strings.  Nothing here refers to how the
library computes anything; the only link is `Represents` and its companions, which say what it means
for a torch tensor to hold a given operator or state (big-endian: qubit 0 is the most significant
bit of the row-major index).
-/

namespace QTN.Spec

open Matrix Complex

/-- Basis states of `N` qubits. -/
abbrev Bits (N : ℕ) := Fin N → Fin 2
/-- Operators on `N` qubits. -/
abbrev QOp (N : ℕ) := Matrix (Bits N) (Bits N) ℂ
/-- State vectors of `N` qubits. -/
abbrev QState (N : ℕ) := Bits N → ℂ
/-- 2×2 matrices. -/
abbrev Mat2 := Matrix (Fin 2) (Fin 2) ℂ

/-- Position of a basis state in a state vector: big-endian binary number. -/
def enc {N : ℕ} (b : Bits N) : ℕ := ∑ i : Fin N, (b i : ℕ) * 2 ^ (N - 1 - (i : ℕ))

/-- A bit string as an index tuple. -/
def bl {N : ℕ} (b : Bits N) : List ℕ := List.ofFn (fun i => (b i : ℕ))

/-- The tensor `t` is the `2^N × 2^N` matrix of the operator `M`. -/
def Represents {N : ℕ} (t : Tensor ℂ) (M : QOp N) : Prop :=
  t.shape = [2 ^ N, 2 ^ N] ∧ ∀ a b : Bits N, t.get [enc a, enc b] = M a b

/-- The call `p` returns (does not raise) and its result is the matrix of the operator `M`. -/
def Computes {N : ℕ} (p : Py (Tensor ℂ)) (M : QOp N) : Prop := ∃ U, p = .ok U ∧ Represents U M

/-- The call `p` raises an exception. -/
def Raises {α : Type} (p : Py α) : Prop := ∃ e, p = .error e

/-- The tensor `t` is the 2×2 matrix `g`. -/
def Represents2 (t : Tensor ℂ) (g : Mat2) : Prop :=
  t.shape = [2, 2] ∧ ∀ x y : Fin 2, t.get [(x : ℕ), (y : ℕ)] = g x y

/-- The tensor `t` is the row vector (`1 × 2^N`) of the state `v`. -/
def IsRow {N : ℕ} (t : Tensor ℂ) (v : QState N) : Prop :=
  t.shape = [1, 2 ^ N] ∧ ∀ a : Bits N, t.get [0, enc a] = v a

/-- The tensor `t` is the column vector (`2^N × 1`) of the state `v`. -/
def IsCol {N : ℕ} (t : Tensor ℂ) (v : QState N) : Prop :=
  t.shape = [2 ^ N, 1] ∧ ∀ a : Bits N, t.get [enc a, 0] = v a

/-- The rank-`N` tensor `t` (all dimensions 2) holds the amplitudes of the state `v`. -/
def IsTen {N : ℕ} (t : Tensor ℂ) (v : QState N) : Prop :=
  t.shape = List.replicate N 2 ∧ ∀ a : Bits N, t.get (bl a) = v a

/-- The rank-`N+1` tensor `t` holds a batch of states along its first dimension. -/
def IsBatch {N : ℕ} (t : Tensor ℂ) (n : ℕ) (v : Fin n → QState N) : Prop :=
  t.shape = n :: List.replicate N 2 ∧ ∀ (k : Fin n) (a : Bits N), t.get ((k : ℕ) :: bl a) = v k a

/-- `g` on qubit `i`, identity on the others. -/
def onQubit {N : ℕ} (i : Fin N) (g : Mat2) : QOp N := fun a b =>
  if ∀ j, j ≠ i → a j = b j then g (a i) (b i) else 0

/-- `g` on qubit `t` if all control qubits are 1, identity otherwise. -/
def controlled {N : ℕ} (cs : List (Fin N)) (t : Fin N) (g : Mat2) : QOp N := fun a b =>
  if ∀ c ∈ cs, b c = 1 then onQubit t g a b else (1 : QOp N) a b

/-- A different 2×2 matrix on every qubit. -/
def onEach {N : ℕ} (g : Fin N → Mat2) : QOp N := fun a b => ∏ i, g i (a i) (b i)

/-- Exchange of qubits `p` and `q`: the basis state `b` goes to `b` with bits `p`, `q` exchanged. -/
def swap {N : ℕ} (p q : Fin N) : QOp N := fun a b => if a = b ∘ Equiv.swap p q then 1 else 0

/-- Pauli X. -/
def X : Mat2 := !![0, 1; 1, 0]
/-- Pauli Y. -/
def Y : Mat2 := !![0, -I; I, 0]
/-- Pauli Z. -/
def Z : Mat2 := !![1, 0; 0, -1]
/-- Hadamard. -/
noncomputable def H : Mat2 := !![(1 / Real.sqrt 2 : ℝ), (1 / Real.sqrt 2 : ℝ);
  (1 / Real.sqrt 2 : ℝ), (-(1 / Real.sqrt 2) : ℝ)]
/-- Rotation `exp(-iθP/2)` for a Pauli matrix `P`. -/
noncomputable def rot (P : Mat2) (θ : ℝ) : Mat2 :=
  (Real.cos (θ / 2) : ℂ) • (1 : Mat2) - (I * (Real.sin (θ / 2) : ℂ)) • P
/-- Phase gate `diag(1, e^{iθ})`. -/
noncomputable def phase (θ : ℝ) : Mat2 := !![1, 0; 0, exp (θ * I)]
/-- `U3(θ,φ,λ)` up to the global phase `e^{-i(φ+λ)/2}` in the textbook form. -/
noncomputable def U3 (θ φ l : ℝ) : Mat2 :=
  exp (-((φ + l) / 2 : ℝ) * I) •
    !![(Real.cos (θ / 2) : ℂ), -exp (l * I) * (Real.sin (θ / 2) : ℂ);
       exp (φ * I) * (Real.sin (θ / 2) : ℂ), exp ((φ + l : ℝ) * I) * (Real.cos (θ / 2) : ℂ)]
/-- Two-qubit rotation `exp(-iθ P⊗P/2)` on qubits `p`, `q`. -/
noncomputable def rot2 {N : ℕ} (P : Mat2) (θ : ℝ) (p q : Fin N) : QOp N :=
  (Real.cos (θ / 2) : ℂ) • (1 : QOp N) -
    (I * (Real.sin (θ / 2) : ℂ)) • (onQubit p P * onQubit q P)

/-- An operator is unitary. -/
def IsUnitaryOp {N : ℕ} (M : QOp N) : Prop := M * Mᴴ = 1 ∧ Mᴴ * M = 1

end QTN.Spec
