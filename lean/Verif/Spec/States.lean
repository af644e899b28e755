import Verif.Spec.Logical
import Verif.Model.Tableau
import Mathlib.Data.Complex.Basic
import Mathlib.Data.Real.Sqrt

/-!
# State vectors

States of `n` qubits are functions from bit strings to complex numbers.  Pauli operators act on them, and gates are the
unitary matrices in Stim's documentation of gates
(https://github.com/quantumlib/Stim/blob/main/doc/gates.md).  Nothing here refers to tableaus.
-/

namespace QLDPC.Spec

open Complex

/-- Amplitudes of basis states. -/
abbrev State (n : ℕ) := (Fin n → ZMod 2) → ℂ

variable {n : ℕ}

/-- `(-1)^a` -/
def sgn (a : ZMod 2) : ℂ := if a = 0 then 1 else -1

/-- `i^a` -/
noncomputable def ipow (a : ZMod 4) : ℂ := I ^ a.val

/-- `i^phase X^x Z^z` maps the basis state `c` to `i^phase (-1)^(z · c)` times the basis state `c + x`. -/
noncomputable def SPauli.act (p : SPauli n) (ψ : State n) : State n :=
  fun b => ipow p.phase * (sgn (∑ i, zPart p.op i * (b i + xPart p.op i)) * ψ (b + xPart p.op))

/-- A matrix of size two. -/
def mat2 (a b c d : ℂ) : ZMod 2 → ZMod 2 → ℂ :=
  fun i j => if i = 0 then (if j = 0 then a else b) else (if j = 0 then c else d)

/-- A matrix of size two, on qubit `q`. -/
noncomputable def onQubit (q : Fin n) (U : ZMod 2 → ZMod 2 → ℂ) (ψ : State n) : State n :=
  fun b => ∑ c, U (b q) c * ψ (Function.update b q c)

/-- The matrices of the one-qubit gates. -/
noncomputable def gateMatrix : Instr → ZMod 2 → ZMod 2 → ℂ
  | .X _ => mat2 0 1 1 0
  | .Y _ => mat2 0 (-I) I 0
  | .Z _ => mat2 1 0 0 (-1)
  | .gate (.H _) => mat2 (1 / √2) (1 / √2) (1 / √2) (-1 / √2)
  | .gate (.S _) => mat2 1 0 0 I
  | .gate (.SQRT_X _) => mat2 ((1 + I) / 2) ((1 - I) / 2) ((1 - I) / 2) ((1 + I) / 2)
  | .gate (.H_YZ _) => mat2 (1 / √2) (-I / √2) (I / √2) (-1 / √2)
  | .gate (.C_XYZ _) => mat2 ((1 - I) / 2) ((-1 - I) / 2) ((1 - I) / 2) ((1 + I) / 2)
  | .gate (.C_ZYX _) => mat2 ((1 + I) / 2) ((1 + I) / 2) ((-1 + I) / 2) ((1 - I) / 2)
  | .gate (.SWAP _ _) => mat2 1 0 0 1

/-- What an instruction does to states; the two qubits of a SWAP are exchanged. -/
noncomputable def Instr.unitary (g : Instr) (ψ : State n) : State n := match g with
  | .gate (.SWAP a b) => fun s => ψ fun j =>
      if j.val = a then (if h : b < n then s ⟨b, h⟩ else s j)
      else if j.val = b then (if h : a < n then s ⟨a, h⟩ else s j) else s j
  | .X q | .Y q | .Z q | .gate (.H q) | .gate (.S q) | .gate (.SQRT_X q) | .gate (.H_YZ q) | .gate (.C_XYZ q)
  | .gate (.C_ZYX q) => if h : q < n then onQubit ⟨q, h⟩ (gateMatrix g) ψ else ψ

/-- What a circuit does to states; the first instruction acts first. -/
noncomputable def circuitUnitary (c : List Instr) (ψ : State n) : State n := c.foldl (fun ψ g => Instr.unitary g ψ) ψ

/-- The states of a code: all stabilizers, with the sign `+`, have the eigenvalue 1. -/
def IsCodeState (S : List (Fin (n + n) → ZMod 2)) (ψ : State n) : Prop := ∀ s ∈ S, (SPauli.plus s).act ψ = ψ

/-- The squared norm. -/
noncomputable def stateNorm (ψ : State n) : ℝ := ∑ b, Complex.normSq (ψ b)

/-- An operator between state spaces that is linear and preserves norms. -/
structure IsIsometry {k n : ℕ} (V : State k → State n) : Prop where
  linear : ∀ (a b : ℂ) (ψ φ : State k), V (a • ψ + b • φ) = a • V ψ + b • V φ
  norm : ∀ ψ, stateNorm (V ψ) = stateNorm ψ

/-- An encoding of `k` qubits into the code with stabilizers `S`, such that `LX` and `LZ` are the logical operators. -/
structure IsEncoding {k n : ℕ} (S LX LZ : List (Fin (n + n) → ZMod 2)) (E : State k → State n) : Prop extends IsIsometry E where
  range : ∀ φ, IsCodeState S φ ↔ ∃ ψ, E ψ = φ
  logical : ∀ P ψ, E (P.act ψ) = (SPauli.logical LX LZ P).act (E ψ)

end QLDPC.Spec
