import Mathlib.Algebra.BigOperators.Fin
import Mathlib.Algebra.Field.Basic
import Mathlib.LinearAlgebra.Span.Basic

/-!
# Specification of Pauli strings

A Pauli string on `n` qudits is a vector `[P_x | P_z]` with `2 n` entries.
-/

namespace QLDPC.Spec

variable {F : Type} [Field F] {n : ℕ}

/-- X support of a Pauli string: the first `n` entries. -/
def xPart (p : Fin (n + n) → F) : Fin n → F := fun i => p (Fin.castAdd n i)

/-- Z support of a Pauli string: the last `n` entries. -/
def zPart (p : Fin (n + n) → F) : Fin n → F := fun i => p (Fin.natAdd n i)

/-- The symplectic form `⟨P, Q⟩ = P_x · Q_z - P_z · Q_x`. -/
def sform (p q : Fin (n + n) → F) : F := ∑ i, (xPart p i * zPart q i - zPart p i * xPart q i)

/-- Weight of a Pauli string: number of qudits it acts on. -/
def sweight [DecidableEq F] (p : Fin (n + n) → F) : ℕ :=
  (Finset.univ.filter fun i => xPart p i ≠ 0 ∨ zPart p i ≠ 0).card

/-- All pairs of rows commute. -/
def AllCommute (M : List (Fin (n + n) → F)) : Prop := ∀ p ∈ M, ∀ q ∈ M, sform p q = 0

/-- `LX`, `LZ` are logical X and Z operators of the code with checks `M`: equally many, commuting with
all checks, X operator `i` and Z operator `j` paired by `δ_ij`, otherwise commuting. -/
structure IsLogicalBasis (M LX LZ : List (Fin (n + n) → F)) : Prop where
  len : LX.length = LZ.length
  commX : ∀ r ∈ M, ∀ l ∈ LX, sform r l = 0
  commZ : ∀ r ∈ M, ∀ l ∈ LZ, sform r l = 0
  pair : ∀ (i j : ℕ) (hi : i < LX.length) (hj : j < LZ.length),
    sform LX[i] LZ[j] = if i = j then 1 else 0
  xx : ∀ p ∈ LX, ∀ q ∈ LX, sform p q = 0
  zz : ∀ p ∈ LZ, ∀ q ∈ LZ, sform p q = 0

/-- The operator `∏_i X_i^{a_i} Z_i^{b_i}`. -/
def logicalProduct (LX LZ : List (Fin (n + n) → F)) (a b : ℕ → F) : Fin (n + n) → F :=
  ∑ i : Fin LX.length, a i • LX[i] + ∑ i : Fin LZ.length, b i • LZ[i]

end QLDPC.Spec
