import Mathlib.Data.List.Count
import Mathlib.InformationTheory.Hamming

/-!
# Sparsity of parity check matrices
-/

namespace QLDPC.Spec

variable {F : Type} [Zero F] [DecidableEq F] {n : ℕ}

/-- The number of checks (rows of `M`) that involve bit `j`. -/
def colWeight (M : List (Fin n → F)) (j : Fin n) : ℕ := M.countP fun r => decide (r j ≠ 0)

/-- `w` is the largest number of nonzero entries of a row of `M`. -/
def IsMaxRowWeight (M : List (Fin n → F)) (w : ℕ) : Prop := IsGreatest {k | ∃ r ∈ M, k = hammingNorm r} w

/-- `w` is the largest number of nonzero entries of a column of `M`. -/
def IsMaxColWeight (M : List (Fin n → F)) (w : ℕ) : Prop := IsGreatest {k | ∃ j, k = colWeight M j} w

end QLDPC.Spec
