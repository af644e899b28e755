import Mathlib.LinearAlgebra.Dimension.Finrank
import Mathlib.InformationTheory.Hamming
import Mathlib.Order.Bounds.Basic

/-!
# Specification of linear codes

Nothing here refers to the model of the repository: a parity check matrix is a list of rows, a word
satisfies it if every row sums to zero against the word.
-/

namespace QLDPC.Spec

variable {F : Type} [Field F] {n : ℕ}

/-- `w` satisfies every check in `H`. -/
def IsWord (H : List (Fin n → F)) (w : Fin n → F) : Prop := ∀ r ∈ H, ∑ i, r i * w i = 0

/-- The code of a parity check matrix as a subspace. -/
def codeSpace (H : List (Fin n → F)) : Submodule F (Fin n → F) where
  carrier := {w | IsWord H w}
  zero_mem' := by intro r _; simp
  add_mem' := by
    intro a b ha hb r hr
    simp only [Pi.add_apply, mul_add, Finset.sum_add_distrib, ha r hr, hb r hr, add_zero]
  smul_mem' := by
    intro c a ha r hr
    simp only [Pi.smul_apply, smul_eq_mul, mul_left_comm, ← Finset.mul_sum, ha r hr, mul_zero]

/-- Dimension of the code of a parity check matrix. -/
noncomputable def codeDim (H : List (Fin n → F)) : ℕ := Module.finrank F (codeSpace H)

/-- `w` is a linear combination of the rows of `G`. -/
def IsCombination (G : List (Fin n → F)) (w : Fin n → F) : Prop :=
  ∃ c : Fin G.length → F, w = ∑ i, c i • G[i]

/-- `d` is the least Hamming weight of a nonzero word of the code of `H`. -/
def IsMinDistance [DecidableEq F] (H : List (Fin n → F)) (d : ℕ) : Prop :=
  IsLeast {k | ∃ w, IsWord H w ∧ w ≠ 0 ∧ k = hammingNorm w} d

/-- Entry `k` of a vector, `0` outside. -/
def entryAt (w : Fin n → F) (k : ℕ) : F := if h : k < n then w ⟨k, h⟩ else 0

/-- The `len` entries of `w` from `offset` on. -/
def blockAt (w : Fin n → F) (offset len : ℕ) : Fin len → F := fun j => entryAt w (offset + j)

end QLDPC.Spec
