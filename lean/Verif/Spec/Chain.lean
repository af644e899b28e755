import Verif.Model.Chain
import Mathlib.Data.Finset.NatAntidiagonal

/-! # What a chain complex and a tensor product of chain complexes are -/

namespace QLDPC

variable {R : Type} [Ring R]

/-- The matrices `ops` are the boundary operators of a complex with modules `R^(d 0), R^(d 1), ...`: the matrix at
position `k` is a map from `R^(d (k + 1))` to `R^(d k)`, and consecutive maps compose to zero. -/
def IsComplex (ops : List (Mat R)) (d : ℕ → ℕ) : Prop :=
  (∀ k A, ops[k]? = some A → A.rows = d k ∧ A.cols = d (k + 1)) ∧
  ∀ k A B, ops[k]? = some A → ops[k + 1]? = some B → ∀ i j, i < d k → j < d (k + 2) →
    ∑ x ∈ Finset.range (d (k + 1)), A.e i x * B.e x j = 0

/-- Entry of the boundary operator `∂_(k + 1)`. -/
def boundaryEntry (ops : List (Mat R)) (k i j : ℕ) : R := match ops[k]? with
  | some A => A.e i j
  | none => 0

/-- The sectors `(i, j)` of degree `k`: those of the modules `A_i ⊗ B_j` with `i + j = k`. -/
def sectors (la lb k : ℕ) : Finset (ℕ × ℕ) := (Finset.antidiagonal k).filter fun p => p.1 ≤ la ∧ p.2 ≤ lb

/-- Dimension of `P_k = ⨁_{i + j = k} A_i ⊗ B_j`. -/
def tensorDim (la lb : ℕ) (dA dB : ℕ → ℕ) (k : ℕ) : ℕ := ∑ p ∈ sectors la lb k, dA p.1 * dB p.2

/-- The index in `P_k` of the basis vector `a_x ⊗ b_y` of the sector `p`: sectors are listed by decreasing first
degree. -/
def tensorIndex (la lb : ℕ) (dA dB : ℕ → ℕ) (p : ℕ × ℕ) (x y : ℕ) : ℕ :=
  (∑ q ∈ (sectors la lb (p.1 + p.2)).filter (fun q => p.1 < q.1), dA q.1 * dB q.2) + (x * dB p.2 + y)

/-- The coefficient of `a_x ⊗ b_y` in sector `p` of `d(a_x' ⊗ b_y')` in sector `q`, where
`d(a ⊗ b) = d(a) ⊗ b + (-1)^(deg a) a ⊗ d(b)`. -/
def tensorEntry (opsA opsB : List (Mat R)) (p q : ℕ × ℕ) (x y x' y' : ℕ) : R :=
  (if p.1 + 1 = q.1 ∧ p.2 = q.2 ∧ y = y' then boundaryEntry opsA p.1 x x' else 0) +
  (if p.1 = q.1 ∧ p.2 + 1 = q.2 ∧ x = x' then (-1) ^ q.1 * boundaryEntry opsB p.2 y y' else 0)

end QLDPC
