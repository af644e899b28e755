import Verif.Spec.Symplectic

/-!
# Specification of encoding tableaus
-/

namespace QLDPC.Spec

variable {F : Type} [Field F] {n : ℕ}

/-- The images of the operators `X_0, ..., X_{n-1}` and `Z_0, ..., Z_{n-1}` under a Clifford: `n` operators each that
satisfy the same commutation relations. -/
structure IsTableau (xs zs : List (Fin (n + n) → F)) : Prop where
  lenX : xs.length = n
  lenZ : zs.length = n
  xx : ∀ p ∈ xs, ∀ q ∈ xs, sform p q = 0
  zz : ∀ p ∈ zs, ∀ q ∈ zs, sform p q = 0
  pair : ∀ (i j : ℕ) (hi : i < xs.length) (hj : j < zs.length), sform xs[i] zs[j] = if i = j then 1 else 0

/-- A reduced list of rows: the first nonzero entry of every row is one, and other rows are zero there. -/
def IsReduced {m : ℕ} (S : List (Fin m → F)) : Prop :=
  ∀ (j : ℕ) (hj : j < S.length), ∃ c : Fin m, (∀ c' < c, S[j] c' = 0) ∧
    ∀ (i : ℕ) (hi : i < S.length), S[i] c = if i = j then 1 else 0

end QLDPC.Spec
