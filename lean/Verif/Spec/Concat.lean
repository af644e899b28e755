import Verif.Spec.CSS

/-!
# Specification of complete sets of logical operators, blocks and wiring
-/

namespace QLDPC.Spec

variable {F : Type} [Field F] {n : ℕ}

/-- `p` commutes with every stabilizer of the code with checks or gauge generators `M`: with every product
of generators that commutes with all generators. -/
def CommutesWithStabilizers (M : List (Fin (n + n) → F)) (p : Fin (n + n) → F) : Prop :=
  ∀ s, IsCombination M s → (∀ r ∈ M, sform r s = 0) → sform s p = 0

/-- `LX`, `LZ` are logical operators of the code with checks or gauge generators `M`, and there are enough
of them: everything that commutes with the stabilizers is a product of generators and logical
operators. -/
structure IsCompleteLogicalBasis (M LX LZ : List (Fin (n + n) → F)) : Prop where
  basis : IsLogicalBasis M LX LZ
  complete : ∀ p, CommutesWithStabilizers M p → IsCombination (M ++ LX ++ LZ) p

/-- The operator on a larger set of qudits that acts as `r` on qudits `off, …, off + n - 1`. -/
def onQudits (off : ℕ) {N : ℕ} (r : Fin (n + n) → F) : Fin (N + N) → F :=
  Fin.append
    (fun q => if h : off ≤ q.val ∧ q.val - off < n then xPart r ⟨q.val - off, h.2⟩ else 0)
    (fun q => if h : off ≤ q.val ∧ q.val - off < n then zPart r ⟨q.val - off, h.2⟩ else 0)

/-- The operators of a list of blocks, one block after the other starting at qudit `off`. -/
def blockRows {N : ℕ} : ℕ → List (Σ n, List (Fin (n + n) → F)) → List (Fin (N + N) → F)
  | _, [] => []
  | off, b :: l => b.2.map (onQudits off) ++ blockRows (off + b.1) l

/-- `num` blocks of `n` qudits with the same operators. -/
def blockCopies {N : ℕ} (num : ℕ) (R : List (Fin (n + n) → F)) : List (Fin (N + N) → F) :=
  (List.range num).flatMap fun b => R.map (onQudits (n * b))

/-- Replace the single-qudit operators `X_j`, `Z_j` of a Pauli string by the operators `X j`, `Z j`. -/
def encode {m : ℕ} (X Z : Fin m → Fin (n + n) → F) (o : Fin (m + m) → F) : Fin (n + n) → F :=
  ∑ j, (xPart o j • X j + zPart o j • Z j)

end QLDPC.Spec
