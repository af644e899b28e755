import Verif.Spec.CSS

/-!
# Specification of stacked and concatenated CSS codes
-/

namespace QLDPC.Spec

variable {F : Type} [Field F] {n : ℕ}

/-- The vector on a larger set of qudits that is `r` on qudits `off, …, off + n - 1`. -/
def onBits (off : ℕ) {N : ℕ} (r : Fin n → F) : Fin N → F :=
  fun q => if h : off ≤ q.val ∧ q.val - off < n then r ⟨q.val - off, h.2⟩ else 0

/-- The rows of a list of blocks, one block after the other starting at qudit `off`. -/
def bitBlocks {N : ℕ} : ℕ → List (Σ n, List (Fin n → F)) → List (Fin N → F)
  | _, [] => []
  | off, b :: l => b.2.map (onBits off) ++ bitBlocks (off + b.1) l

/-- `num` blocks of `n` qudits with the same rows. -/
def bitCopies {N : ℕ} (num : ℕ) (R : List (Fin n → F)) : List (Fin N → F) :=
  (List.range num).flatMap fun b => R.map (onBits (n * b))

/-- Replace the unit vectors of `o` by the vectors `X`. -/
def encodeBits {m : ℕ} (X : Fin m → Fin n → F) (o : Fin m → F) : Fin n → F := ∑ j, o j • X j

/-- Logical operators of a CSS code, enough of them: every X-type (Z-type) operator that commutes with all
Z-type (X-type) checks or gauge generators is a product of X-type (Z-type) stabilizers and logical
operators. -/
structure IsCssComplete (hx hz LX LZ : List (Fin n → F)) : Prop where
  basis : IsCssLogicalBasis hx hz LX LZ
  completeX : ∀ v, IsWord hz v → ∃ s l, IsStabX hx hz s ∧ IsCombination LX l ∧ v = s + l
  completeZ : ∀ v, IsWord hx v → ∃ s l, IsStabX hz hx s ∧ IsCombination LZ l ∧ v = s + l

end QLDPC.Spec
