import Verif.Spec.Code
import Verif.Spec.Symplectic

/-!
# Specification of logical operators and distances of CSS codes

An X-type operator is a vector of powers of X, a Z-type operator a vector of powers of Z.  An X-type
operator commutes with the Z-type checks iff it satisfies them as parity checks.
-/

namespace QLDPC.Spec

variable {F : Type} [Field F] {n : ℕ}

/-- `LX` (powers of X) and `LZ` (powers of Z) are logical operators of the CSS code with X-type checks
`hx` and Z-type checks `hz`. -/
structure IsCssLogicalBasis (hx hz LX LZ : List (Fin n → F)) : Prop where
  len : LX.length = LZ.length
  commX : ∀ l ∈ LX, IsWord hz l
  commZ : ∀ l ∈ LZ, IsWord hx l
  pair : ∀ (i j : ℕ) (hi : i < LX.length) (hj : j < LZ.length),
    ∑ q, LX[i] q * LZ[j] q = if i = j then 1 else 0

/-- The X-type stabilizers of the subsystem code with X-type gauge generators `hx` and Z-type gauge
generators `hz`: products of X-type gauge generators that commute with all Z-type ones. -/
def IsStabX (hx hz : List (Fin n → F)) (v : Fin n → F) : Prop := IsCombination hx v ∧ IsWord hz v

/-- `v` is a nontrivial (dressed) logical X-type operator of the code with X-type checks or gauge
generators `hx` and Z-type `hz`: it commutes with every Z-type stabilizer and is not a product of
generators in `hx`.  For a stabilizer code (`hx` commutes with `hz`) every check is a stabilizer. -/
def IsNontrivialX (hx hz : List (Fin n → F)) (v : Fin n → F) : Prop :=
  (∀ z, IsStabX hz hx z → ∑ q, z q * v q = 0) ∧ ¬ IsCombination hx v

/-- `d` is the X-distance: the least weight of a nontrivial logical X-type operator. -/
def IsXDistance [DecidableEq F] (hx hz : List (Fin n → F)) (d : ℕ) : Prop :=
  IsLeast {k | ∃ v, IsNontrivialX hx hz v ∧ k = hammingNorm v} d

/-- `p` is a nontrivial (dressed) logical operator of the code whose checks or gauge generators are the
rows of `M`: it commutes with every product of generators that commutes with all generators (these are
the stabilizers), and is not a product of generators itself. -/
def IsNontrivialLogical (M : List (Fin (n + n) → F)) (p : Fin (n + n) → F) : Prop :=
  (∀ s, IsCombination M s → (∀ r ∈ M, sform r s = 0) → sform s p = 0) ∧ ¬ IsCombination M p

/-- `d` is the distance of the code with checks or gauge generators `M`: the least number of qudits a
nontrivial logical operator acts on. -/
def IsCodeDistance [DecidableEq F] (M : List (Fin (n + n) → F)) (d : ℕ) : Prop :=
  IsLeast {k | ∃ p, IsNontrivialLogical M p ∧ k = sweight p} d

end QLDPC.Spec
