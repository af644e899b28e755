import Verif.Spec.Text
import Verif.Spec.GroupAlgebra
import Mathlib.Algebra.Group.Opposite
import Mathlib.Logic.Equiv.Basic
import Mathlib.GroupTheory.Perm.Basic

/-! # Vocabulary: members of a group algebra in GAP -/

namespace QLDPC.Spec

/-- A term `(Z(p^k)^m)*(..)(..)` of a member of a group algebra, as printed by GAP; exponents may be left out.  Points
are counted from one. -/
structure GapTerm where
  p : ℕ
  k : Option ℕ
  m : Option ℕ
  cycles : List (List ℕ)

/-- A number. -/
def number (n : ℕ) : List Char := Nat.toDigits 10 n

/-- `^k`, or nothing. -/
def exponentText : Option ℕ → List Char
  | none => []
  | some k => '^' :: number k

/-- `(Z(p^k)^m)`. -/
def GapTerm.coefText (e : GapTerm) : List Char :=
  "(Z(".toList ++ number e.p ++ exponentText e.k ++ ")".toList ++ exponentText e.m ++ ")".toList

/-- `(Z(p^k)^m)*(..)(..)`. -/
def GapTerm.text (e : GapTerm) : List Char := e.coefText ++ "*".toList ++ gapText e.cycles

/-- A sum of terms. -/
def sumText (es : List GapTerm) : List Char := "+".toList.intercalate (es.map GapTerm.text)

/-- `text` consists of the sums, one after the other, and other characters before, between and after them, among these
no opening parenthesis, and no `+` right after a sum. -/
inductive IsGapOutput : List Char → List (List GapTerm) → Prop
  | nil {s} : '(' ∉ s → IsGapOutput s []
  | cons {s es r ms} : '(' ∉ s → es ≠ [] → IsGapOutput r ms → (∀ c ∈ r.head?, c ≠ '(' ∧ c ≠ '+') →
      IsGapOutput (s ++ sumText es ++ r) (es :: ms)

/-- `g` is the product of the disjoint cycles of points counted from one: every point of a cycle goes to the next one in
it, the last one to the first one, all other points stay.  Cycles are not empty and no point occurs twice. -/
def IsGapPerm {n : ℕ} (cycles : List (List ℕ)) (g : Equiv.Perm (Fin n)) : Prop :=
  (∀ c ∈ cycles, c ≠ []) ∧ cycles.flatten.Nodup ∧ (∀ i ∈ cycles.flatten, 1 ≤ i ∧ i ≤ n) ∧
    (∀ c ∈ cycles, ∀ (i j : ℕ) (hi : i < c.length) (hj : j < c.length), j = (i + 1) % c.length →
      ∀ x : Fin n, x.val + 1 = c[i] → (g x).val + 1 = c[j]) ∧
    ∀ x : Fin n, x.val + 1 ∉ cycles.flatten → g x = x

/-- The value of a term in a field where `Z(q)` is `z q`. -/
def GapTerm.coef {F : Type} [Monoid F] (z : ℕ → F) (e : GapTerm) : F :=
  z (e.p ^ e.k.getD 1) ^ e.m.getD 1

/-- `x` is the sum of the terms, in the algebra of the permutations that act from the right. -/
def IsGapSum {F : Type} [Field F] {n : ℕ} (z : ℕ → F) (es : List GapTerm)
    (x : GAlg F (Equiv.Perm (Fin n))ᵐᵒᵖ) : Prop :=
  ∃ gs : List (Equiv.Perm (Fin n)), List.Forall₂ (fun e g => IsGapPerm e.cycles g) es gs ∧
    ∀ h, x.coef h = ((es.zip gs).map fun e => if MulOpposite.op e.2 = h then e.1.coef z else 0).sum

/-- What is assumed of `galois` and GAP for a field of characteristic `p`, where `z q` is the `Z(q)` of GAP and
`generator q m` is the integer of the `m`-th power of the primitive element that `galois` has for the field with `q`
elements: both use the same generator of the field itself, and the same primitive root modulo `p`; integers below `p`
are the elements of the prime field. -/
structure GeneratorsOk {F : Type} [Field F] (fi : FieldInts F) (generator : ℕ → ℕ → Option ℤ) (p : ℕ) (z : ℕ → F) :
    Prop where
  full : ∀ m, generator fi.order m = some (fi.toInt (z fi.order ^ m))
  prime : ∃ w : ℕ, z p = w ∧ ∀ m, generator p m = some ((w ^ m % p : ℕ) : ℤ)
  small : ∀ n : ℕ, n < p → fi.ofInt n = some (n : F)

end QLDPC.Spec
