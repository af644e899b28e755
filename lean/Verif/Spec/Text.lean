import Verif.Model.Text
import Mathlib.Data.Nat.Digits.Defs

/-! # Vocabulary on text -/

namespace QLDPC.Spec

/-- `v` is a nonempty string of decimal digits and denotes `k`. -/
def IsNumeral (t : CharTable) (v : List Char) (k : ℕ) : Prop :=
  v ≠ [] ∧ ∃ ds : List ℕ, v.map t.digit = ds.map some ∧ k = Nat.ofDigits 10 ds.reverse

/-- `s` is the text `p(k)` with `p` one of `X`, `Y`, `Z`. -/
def IsFactor (t : CharTable) (s : List Char) (p : Char) (k : ℕ) : Prop :=
  (p = 'X' ∨ p = 'Y' ∨ p = 'Z') ∧ ∃ v, IsNumeral t v k ∧ s = [p, '('] ++ v ++ [')']

/-- The exponents after a factor `p(k)`, when they were `e` before: `X` sets the first, `Z` the second, `Y`
both. -/
def setExponents (e : ℤ × ℤ) (p : Char) (k : ℕ) : ℤ × ℤ :=
  (if p = 'Z' then e.1 else k, if p = 'X' then e.2 else k)

/-- `s` is the text of a product of at most two factors, with exponents `e`. -/
inductive IsQuditText (t : CharTable) : List Char → ℤ × ℤ → Prop
  | one : IsQuditText t ['I'] (0, 0)
  | single {s p k} : IsFactor t s p k → IsQuditText t s (setExponents (0, 0) p k)
  | double {s₁ p₁ k₁ s₂ p₂ k₂} : IsFactor t s₁ p₁ k₁ → IsFactor t s₂ p₂ k₂ →
      IsQuditText t (s₁ ++ '*' :: s₂) (setExponents (setExponents (0, 0) p₁ k₁) p₂ k₂)

/-- `ts` are the pieces of `l` between white space, in order. -/
inductive Tokens (t : CharTable) : List Char → List (List Char) → Prop
  | nil : Tokens t [] []
  | skip {c l ts} : t.space c = true → Tokens t l ts → Tokens t (c :: l) ts
  | last {w} : w ≠ [] → (∀ c ∈ w, t.space c = false) → Tokens t w [w]
  | cons {w c l ts} : w ≠ [] → (∀ c ∈ w, t.space c = false) → t.space c = true → Tokens t l ts →
      Tokens t (w ++ c :: l) (w :: ts)

/-- What is assumed of the integers of a galois field. -/
structure FieldInts.Ok {F : Type} [Zero F] [One F] (fi : FieldInts F) : Prop where
  ofInt_toInt : ∀ x, fi.ofInt (fi.toInt x) = some x
  toInt_ofInt : ∀ z x, fi.ofInt z = some x → fi.toInt x = z
  nonneg : ∀ x, 0 ≤ fi.toInt x
  zero : fi.toInt 0 = 0
  one : fi.toInt 1 = 1
  two : fi.order = 2 → ∀ x, fi.toInt x = 0 ∨ fi.toInt x = 1

/-- The text of one operator denotes `X(x) Z(z)`: a Pauli letter over the field with two elements, a product
of factors over any other. -/
def OpText {F : Type} [Zero F] [One F] (t : CharTable) (fi : FieldInts F) (s : List Char) (x z : F) : Prop :=
  if fi.order = 2 then
    (s = ['I'] ∧ x = 0 ∧ z = 0) ∨ (s = ['X'] ∧ x = 1 ∧ z = 0) ∨ (s = ['Y'] ∧ x = 1 ∧ z = 1) ∨
      (s = ['Z'] ∧ x = 0 ∧ z = 1)
  else IsQuditText t s (fi.toInt x, fi.toInt z)

/-- The text of one check: operators between white space, one for each qudit. -/
def RowText {F : Type} [Zero F] [One F] {n : ℕ} (t : CharTable) (fi : FieldInts F) (s : List Char)
    (r : Fin (n + n) → F) : Prop :=
  ∃ ts, Tokens t s ts ∧ ∃ h : ts.length = n,
    ∀ i : Fin n, OpText t fi (ts.get (i.cast h.symm)) (xPart r i) (zPart r i)

/-- The text GAP prints for a product of cycles of positive integers. -/
def gapText (cycles : List (List ℕ)) : List Char :=
  if cycles = [] then "()".toList
  else (cycles.map fun c => ['('] ++ [','].intercalate (c.map (Nat.toDigits 10)) ++ [')']).flatten

end QLDPC.Spec
