import Mathlib.Algebra.Field.Defs
import Mathlib.Data.List.Nodup

/-!
# Specification: finite fields as galois lists them
-/

namespace QLDPC

/-- `field.elements`: all elements, each once, zero first. -/
structure IsElements {F : Type} [Field F] (els : List F) : Prop where
  nodup : els.Nodup
  mem : ∀ x, x ∈ els
  head : ∃ l, els = 0 :: l

/-- `field.primitive_element`: every nonzero element is a power of it. -/
structure IsPrimitiveElement {F : Type} [Field F] (a : F) : Prop where
  ne_zero : a ≠ 0
  power : ∀ x : F, x ≠ 0 → ∃ k : ℕ, x = a ^ k

end QLDPC
