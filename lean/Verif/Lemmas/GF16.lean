import Mathlib.Algebra.Field.Basic
import Mathlib.Algebra.CharP.Defs
import Mathlib.Data.Fintype.Basic
import Mathlib.Data.Fintype.EquivFin
import Mathlib.Tactic.NormNum

/-!
# The field with 16 elements

Polynomials over the field with two elements modulo `x^4 + x + 1`, the bits of an integer as coefficients.
-/

namespace QLDPC

/-- An element of the field with 16 elements. -/
structure GF16 where
  bits : Fin 16
deriving DecidableEq

namespace GF16

/-- Multiplication by `x`. -/
def shift (a : ℕ) : ℕ := if a < 8 then 2 * a else (2 * a) ^^^ 19

/-- The product of polynomials modulo `x^4 + x + 1`. -/
def times (a b : ℕ) : ℕ :=
  (if b % 2 = 1 then a else 0) ^^^ (if b / 2 % 2 = 1 then shift a else 0) ^^^
    (if b / 4 % 2 = 1 then shift (shift a) else 0) ^^^ (if b / 8 % 2 = 1 then shift (shift (shift a)) else 0)

instance : Fintype GF16 :=
  Fintype.ofEquiv (Fin 16) ⟨GF16.mk, GF16.bits, fun _ => rfl, fun _ => rfl⟩

instance : Zero GF16 := ⟨⟨0⟩⟩
instance : One GF16 := ⟨⟨1⟩⟩
instance : Add GF16 := ⟨fun a b => ⟨Fin.ofNat 16 (a.bits.val ^^^ b.bits.val)⟩⟩
instance : Neg GF16 := ⟨fun a => a⟩
instance : Mul GF16 := ⟨fun a b => ⟨Fin.ofNat 16 (times a.bits b.bits)⟩⟩
/-- The inverse is the 14th power. -/
instance : Inv GF16 := ⟨fun a => let b := a * a; let c := b * b; let d := c * c; b * c * d⟩

theorem forall_bits {P : GF16 → Prop} (h : ∀ a : Fin 16, P ⟨a⟩) (a : GF16) : P a := h a.bits

instance : Field GF16 where
  add_assoc a b c := by
    have : ∀ a b c : Fin 16, (⟨a⟩ + ⟨b⟩ + ⟨c⟩ : GF16) = ⟨a⟩ + (⟨b⟩ + ⟨c⟩) := by decide +kernel
    exact this a.bits b.bits c.bits
  zero_add := by decide +kernel
  add_zero := by decide +kernel
  nsmul := nsmulRec
  zsmul := zsmulRec
  neg_add_cancel := by decide +kernel
  add_comm := by decide +kernel
  left_distrib a b c := by
    have : ∀ a b c : Fin 16, (⟨a⟩ * (⟨b⟩ + ⟨c⟩) : GF16) = ⟨a⟩ * ⟨b⟩ + ⟨a⟩ * ⟨c⟩ := by decide +kernel
    exact this a.bits b.bits c.bits
  right_distrib a b c := by
    have : ∀ a b c : Fin 16, ((⟨a⟩ + ⟨b⟩) * ⟨c⟩ : GF16) = ⟨a⟩ * ⟨c⟩ + ⟨b⟩ * ⟨c⟩ := by decide +kernel
    exact this a.bits b.bits c.bits
  zero_mul := by decide +kernel
  mul_zero := by decide +kernel
  mul_assoc a b c := by
    have : ∀ a b c : Fin 16, (⟨a⟩ * ⟨b⟩ * ⟨c⟩ : GF16) = ⟨a⟩ * (⟨b⟩ * ⟨c⟩) := by decide +kernel
    exact this a.bits b.bits c.bits
  one_mul := by decide +kernel
  mul_one := by decide +kernel
  mul_comm := by decide +kernel
  exists_pair_ne := ⟨0, 1, by decide⟩
  mul_inv_cancel := by decide +kernel
  inv_zero := by decide +kernel
  nnqsmul := _
  nnqsmul_def := fun _ _ => rfl
  qsmul := _
  qsmul_def := fun _ _ => rfl

theorem two_eq_zero : (2 : GF16) = 0 := by
  have : (1 + 1 : GF16) = 0 := by decide +kernel
  rw [← this]
  norm_num

instance : CharP GF16 2 := by
  refine ⟨fun n => ?_⟩
  obtain ⟨k, rfl | rfl⟩ := Nat.even_or_odd' n
  · simp [two_eq_zero]
  · constructor
    · intro h
      have : ((2 * k + 1 : ℕ) : GF16) = 1 := by push_cast; rw [two_eq_zero]; simp
      rw [this] at h
      exact absurd h (by decide)
    · intro h; omega

end GF16

end QLDPC
