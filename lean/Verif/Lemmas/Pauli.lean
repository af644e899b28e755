import Verif.Model.Tableau
import Verif.Lemmas.Encoding
import Mathlib.Algebra.Group.Subgroup.Lattice
import Mathlib.Algebra.Group.Commute.Basic
import Mathlib.Algebra.BigOperators.Group.List.Lemmas

/-! # Lemmas about signed Pauli operators and tableaus -/

namespace QLDPC

open Spec

namespace Spec.SPauli

variable {n : ℕ}

theorem double_add (a b : ZMod 2) : double (a + b) = double a + double b := by revert a b; decide

theorem double_zero : double 0 = 0 := rfl

theorem double_inj {a b : ZMod 2} : double a = double b ↔ a = b := by revert a b; decide

theorem double_add_self (a : ZMod 2) : double a + double a = 0 := by revert a; decide

theorem mul_phase (p q : SPauli n) :
    (p * q).phase = p.phase + q.phase + double (∑ i, zPart p.op i * xPart q.op i) := rfl

theorem mul_op (p q : SPauli n) : (p * q).op = p.op + q.op := rfl

theorem one_op : (1 : SPauli n).op = 0 := rfl

theorem one_phase : (1 : SPauli n).phase = 0 := rfl

theorem xPart_add (p q : Fin (n + n) → ZMod 2) (i : Fin n) : xPart (p + q) i = xPart p i + xPart q i := rfl

theorem zPart_add (p q : Fin (n + n) → ZMod 2) (i : Fin n) : zPart (p + q) i = zPart p i + zPart q i := rfl

theorem add_self_op (p : Fin (n + n) → ZMod 2) : p + p = 0 := by funext i; exact CharTwo.add_self_eq_zero _

instance : Group (SPauli n) where
  mul_assoc a b c := by
    ext1
    · simp only [mul_phase, mul_op, xPart_add, zPart_add, mul_add, add_mul, Finset.sum_add_distrib, double_add]
      ring
    · exact add_assoc _ _ _
  one_mul a := by
    ext1
    · simp [mul_phase, one_phase, one_op, zPart, double_zero]
    · exact zero_add _
  mul_one a := by
    ext1
    · simp [mul_phase, one_phase, one_op, xPart, double_zero]
    · exact add_zero _
  inv a := ⟨-a.phase + double (∑ i, zPart a.op i * xPart a.op i), a.op⟩
  inv_mul_cancel a := by
    ext1
    · change -a.phase + double _ + a.phase + double _ = 0
      have := double_add_self (∑ i, zPart a.op i * xPart a.op i)
      linear_combination this
    · exact add_self_op _

theorem scalar_mul_phase (a : ZMod 4) (p : SPauli n) : (scalar a * p).phase = a + p.phase := by
  rw [mul_phase]
  simp [scalar, zPart, double_zero]

theorem scalar_mul_op (a : ZMod 4) (p : SPauli n) : (scalar a * p).op = p.op := by
  rw [mul_op]; exact zero_add _

theorem scalar_mul (a : ZMod 4) (p : SPauli n) : scalar a * p = ⟨a + p.phase, p.op⟩ :=
  SPauli.ext (scalar_mul_phase a p) (scalar_mul_op a p)

theorem mul_scalar (a : ZMod 4) (p : SPauli n) : p * scalar a = scalar a * p := by
  rw [scalar_mul]
  ext1
  · rw [mul_phase]; simp [scalar, xPart, double_zero, add_comm]
  · exact add_zero _

theorem scalar_add (a b : ZMod 4) : (scalar (a + b) : SPauli n) = scalar a * scalar b := by
  rw [scalar_mul]; rfl

theorem scalar_zero : (scalar 0 : SPauli n) = 1 := rfl

theorem scalar_inj {a b : ZMod 4} : (scalar a : SPauli n) = scalar b ↔ a = b :=
  ⟨fun h => congrArg SPauli.phase h, fun h => by rw [h]⟩

theorem sform_two (p q : Fin (n + n) → ZMod 2) :
    sform p q = (∑ i, zPart p i * xPart q i) + ∑ i, zPart q i * xPart p i := by
  unfold sform
  rw [← Finset.sum_add_distrib]
  refine Finset.sum_congr rfl fun i _ => ?_
  rw [CharTwo.sub_eq_add]; ring

/-- Operators commute up to the sign given by the symplectic form. -/
theorem mul_comm_sform (p q : SPauli n) : p * q = scalar (double (sform p.op q.op)) * (q * p) := by
  rw [scalar_mul]
  ext1
  · simp only [mul_phase, sform_two, double_add]
    have := double_add_self (∑ i, zPart q.op i * xPart p.op i)
    linear_combination -this
  · exact add_comm _ _

theorem commute_iff (p q : SPauli n) : Commute p q ↔ sform p.op q.op = 0 := by
  unfold Commute SemiconjBy
  rw [mul_comm_sform]
  constructor
  · intro h
    have h1 := congrArg SPauli.phase h
    rw [scalar_mul_phase] at h1
    have h2 : double (sform p.op q.op) = double 0 := by rw [double_zero]; linear_combination h1
    exact double_inj.1 h2
  · intro h
    rw [h, double_zero, scalar_zero, one_mul]

theorem double_sum_countY (op : Fin (n + n) → ZMod 2) :
    double (∑ i, zPart op i * xPart op i) = 2 * (countY op : ZMod 4) := by
  have h1 : (∑ i, zPart op i * xPart op i) = (countY op : ZMod 2) := by
    unfold countY
    rw [Finset.card_filter, Nat.cast_sum]
    refine Finset.sum_congr rfl fun i _ => ?_
    generalize zPart op i = a
    generalize xPart op i = b
    revert a b; decide
  rw [h1]
  have h2 : ∀ m : ℕ, double (m : ZMod 2) = 2 * (m : ZMod 4) := by
    intro m
    induction m with
    | zero => rfl
    | succ m ih =>
      rw [Nat.cast_succ, double_add, ih, Nat.cast_succ, mul_add]
      rfl
  exact h2 _

theorem double_eq (a : ZMod 2) : double a = if a = 0 then 0 else 2 := rfl

/-- A string with a sign. -/
def Signed (p : SPauli n) : Prop := p * p = 1

theorem signed_iff (p : SPauli n) : Signed p ↔ p.phase = countY p.op ∨ p.phase = countY p.op + 2 := by
  unfold Signed
  have h : p * p = ⟨p.phase + p.phase + 2 * (countY p.op : ZMod 4), 0⟩ := by
    ext1
    · rw [mul_phase, double_sum_countY]
    · exact add_self_op _
  rw [h]
  have h2 : (⟨p.phase + p.phase + 2 * (countY p.op : ZMod 4), 0⟩ : SPauli n) = 1 ↔
      p.phase + p.phase + 2 * (countY p.op : ZMod 4) = 0 :=
    ⟨fun e => congrArg SPauli.phase e, fun e => SPauli.ext e rfl⟩
  rw [h2]
  generalize p.phase = a
  generalize (countY p.op : ZMod 4) = b
  revert a b; decide

theorem signed_plus (op : Fin (n + n) → ZMod 2) : Signed (plus op) := (signed_iff _).2 (Or.inl rfl)

theorem signed_signed (m : Bool) (op : Fin (n + n) → ZMod 2) : Signed (QLDPC.SPauli.signed m op) := by
  rw [signed_iff]
  unfold QLDPC.SPauli.signed
  rw [scalar_mul]
  cases m
  · left; simp [plus]
  · right; simp [plus, add_comm]

theorem signed_op (m : Bool) (op : Fin (n + n) → ZMod 2) : (QLDPC.SPauli.signed m op).op = op := by
  unfold QLDPC.SPauli.signed
  rw [scalar_mul_op]; rfl

/-- A signed string is its sign and its bits. -/
theorem eq_signed {p : SPauli n} (h : Signed p) : p = QLDPC.SPauli.signed (QLDPC.SPauli.isMinus p) p.op := by
  unfold QLDPC.SPauli.signed QLDPC.SPauli.isMinus
  rw [scalar_mul]
  rcases (signed_iff p).1 h with e | e
  · ext1
    · simp [plus, e]
    · rfl
  · have hne : p.phase ≠ (plus p.op).phase := by
      rw [e]
      change (countY p.op : ZMod 4) + 2 ≠ countY p.op
      intro h
      have : (2 : ZMod 4) = 0 := by linear_combination h
      exact absurd this (by decide)
    ext1
    · simp only [hne, ne_eq, not_false_eq_true, decide_true, if_true]
      rw [e]; exact add_comm _ _
    · rfl

theorem isMinus_signed (m : Bool) (op : Fin (n + n) → ZMod 2) :
    QLDPC.SPauli.isMinus (QLDPC.SPauli.signed m op) = m := by
  unfold QLDPC.SPauli.isMinus
  rw [signed_op]
  unfold QLDPC.SPauli.signed
  rw [scalar_mul_phase]
  cases m
  · simp
  · simp only [if_true, decide_eq_true_eq]
    intro h
    have : (2 : ZMod 4) = 0 := by linear_combination h
    exact absurd this (by decide)

theorem signed_eq_iff {p q : SPauli n} (hp : Signed p) (hq : Signed q) :
    p = q ↔ QLDPC.SPauli.isMinus p = QLDPC.SPauli.isMinus q ∧ p.op = q.op := by
  constructor
  · rintro rfl; exact ⟨rfl, rfl⟩
  · rintro ⟨h1, h2⟩
    rw [eq_signed hp, eq_signed hq, h1, h2]

theorem X_op (j : Fin n) : (X j : SPauli n).op = Fin.append (Pi.single j 1) 0 := rfl
theorem Z_op (j : Fin n) : (Z j : SPauli n).op = Fin.append 0 (Pi.single j 1) := rfl

theorem countY_zero_left {op : Fin (n + n) → ZMod 2} (h : ∀ i, xPart op i = 0 ∨ zPart op i = 0) : countY op = 0 := by
  unfold countY
  rw [Finset.card_eq_zero, Finset.filter_eq_empty_iff]
  intro i _ hi
  rcases h i with h | h
  · exact hi.1 h
  · exact hi.2 h

end Spec.SPauli

end QLDPC
