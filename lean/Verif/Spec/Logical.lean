import Verif.Spec.Pauli
import Mathlib.Algebra.Group.Subgroup.Lattice

/-!
# Logical Clifford gates, with signs

The group structure on `SPauli` is spelled out in `Verif/Lemmas/Pauli.lean`; here only products are used.
-/

namespace QLDPC.Spec

namespace SPauli

variable {n : ℕ}

/-- Products of the operators in a set. -/
inductive Generated (G : SPauli n → Prop) : SPauli n → Prop
  | one : Generated G 1
  | mul {p q : SPauli n} : Generated G p → G q → Generated G (p * q)

/-- The stabilizer group: products of the stabilizers, each with the sign `+`. -/
def InStabilizerGroup (S : List (Fin (n + n) → ZMod 2)) : SPauli n → Prop := Generated fun p => ∃ s ∈ S, p = plus s

/-- The product of the operators `plus L_j` with `b_j = 1`. -/
def product {k : ℕ} (L : List (Fin (n + n) → ZMod 2)) (b : Fin k → ZMod 2) : SPauli n :=
  (List.ofFn fun j => if b j = 0 then 1 else plus (L.getD j 0)).foldr (· * ·) 1

/-- The logical operator `i^phase X^x Z^z`, where `X_j` and `Z_j` are the given logical operators with the sign `+`. -/
def logical {k : ℕ} (LX LZ : List (Fin (n + n) → ZMod 2)) (P : SPauli k) : SPauli n :=
  scalar P.phase * (product LX (xPart P.op) * product LZ (zPart P.op))

end SPauli

/-- The Clifford `φ` maps the code with stabilizers `S` to the code with stabilizers `S'`, and what it does to logical
operators is `t`.  Logical operators are determined up to stabilizers; signs are exact. -/
structure ImplementsLogical {n k : ℕ} (S S' LX LZ : List (Fin (n + n) → ZMod 2)) (φ : SPauli n → SPauli n)
    (t : SPauli k → SPauli k) : Prop where
  stab : ∀ p, SPauli.InStabilizerGroup S' (φ p) ↔ SPauli.InStabilizerGroup S p
  logical : ∀ P, ∃ s, SPauli.InStabilizerGroup S' s ∧ φ (SPauli.logical LX LZ P) = SPauli.logical LX LZ (t P) * s

end QLDPC.Spec
