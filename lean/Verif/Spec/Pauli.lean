import Verif.Spec.Symplectic
import Mathlib.Algebra.Field.ZMod

/-!
# Pauli operators with phases

The operator `i^phase X^x Z^z` on `n` qubits.  This is the Pauli group, with its usual multiplication:
`Z X = - X Z` on one qubit.
-/

namespace QLDPC.Spec

/-- `i^phase X^x Z^z` with `op = [x | z]`. -/
@[ext] structure SPauli (n : ℕ) where
  phase : ZMod 4
  op : Fin (n + n) → ZMod 2

instance {n : ℕ} : DecidableEq (SPauli n) := fun _ _ => decidable_of_iff _ SPauli.ext_iff.symm

namespace SPauli

variable {n : ℕ}

/-- `2 a` modulo 4. -/
def double (a : ZMod 2) : ZMod 4 := if a = 0 then 0 else 2

/-- `X^x Z^z X^x' Z^z' = (-1)^(z · x') X^(x + x') Z^(z + z')`. -/
instance : Mul (SPauli n) :=
  ⟨fun p q => ⟨p.phase + q.phase + double (∑ i, zPart p.op i * xPart q.op i), p.op + q.op⟩⟩

/-- The identity. -/
instance : One (SPauli n) := ⟨⟨0, 0⟩⟩

/-- The number of qubits with a `Y`. -/
def countY (op : Fin (n + n) → ZMod 2) : ℕ :=
  (Finset.univ.filter fun i => xPart op i ≠ 0 ∧ zPart op i ≠ 0).card

/-- The string of operators `X`, `Y = i X Z` and `Z`, with the sign `+`. -/
def plus (op : Fin (n + n) → ZMod 2) : SPauli n := ⟨countY op, op⟩

/-- `-1`, `i`, ... -/
def scalar (a : ZMod 4) : SPauli n := ⟨a, 0⟩

/-- `X_j` -/
def X (j : Fin n) : SPauli n := plus (Fin.append (Pi.single j 1) 0)

/-- `Z_j` -/
def Z (j : Fin n) : SPauli n := plus (Fin.append 0 (Pi.single j 1))

end SPauli

end QLDPC.Spec
