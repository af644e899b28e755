import Mathlib.Data.Nat.Size
import Mathlib.Algebra.BigOperators.Fin
import Mathlib.Algebra.Order.Ring.Int
import Mathlib.Algebra.Order.Group.Unbundled.Abs

/-!
# The integer linear program of `ILPDecoder` (`/repo/qldpc/decoders.py:376-447`)

The program is data: variables with their range, and constraints.  What a solver does with it is not modelled;
a theorem may assume that its answer is feasible and optimal.
-/

namespace QLDPC

/-- One constraint `coeffs @ variables == rhs + powers @ slack`, where the slack variables are boolean
(`/repo/qldpc/decoders.py:439-445`). -/
structure IlpConstraint (n : ℕ) where
  coeffs : Fin n → ℤ
  rhs : ℤ
  powers : List ℤ

/-- The integer `max_power_of_q` (`/repo/qldpc/decoders.py:430-434`).  `bit_length` of a negative integer is
that of its absolute value; `flog max_zero q` is `int(np.log2(max_zero) / np.log2(q))`, any integer valued
function, and the conversion of `nan`, for negative `max_zero`, raises. -/
def maxPower (flog : ℕ → ℕ → ℤ) (q : ℕ) (maxZero : ℤ) : Option ℤ :=
  if maxZero = 0 ∨ q = 2 then some ((maxZero.natAbs.size : ℤ) - 1)
  else if maxZero < 0 then none
  else some (flog maxZero.toNat q)

/-- One round of the loop of `cvxpy_constraints_for_syndrome` (`/repo/qldpc/decoders.py:428-445`). -/
def ilpConstraint {n : ℕ} (flog : ℕ → ℕ → ℤ) (q : ℕ) (check : Fin n → ℤ) (bit : ℤ) : Option (IlpConstraint n) :=
  (maxPower flog q ((∑ i, check i) * ((q : ℤ) - 1) - bit)).map fun P =>
    ⟨check, bit, if 0 < P then (List.range P.toNat).map fun j => (q : ℤ) ^ (j + 1) else []⟩

/-- `self.matrix` of the decoder (`/repo/qldpc/decoders.py:381`): entries modulo `q`. -/
def ilpMatrix {n : ℕ} (q : ℕ) (H : List (Fin n → ℤ)) : List (Fin n → ℤ) := H.map fun r i => r i % q

/-- `cvxpy_constraints_for_syndrome` (`/repo/qldpc/decoders.py:416-447`); `zip` stops at the shorter list. -/
def ilpConstraints {n : ℕ} (flog : ℕ → ℕ → ℤ) (q : ℕ) (H : List (Fin n → ℤ)) (syndrome : List ℤ) :
    Option (List (IlpConstraint n)) :=
  ((ilpMatrix q H).zip (syndrome.map fun x : ℤ => x % (q : ℤ))).mapM fun e => ilpConstraint flog q e.1 e.2

/-- The ranges of the variables and the constraints on flags of nonzero variables
(`/repo/qldpc/decoders.py:384-394`); there are no flags if `q = 2`. -/
def VariableConstraints {n : ℕ} (q : ℕ) (x : Fin n → ℤ) (flags : Fin n → Bool) : Prop :=
  if q = 2 then ∀ i, x i = 0 ∨ x i = 1
  else (∀ i, 0 ≤ x i) ∧ (∀ i, x i ≤ (q : ℤ) - 1) ∧ ∀ i, x i ≤ (q : ℤ) * (if flags i then 1 else 0)

/-- The objective, to be minimized: `norm(variables, 1)` or `norm(nonzero_variable_flags, 1)`. -/
def ilpObjective {n : ℕ} (q : ℕ) (x : Fin n → ℤ) (flags : Fin n → Bool) : ℤ :=
  if q = 2 then ∑ i, |x i| else ∑ i, (if flags i then 1 else 0)

end QLDPC
