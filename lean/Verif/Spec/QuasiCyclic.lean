import Mathlib.Algebra.BigOperators.Group.List.Basic
import Mathlib.Data.Int.Notation

/-!
# Specification of quasi-cyclic codes
-/

namespace QLDPC.Spec

variable {S : Type} [DecidableEq S]

/-- Coordinates of an index on the torus with the given orders, the last coordinate being the fastest. -/
def torusCoords : List ℕ → ℕ → List ℕ
  | [], _ => []
  | n :: ns, i => i / ns.prod % n :: torusCoords ns (i % ns.prod)

/-- The exponent of a symbol in a monomial. -/
def exponentOf (exps : List (S × ℤ)) (s : S) : ℤ := ((exps.filter fun e => e.1 = s).map Prod.snd).sum

/-- The point that is reached from the point with coordinates `I` by moving by `sign` times the exponents of a monomial;
`d` lists the symbols with their orders. -/
def movedBy (sign : ℤ) (d : List (S × ℕ)) (I : List ℕ) (exps : List (S × ℤ)) : List ℕ :=
  List.zipWith (fun (p : S × ℕ) (a : ℕ) => (((a : ℤ) + sign * exponentOf exps p.1) % (p.2 : ℤ)).toNat) d I

end QLDPC.Spec
