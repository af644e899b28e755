import Verif.Model.QuasiCyclic

/-!
# Toric layouts of bivariate bicycle codes

`BBCode.get_equivalent_toric_layout_code_data` and `change_poly_basis`
(`/repo/qldpc/codes/quantum.py:467-580`), for a code with symbols `x`, `y` of orders `rx`, `ry`.  Sympy polynomials are
lists of terms with different monomials and nonzero coefficients; their order is that of `args`.
-/

namespace QLDPC

variable {S : Type} [DecidableEq S]

/-- `as_exponent_vector` (`/repo/qldpc/codes/quantum.py:544-547`). -/
def exponentVector (x y : S) (t : Term S) : ℤ × ℤ := ((t.exps.lookup x).getD 0, (t.exps.lookup y).getD 0)

/-- The sympy expression `c * x**e.1 * y**e.2`; powers with exponent zero disappear. -/
def monomialTerm (x y : S) (c : ℤ) (e : ℤ × ℤ) : Term S :=
  ⟨c, (if e.1 = 0 then [] else [(x, e.1)]) ++ if e.2 = 0 then [] else [(y, e.2)]⟩

/-- Add a term to a sum: coefficients of equal monomials are added up. -/
def addTerm (c : ℤ) (e : ℤ × ℤ) : List (ℤ × (ℤ × ℤ)) → List (ℤ × (ℤ × ℤ))
  | [] => [(c, e)]
  | t :: ts => if t.2 = e then (t.1 + c, e) :: ts else t :: addTerm c e ts

/-- A sum as sympy simplifies it: equal monomials are combined, and terms with coefficient zero disappear. -/
def collectTerms (x y : S) (l : List (ℤ × (ℤ × ℤ))) : List (Term S) :=
  ((l.foldl (fun acc t => addTerm t.1 t.2 acc) []).filter fun t => t.1 ≠ 0).map fun t => monomialTerm x y t.1 t.2

/-- `get_canonical_form(poly, orders)` as a sympy polynomial (`/repo/qldpc/codes/quantum.py:297-318`). -/
def canonicalPoly (x y : S) (ox oy : ℕ) (poly : List (Term S)) : List (Term S) :=
  collectTerms x y ((canonicalForm [(x, ox), (y, oy)] poly).map fun t => (t.coeff, exponentVector x y t))

/-- `change_poly_basis` for one polynomial (`/repo/qldpc/codes/quantum.py:549-580`), with the new generators as vectors of
exponents: `none` if `modular_inverse` raises an exception. -/
def changePolyBasis (x y : S) (rx ry : ℕ) (u v : ℤ × ℤ) (poly : List (Term S)) : Option (List (Term S)) :=
  (modularInverse rx ry (u, v) 1 0).bind fun oldX => (modularInverse rx ry (u, v) 0 1).map fun oldY =>
    canonicalPoly x y (torusOrder rx ry u) (torusOrder rx ry v) (collectTerms x y (poly.map fun t =>
      let e := exponentVector x y t
      (t.coeff, (e.1 * oldX.1 + e.2 * oldY.1, e.1 * oldX.2 + e.2 * oldY.2))))

/-- `(poly / monomial).expand()` (`/repo/qldpc/codes/quantum.py:524-525`). -/
def shiftPoly (x y : S) (a : ℤ × ℤ) (poly : List (Term S)) : List (Term S) :=
  collectTerms x y (poly.map fun t => (t.coeff, exponentVector x y t - a))

/-- Orders and polynomials of a code with a toric layout. -/
abbrev ToricData (S : Type) := (ℕ × ℕ) × List (Term S) × List (Term S)

/-- The body of the second loop (`/repo/qldpc/codes/quantum.py:515-537`) for monomials `a₁`, `a₂`, `b₁`, `b₂`. -/
def toricData (x y : S) (rx ry : ℕ) (polyA polyB : List (Term S)) (a₁ a₂ b₁ b₂ : ℤ × ℤ) : Option (ToricData S) :=
  let g := a₂ - a₁
  let h := b₂ - b₁
  let shiftedA := shiftPoly x y a₁ polyA
  let shiftedB := shiftPoly x y b₁ polyB
  if torusOrder rx ry g < torusOrder rx ry h then
    (changePolyBasis x y rx ry h g shiftedB).bind fun p => (changePolyBasis x y rx ry h g shiftedA).map fun q =>
      ((torusOrder rx ry h, torusOrder rx ry g), p, q)
  else
    (changePolyBasis x y rx ry g h shiftedA).bind fun p => (changePolyBasis x y rx ry g h shiftedB).map fun q =>
      ((torusOrder rx ry g, torusOrder rx ry h), p, q)

/-- `itertools.combinations(l, 2)`. -/
def pairsOf {α : Type} : List α → List (α × α)
  | [] => []
  | a :: l => l.map (fun b => (a, b)) ++ pairsOf l

/-- `toric_params` (`/repo/qldpc/codes/quantum.py:496-512`). -/
def toricParams (x y : S) (rx ry : ℕ) (polyA polyB : List (Term S)) : List ((ℤ × ℤ) × (ℤ × ℤ) × (ℤ × ℤ) × (ℤ × ℤ)) :=
  (pairsOf ((polyArgs polyA).map (exponentVector x y))).flatMap fun a =>
    (pairsOf ((polyArgs polyB).map (exponentVector x y))).flatMap fun b =>
      if isValidBasis rx ry (a.2 - a.1) (b.2 - b.1) then
        [(a.1, a.2, b.1, b.2), (a.1, a.2, b.2, b.1), (a.2, a.1, b.1, b.2), (a.2, a.1, b.2, b.1)]
      else []

/-- Equality of generating data: sums are equal whatever the order of their terms. -/
def sameToricData (a b : ToricData S) : Bool := decide (a.1 = b.1) && a.2.1.isPerm b.2.1 && a.2.2.isPerm b.2.2

/-- The second loop (`/repo/qldpc/codes/quantum.py:514-542`). -/
def toricLoop (x y : S) (rx ry : ℕ) (polyA polyB : List (Term S)) :
    List ((ℤ × ℤ) × (ℤ × ℤ) × (ℤ × ℤ) × (ℤ × ℤ)) → List (ToricData S) → Option (List (ToricData S))
  | [], acc => some acc
  | (a₁, a₂, b₁, b₂) :: ps, acc =>
    (toricData x y rx ry polyA polyB a₁ a₂ b₁ b₂).bind fun t =>
      toricLoop x y rx ry polyA polyB ps (if acc.any (sameToricData t) then acc else acc ++ [t])

/-- `get_equivalent_toric_layout_code_data` (`/repo/qldpc/codes/quantum.py:467-542`).  `connected` is what
`nx.is_weakly_connected` says of the Tanner graph. -/
def toricLayouts (connected : Bool) (x y : S) (rx ry : ℕ) (polyA polyB : List (Term S)) : Option (List (ToricData S)) :=
  if connected then toricLoop x y rx ry polyA polyB (toricParams x y rx ry polyA polyB) [] else some []

end QLDPC
