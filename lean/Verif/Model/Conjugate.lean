import Verif.Model.Surface
import Verif.Model.Product
import Verif.Model.CssDistance

/-!
# Default qudits of `conjugated`

`CSSCode` inherits `conjugated` from `QuditCode` (`/repo/qldpc/codes/common.py:1361-1375`).  Called without qudits, it
takes the attribute `_default_conjugate`, which the constructors of some codes set.
-/

namespace QLDPC

variable {F : Type} [Field F] [DecidableEq F] {n m : ℕ}

/-- `_default_conjugate` of a rotated surface or toric code (`/repo/qldpc/codes/quantum.py:1338-1342, 1459-1463`). -/
def checkerboard (rows cols : ℕ) : List (Fin (rows * cols)) :=
  (List.finRange (rows * cols)).filter fun k => decide ((k.divNat.val + k.modNat.val) % 2 ≠ 0)

/-- `slice(start, None)` on `n` qudits, the `_default_conjugate` of a hypergraph product with
`start = sector_size[0, 0]` (`/repo/qldpc/codes/quantum.py:729`). -/
def sliceFrom (start n : ℕ) : List (Fin n) := (List.finRange n).filter fun k => decide (start ≤ k.val)

/-- `HGPCode(code_a, code_b, set_logicals=...)` (`/repo/qldpc/codes/quantum.py:691-740`), for codes over one field. -/
def hgpCode (a : CCode F n) (b : CCode F m) (setLogicals : Bool) :
    CssCode F (n * m + a.matrix.length * b.matrix.length) :=
  let code := CssCode.ofMatrices (hgpX id a.matrix b.matrix) (hgpZ id a.matrix b.matrix) (some false)
  if setLogicals then { code with logicals? := some (hgpLogicals a b) } else code

/-- What a `CSSCode` shows of itself as a `QuditCode`: `matrix` (`/repo/qldpc/codes/common.py:1653-1662`) and
`_logical_ops` (`1796`, `1924-1933`). -/
def CssCode.toQudit (c : CssCode F n) : QCode F n :=
  { matrix := blockDiag2 c.hx c.hz
    isSub := c.isSub
    logicals? := c.logicals?.map fun L => blockDiag2 L.1 L.2 }

/-- `conjugated(qudits)` of a `CSSCode` (`/repo/qldpc/codes/common.py:1361-1375`), given the attribute
`_default_conjugate`, if there is one. -/
def CssCode.conjugated (c : CssCode F n) (default? qudits? : Option (List (Fin n))) : Except String (QCode F n) :=
  c.toQudit.conjugated (match qudits? with
    | some qudits => qudits
    | none => match default? with
      | some qudits => qudits
      | none => [])

end QLDPC
