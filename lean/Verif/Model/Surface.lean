import Verif.Model.LinAlg
import Mathlib.Data.Fintype.Card
import Mathlib.Data.Int.Notation

/-!
# Model of the rotated surface code and the rotated toric code

`/repo/qldpc/codes/quantum.py:1310-1522` (`SurfaceCode`, `ToricCode`), branches with `rotated=True`.  The
qudit at `(row, col)` of the lattice is number `row * cols + col` (`ravel` of an array of shape
`(rows, cols)`).  Coordinates of tiles range over the integers, as the loops of the surface code start
at `-1`.  The branches with `rotated=False` are hypergraph products.
-/

namespace QLDPC

/-- `[row, row + 1, row, row + 1]` zipped with `[col, col, col + 1, col + 1]`
(`/repo/qldpc/codes/quantum.py:1409-1410, 1514-1515`). -/
def tileCells (row col : ℤ) : List (ℤ × ℤ) :=
  [row, row + 1, row, row + 1].zip [col, col, col + 1, col + 1]

/-- An array of zeros with ones assigned at `cells`, raveled (`/repo/qldpc/codes/quantum.py:1399-1403`). -/
def onesAt (rows cols : ℕ) (cells : List (ℤ × ℤ)) : Fin (rows * cols) → ℕ :=
  fun k => if ((k.divNat : ℤ), (k.modNat : ℤ)) ∈ cells then 1 else 0

/-- `get_check` of the surface code (`/repo/qldpc/codes/quantum.py:1395-1403`): cells out of bounds are dropped. -/
def surfaceCheck (rows cols : ℕ) (row col : ℤ) : Fin (rows * cols) → ℕ :=
  onesAt rows cols ((tileCells row col).filter fun p =>
    decide (0 ≤ p.1 ∧ p.1 < rows ∧ 0 ≤ p.2 ∧ p.2 < cols))

/-- `np.count_nonzero`. -/
def checkWeight {n : ℕ} (v : Fin n → ℕ) : ℕ := (List.finRange n).countP fun k => v k ≠ 0

/-- Python's `range(-1, stop)`. -/
def rangeFromMinusOne (stop : ℕ) : List ℤ := (List.range (stop + 1)).map fun i : ℕ => (i : ℤ) - 1

/-- Body of the loop of `SurfaceCode.get_rotated_checks` (`/repo/qldpc/codes/quantum.py:1405-1423`): the check of a
tile, marked `true` if appended to `checks_x` and `false` if appended to `checks_z`. -/
def surfaceTile (rows cols : ℕ) (row col : ℤ) : Option (Bool × (Fin (rows * cols) → ℕ)) :=
  let check := surfaceCheck rows cols row col
  if checkWeight check = 1 then none
  else if row % 2 = col % 2 then
    if 0 ≤ row ∧ row < rows - 1 then some (true, check) else none
  else if 0 ≤ col ∧ col < cols - 1 then some (false, check)
  else none

/-- `SurfaceCode.get_rotated_checks` (`/repo/qldpc/codes/quantum.py:1365-1425`): `(checks_x, checks_z)`. -/
def surfaceChecks (rows cols : ℕ) : List (Fin (rows * cols) → ℕ) × List (Fin (rows * cols) → ℕ) :=
  let all := (rangeFromMinusOne rows).flatMap fun row =>
    (rangeFromMinusOne cols).filterMap fun col => surfaceTile rows cols row col
  ((all.filter (·.1)).map (·.2), (all.filter (!·.1)).map (·.2))

/-- `get_check` of the toric code (`/repo/qldpc/codes/quantum.py:1501-1508`): cells wrap around. -/
def toricCheck (rows cols : ℕ) (row col : ℤ) : Fin (rows * cols) → ℕ :=
  onesAt rows cols ((tileCells row col).map fun p => (p.1 % rows, p.2 % cols))

/-- `ToricCode.get_rotated_checks` (`/repo/qldpc/codes/quantum.py:1493-1522`). -/
def toricChecks (rows cols : ℕ) : List (Fin (rows * cols) → ℕ) × List (Fin (rows * cols) → ℕ) :=
  let all := (List.range rows).flatMap fun row : ℕ => (List.range cols).map fun col : ℕ =>
    (decide (row % 2 = col % 2), toricCheck rows cols row col)
  ((all.filter (·.1)).map (·.2), (all.filter (!·.1)).map (·.2))

variable {F : Type} [Field F] [DecidableEq F] [Fintype F]

/-- An array of integers viewed as an array over the field. -/
def viewField {n : ℕ} (F : Type) [Field F] (v : Fin n → ℕ) : Fin n → F := fun k => (v k : F)

/-- `matrix_z[:, self._default_conjugate] *= -1` if the field has more than two elements
(`/repo/qldpc/codes/quantum.py:1335-1348, 1457-1469`). -/
def conjugateZ (rows cols : ℕ) (v : Fin (rows * cols) → F) : Fin (rows * cols) → F :=
  fun k => if 2 < Fintype.card F ∧ (k.divNat.val + k.modNat.val) % 2 ≠ 0 then -v k else v k

/-- The parity check matrices and the attributes `_dimension`, `_distance_x`, `_distance_z` of a CSS code
whose parameters are recorded when it is built. -/
structure KnownCss (F : Type) (n : ℕ) where
  hx : Rows F n
  hz : Rows F n
  dimension : ℕ
  distX : ℕ
  distZ : ℕ

/-- `SurfaceCode(rows, cols, field, rotated=True)` (`/repo/qldpc/codes/quantum.py:1318-1362`).
`none` is the exception raised when there is no check of one type: `np.array([])` has one dimension, so
that `len(code)` (`common.py`, line 1592) raises an `IndexError`. -/
def surfaceCode (F : Type) [Field F] [Fintype F] (rows cols : ℕ) : Option (KnownCss F (rows * cols)) :=
  let (cx, cz) := surfaceChecks rows cols
  if cx = [] ∨ cz = [] then none
  else some {
    hx := cx.map (viewField F)
    hz := cz.map fun v => conjugateZ rows cols (viewField F v)
    dimension := 1
    distX := cols
    distZ := rows }

/-- `ToricCode(rows, cols, field, rotated=True)` (`/repo/qldpc/codes/quantum.py:1435-1490`).  `none` is a `ValueError`
if a side length is odd, or the exception of `surfaceCode`. -/
def toricCode (F : Type) [Field F] [Fintype F] (rows cols : ℕ) : Option (KnownCss F (rows * cols)) :=
  if rows % 2 ≠ 0 ∨ cols % 2 ≠ 0 then none
  else
    let (cx, cz) := toricChecks rows cols
    if cx = [] ∨ cz = [] then none
    else
      let mx : Rows F (rows * cols) := cx.map (viewField F)
      let mz : Rows F (rows * cols) := cz.map fun v => conjugateZ rows cols (viewField F v)
      let two := rows = 2 ∧ cols = 2
      some {
        hx := if two then mx.dropLast else mx
        hz := if two then mz.dropLast else mz
        dimension := 2
        distX := min rows cols
        distZ := min rows cols }

end QLDPC
