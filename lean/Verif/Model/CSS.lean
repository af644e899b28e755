import Verif.Model.Qudit

/-!
# CSS codes

`CSSCode.get_standard_form_data_xz`, `get_logical_ops`, `get_stabilizer_ops`, `get_gauge_ops`
(`/repo/qldpc/codes/common.py:1709-1967`).
-/

namespace QLDPC

open Spec

variable {F : Type} [Field F] [DecidableEq F] {n : ℕ}

/-- Result of `get_standard_form_data_xz` (`/repo/qldpc/codes/common.py:1916-1922`). -/
structure CssData (F : Type) (n : ℕ) where
  mx : Rows F n
  mz : Rows F n
  locs : Fin n → Fin n
  rowsSX : ℕ × ℕ
  rowsGX : ℕ × ℕ
  rowsSZ : ℕ × ℕ
  rowsGZ : ℕ × ℕ
  colsSX : List (Fin n)
  colsGX : List (Fin n)
  colsLX : List (Fin n)
  colsSZ : List (Fin n)
  colsGZ : List (Fin n)
  colsLZ : List (Fin n)

/-- `get_standard_form_data_xz` of a stabilizer code (`/repo/qldpc/codes/common.py:1816-1853`). -/
def stdCss (hx hz : Rows F n) : CssData F n :=
  let mx := dropZero (rowReduce hx)
  let mz := dropZero (rowReduce hz)
  -- X pivots to the back
  let px := firstNonzeroCols mx
  let perm1 := moveToBack px
  let mx := mx.map (takeAt perm1)
  let mz := mz.map (takeAt perm1)
  let locs1 := takeAt perm1 id
  -- row reduce, Z pivots to the back
  let mz := rowReduce mz
  let pz := firstNonzeroCols mz
  let perm2 := moveToBack pz
  let sx := px.length
  let sz := pz.length
  let k := n - sx - sz
  let cols := List.finRange n
  { mx := mx.map (takeAt perm2), mz := mz.map (takeAt perm2), locs := takeAt perm2 locs1,
    rowsSX := (0, sx), rowsSZ := (0, sz), rowsGX := (0, 0), rowsGZ := (0, 0),
    colsLX := pySlice cols (0, k), colsLZ := pySlice cols (0, k),
    colsSX := pySlice cols (k, k + sx), colsSZ := pySlice cols (k + sx, k + sx + sz),
    colsGX := [], colsGZ := [] }

/-- `stabs_x` at `/repo/qldpc/codes/common.py:1948-1960`: X stabilizers of a CSS subsystem code with X
gauge generators `hx` and Z gauge generators `hz`.  `stabs_z` is the same with the arguments
exchanged. -/
def cssStabs (hx hz : Rows F n) : Rows F n :=
  nullSpace (dropZero (rowReduce hz) ++ nullSpace (dropZero (rowReduce hx)))

/-- `dimension` of a CSS code without known logical operators
(`/repo/qldpc/codes/common.py:1243-1253`, `1700-1706`). -/
def cssDimension (hx hz : Rows F n) (isSub : Bool) : ℕ :=
  let rank := (dropZero (rowReduce hx)).length + (dropZero (rowReduce hz)).length
  if isSub then n - (rank + ((cssStabs hx hz).length + (cssStabs hz hx).length)) / 2 else n - rank

/-- `gauge_dimension` of a CSS subsystem code (`/repo/qldpc/codes/common.py:1255-1261`). -/
def cssGaugeDimension (hx hz : Rows F n) : ℕ :=
  ((dropZero (rowReduce hx)).length + (dropZero (rowReduce hz)).length -
    ((cssStabs hx hz).length + (cssStabs hz hx).length)) / 2

/-- The lines of `get_standard_form_data_xz` (`/repo/qldpc/codes/common.py:1881-1914`) that treat the
X sector, and with exchanged roles the Z sector: from the stabilizers in standard form and the
parity checks with qudits in the same order, the standard form matrix and the gauge columns.
`none` if an index is out of range. -/
def cssSector (stabs checks : Rows F n) (colsS colsGL colsO : List (Fin n)) :
    Option (Rows F n × List (Fin n)) := do
  let s := stabs.length
  let perm := colsS ++ colsGL ++ colsO
  let m := dropZero (rowReduce ((stabs ++ checks).map (takeAt perm)))
  let pg := ((firstNonzeroCols m).drop s).map fun p => p.val - s
  let m := m.map (takeAt (argsort (takeAt perm id)))
  let fixed ← (List.zip stabs (m.take s)).mapM fun p => do
    let coeffs ← indexList (List.ofFn p.1) pg
    pure (p.2 + vecMat coeffs (m.drop s))
  let colsG ← indexList colsGL pg
  pure (fixed ++ m.drop s, colsG)

/-- `get_standard_form_data_xz` of a subsystem code (`/repo/qldpc/codes/common.py:1858-1922`). -/
def stdCssSubsystem (hx hz : Rows F n) : Option (CssData F n) := do
  let d := stdCss (cssStabs hx hz) (cssStabs hz hx)
  let colsGL := d.colsLZ
  let g := cssGaugeDimension hx hz
  let order := (List.finRange n).map d.locs
  let checksX := (dropZero (rowReduce hx)).map (takeAt order)
  let checksZ := (dropZero (rowReduce hz)).map (takeAt order)
  let (mx, colsGX) ← cssSector d.mx checksX d.colsSX colsGL d.colsSZ
  let (mz, colsGZ) ← cssSector d.mz checksZ d.colsSZ colsGL d.colsSX
  pure
    { mx := mx, mz := mz, locs := d.locs, rowsSX := d.rowsSX, rowsSZ := d.rowsSZ,
      rowsGX := (d.rowsSX.2, d.rowsSX.2 + g), rowsGZ := (d.rowsSZ.2, d.rowsSZ.2 + g),
      colsSX := d.colsSX, colsSZ := d.colsSZ, colsGX := colsGX, colsGZ := colsGZ,
      colsLX := colsGL.filter (fun q => q ∉ colsGX), colsLZ := colsGL.filter (fun q => q ∉ colsGZ) }

/-- `logicals_x[cols_sz] = -matrix_z[rows_sz] @ logicals_x` and the permutation back, for one column
(`/repo/qldpc/codes/common.py:1786-1793`). -/
def cssFill (rows : Rows F n) (cols : List (Fin n)) (locs : Fin n → Fin n) (seed : Fin n → F) :
    Fin n → F :=
  takeAt (argsort locs) (assign cols (rows.map fun r => - dot r seed) seed)

/-- X and Z logical operators of a CSS code as rows of length `n`
(`/repo/qldpc/codes/common.py:1759-1793`), `none` if an exception is raised. -/
def cssLogicals (hx hz : Rows F n) (isSub : Bool) : Option (Rows F n × Rows F n) :=
  let k := cssDimension hx hz isSub
  if isSub then do
    let d ← stdCssSubsystem hx hz
    let colsGL := (d.colsGX ++ d.colsLX).insertionSort (· ≤ ·)
    let seeds ← gaugeSeeds (pySlice d.mz d.rowsGZ) (pySlice d.mx d.rowsGX) colsGL k
    pure ((List.range k).map fun t => cssFill (pySlice d.mz d.rowsSZ) d.colsSZ d.locs (seeds.1 t),
      (List.range k).map fun t => cssFill (pySlice d.mx d.rowsSX) d.colsSX d.locs (seeds.2 t))
  else
    let d := stdCss hx hz
    some ((List.range k).map fun t =>
        cssFill (pySlice d.mz d.rowsSZ) d.colsSZ d.locs (assign d.colsLZ (eyeRow k t) 0),
      (List.range k).map fun t =>
        cssFill (pySlice d.mx d.rowsSX) d.colsSX d.locs (assign d.colsLX (eyeRow k t) 0))

/-- `logical_ops = block_diag(logicals_x.T, logicals_z.T)`
(`/repo/qldpc/codes/common.py:1794`). -/
def cssLogicalOps (hx hz : Rows F n) (isSub : Bool) : Option (Rows F (n + n)) :=
  (cssLogicals hx hz isSub).map fun p => blockDiag2 p.1 p.2

end QLDPC
