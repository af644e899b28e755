import Verif.Model.Symplectic

/-!
# Standard form and logical operators of a qudit code

`QuditCode.get_standard_form_data` and `QuditCode.get_logical_ops`
(`/repo/qldpc/codes/common.py:874-1164`).
-/

namespace QLDPC

open Spec

variable {F : Type} [Field F] [DecidableEq F] {n : ℕ}

/-- `first_nonzero_cols` (`/repo/qldpc/math.py:65-70`): `argmax` of the boolean rows, which is `0` for
a row of zeros; nothing if the matrix has no columns. -/
def firstNonzeroCols : {n : ℕ} → Rows F n → List (Fin n)
  | 0, _ => []
  | n + 1, M => M.map fun r => ((List.finRange (n + 1)).find? fun c => r c ≠ 0).getD 0

/-- `[qq for qq in range(n) if qq not in pivots] + list(pivots)`
(`/repo/qldpc/codes/common.py:1063`, `1075-1076`). -/
def moveToBack (piv : List (Fin n)) : List (Fin n) :=
  (List.finRange n).filter (fun q => q ∉ piv) ++ piv

/-- Index with a permutation, `v[permutation]` (`/repo/qldpc/codes/common.py:1044-1048`).  The index
list has `n` entries wherever this is used; a missing entry would be the identity. -/
def takeAt {α : Type} (perm : List (Fin n)) (v : Fin n → α) : Fin n → α := fun j =>
  v (perm.getD j.val j)

/-- `np.argsort(locs)` (`/repo/qldpc/codes/common.py:967`). -/
def argsort (locs : Fin n → Fin n) : List (Fin n) :=
  (List.finRange n).insertionSort fun a b => locs a ≤ locs b

/-- `l[a:b]`. -/
def pySlice {α : Type} (l : List α) (s : ℕ × ℕ) : List α := (l.take s.2).drop s.1

/-- Result of `get_standard_form_data` (`/repo/qldpc/codes/common.py:1158-1164`): the matrix with shape
`(-1, 2, n)`, the qudit locations, row sectors as `(start, stop)`, column sectors as index lists. -/
structure StdData (F : Type) (n : ℕ) where
  matrix : List ((Fin n → F) × (Fin n → F))
  locs : Fin n → Fin n
  rowsSX : ℕ × ℕ
  rowsGX : ℕ × ℕ
  rowsSZ : ℕ × ℕ
  rowsGZ : ℕ × ℕ
  colsSX : List (Fin n)
  colsGX : List (Fin n)
  colsLX : List (Fin n)
  colsSZ : List (Fin n)
  colsGZ : List (Fin n)
  colsLZ : List (Fin n)

/-- X pivots: `all_pivots_x[all_pivots_x < len(self)]` (`/repo/qldpc/codes/common.py:1059-1060`). -/
def pivotsBelow (piv : List (Fin (n + n))) : List (Fin n) :=
  piv.filterMap fun p => if h : p.val < n then some ⟨p.val, h⟩ else none

/-- Dimension of a stabilizer code that has no known logical operators
(`/repo/qldpc/codes/common.py:1250-1251`): `len(self) - self.rank`. -/
def stabDimension (M : Rows F (n + n)) : ℕ := n - (dropZero (rowReduce M)).length

/-- `get_standard_form_data` of a stabilizer code (`/repo/qldpc/codes/common.py:1050-1095`).
`none` if the assignment at line 1072 meets different numbers of rows (numpy raises). -/
def stdStabilizer (M : Rows F (n + n)) : Option (StdData F n) :=
  -- row reduce and identify pivots in the X sector
  let m0 := dropZero (rowReduce M)
  let px := pivotsBelow (firstNonzeroCols m0)
  -- move the X pivots to the back
  let perm1 := moveToBack px
  let m1 := m0.map fun r => (takeAt perm1 (xPart r), takeAt perm1 (zPart r))
  let locs1 := takeAt perm1 id
  -- row reduce and identify pivots in the Z sector
  let low := m1.drop px.length
  let sub := dropZero (rowReduce (low.map Prod.snd))
  if sub.length ≠ low.length then none else
  let m2 := m1.take px.length ++ List.zipWith (fun r z => (r.1, z)) low sub
  let pz := (firstNonzeroCols sub).take (n - px.length - stabDimension M)
  -- move the stabilizer Z pivots to the back
  let perm2 := moveToBack pz
  let m3 := m2.map fun r => (takeAt perm2 r.1, takeAt perm2 r.2)
  let locs2 := takeAt perm2 locs1
  -- sectors
  let sx := px.length
  let sz := pz.length
  let k := n - sx - sz
  let cols := List.finRange n
  some
    { matrix := m3, locs := locs2, rowsSX := (0, sx), rowsGX := (0, 0), rowsSZ := (sx, sx + sz),
      rowsGZ := (0, 0), colsLX := pySlice cols (0, k), colsLZ := pySlice cols (0, k),
      colsSX := pySlice cols (k, k + sx), colsSZ := pySlice cols (k + sx, k + sx + sz),
      colsGX := [], colsGZ := [] }

/-- `v[cols] = vals` for a vector `v` and distinct `cols`. -/
def assign (cols : List (Fin n)) (vals : List F) (v : Fin n → F) : Fin n → F := fun j =>
  if j ∈ cols then vals.getD (cols.idxOf j) 0 else v j

/-- Row `t` of the identity matrix of size `k`, as a list. -/
def eyeRow (k t : ℕ) : List F := (List.range k).map fun s => if s = t then 1 else 0

/-- One pair of logical operators (`/repo/qldpc/codes/common.py:950-970`), from the values `seedX` and
`seedZ` of column `t` of `logicals_xx` and `logicals_zz` in the GL sector. -/
def logicalPair (d : StdData F n) (k t : ℕ) (seedX seedZ : Fin n → F) :
    (Fin (n + n) → F) × (Fin (n + n) → F) :=
  let u := assign d.colsSZ ((pySlice d.matrix d.rowsSZ).map fun r => - dot r.2 seedX) seedX
  let v := assign d.colsSX ((pySlice d.matrix d.rowsSX).map fun r => - dot r.1 seedZ) seedZ
  let w0 := assign d.colsLX (eyeRow k t) 0
  let w1 := assign d.colsGX
    ((pySlice d.matrix d.rowsGX).map fun r => - dot r.1 w0 + dot r.2 u) w0
  let w2 := assign d.colsSX
    ((pySlice d.matrix d.rowsSX).map fun r => - dot r.1 w1 + dot r.2 u) w1
  let back := argsort d.locs
  (Fin.append (takeAt back u) (takeAt back w2), Fin.append 0 (takeAt back v))

/-- `get_logical_ops` of a stabilizer code (`/repo/qldpc/codes/common.py:911-973`): the X-type and
the Z-type logical operators. -/
def stabLogicals (M : Rows F (n + n)) : Option (Rows F (n + n) × Rows F (n + n)) :=
  (stdStabilizer M).map fun d =>
    let k := stabDimension M
    let pairs := (List.range k).map fun t =>
      logicalPair d k t (assign d.colsLZ (eyeRow k t) 0) (assign d.colsLX (eyeRow k t) 0)
    (pairs.map Prod.fst, pairs.map Prod.snd)

end QLDPC
