import Verif.Model.StandardForm

/-!
# `QuditCode` objects

Subsystem branch of `get_standard_form_data` and `get_logical_ops`, `set_logical_ops`,
`get_stabilizer_ops`, `conjugated`, `stack` (`/repo/qldpc/codes/common.py:905-1420`).
-/

namespace QLDPC

open Spec

variable {F : Type} [Field F] [DecidableEq F] {n : ℕ}

/-- `get_stabilizer_ops()` of a subsystem code that has not computed them yet
(`/repo/qldpc/codes/common.py:1204-1209`). -/
def subsystemStabilizers (M : Rows F (n + n)) : Rows F (n + n) :=
  let stabsAndGauges := dropZero (rowReduce M)
  let stabsAndLogs := nullSpace (stabsAndGauges.map symplecticConjugate)
  nullSpace ((stabsAndGauges ++ stabsAndLogs).map symplecticConjugate)

/-- `dimension` of a subsystem code (`/repo/qldpc/codes/common.py:1252-1253`). -/
def subsystemDimension (M : Rows F (n + n)) : ℕ :=
  n - ((dropZero (rowReduce M)).length + (subsystemStabilizers M).length) / 2

/-- `gauge_dimension` (`/repo/qldpc/codes/common.py:1255-1261`). -/
def gaugeDimension (M : Rows F (n + n)) : ℕ :=
  ((dropZero (rowReduce M)).length - (subsystemStabilizers M).length) / 2

/-- Permute the qudits of a row with `2 n` columns (`/repo/qldpc/codes/common.py:1044-1048`). -/
def permuteQudits (perm : List (Fin n)) (r : Fin (n + n) → F) : Fin (n + n) → F :=
  Fin.append (takeAt perm (xPart r)) (takeAt perm (zPart r))

/-- `l[idx]` for a list of indices; `none` (`IndexError`) if one is out of range. -/
def indexList {α : Type} (l : List α) (idx : List ℕ) : Option (List α) := idx.mapM fun i => l[i]?

/-- `get_standard_form_data` of a subsystem code (`/repo/qldpc/codes/common.py:1097-1155`). -/
def stdSubsystem (M : Rows F (n + n)) : Option (StdData F n) := do
  let d ← stdStabilizer (subsystemStabilizers M)
  let stabsX : Rows F (n + n) := (pySlice d.matrix d.rowsSX).map fun r => Fin.append r.1 r.2
  let stabsZ : Rows F n := (pySlice d.matrix d.rowsSZ).map Prod.snd
  let colsGL := d.colsLZ
  let sx := stabsX.length
  let sz := stabsZ.length
  let g := gaugeDimension M
  -- parity checks with qudits in the same order
  let checks := (dropZero (rowReduce M)).map (permuteQudits ((List.finRange n).map d.locs))
  let checksX := checks.take (sx + g)
  let checksZ := (checks.drop (sx + g)).map zPart
  -- X sector
  let permX := d.colsSX ++ colsGL ++ d.colsSZ
  let mx := (dropZero (rowReduce ((stabsX ++ checksX).map (permuteQudits permX)))).take (sx + g)
  let pgx := ((firstNonzeroCols mx).drop sx).map fun p => p.val - sx
  let mx := mx.map (permuteQudits (argsort (takeAt permX id)))
  -- Z sector
  let permZ := d.colsSZ ++ colsGL ++ d.colsSX
  let mz := dropZero (rowReduce ((stabsZ ++ checksZ).map (takeAt permZ)))
  let pgz := ((firstNonzeroCols mz).drop sz).map fun p => p.val - sz
  let mz := mz.map (takeAt (argsort (takeAt permZ id)))
  -- remove the gauge operators added to the stabilizers
  let fixedX ← (List.zip stabsX (mx.take sx)).mapM fun p => do
    let coeffs ← indexList (List.ofFn p.1) pgx
    pure (p.2 + vecMat coeffs (mx.drop sx))
  let fixedZ ← (List.zip stabsZ (mz.take sz)).mapM fun p => do
    let coeffs ← indexList (List.ofFn p.1) pgz
    pure (p.2 + vecMat coeffs (mz.drop sz))
  let mx := fixedX ++ mx.drop sx
  let mz := fixedZ ++ mz.drop sz
  let colsGX ← indexList colsGL pgx
  let colsGZ ← indexList colsGL pgz
  pure
    { matrix := mx.map (fun r => (xPart r, zPart r)) ++ mz.map fun r => (0, r),
      locs := d.locs, rowsSX := (0, sx), rowsGX := (sx, sx + g),
      rowsSZ := (sx + g, sx + g + sz), rowsGZ := (sx + g + sz, sx + g + sz + g),
      colsSX := d.colsSX, colsSZ := d.colsSZ, colsGX := colsGX, colsGZ := colsGZ,
      colsLX := colsGL.filter (fun q => q ∉ colsGX), colsLZ := colsGL.filter (fun q => q ∉ colsGZ) }

/-- `np.linalg.inv` of a square galois matrix (`/repo/qldpc/codes/common.py:955`): row-reduce
`[A | I]`; `none` (`LinAlgError`) if the left half is not the identity. -/
def invRows {k : ℕ} (A : Rows F k) : Option (Rows F k) :=
  if A.length ≠ k then none else
  let eye : Rows F k := (List.finRange k).map fun i => Pi.single i 1
  let R := rowReduce (List.zipWith (fun a e => Fin.append a e) A eye)
  if R.map xPart = eye then some (R.map zPart) else none

/-- `mat_U`, `mat_W @ mat_M` (`/repo/qldpc/codes/common.py:953-957`, and `1779-1784` for CSS codes) from
the Z parts `gz` of the Z gauge rows and the X parts `gx` of the X gauge rows: column `t` of the GL
sector of `logicals_xx` and of `logicals_zz`. -/
def gaugeSeeds (gz gx : Rows F n) (colsGL : List (Fin n)) (k : ℕ) :
    Option ((ℕ → Fin n → F) × (ℕ → Fin n → F)) :=
  -- rows are the columns of `mat_U` and `mat_W`
  let U := nullSpace (gz.map (CCode.selectCols colsGL))
  let W := nullSpace (gx.map (CCode.selectCols colsGL))
  if hk : W.length = k then
    -- `mat_U.T @ mat_W`
    let A : Rows F k := U.map fun u => fun j => dot u (W[j.val]'(by have := j.isLt; omega))
    (invRows A).map fun Minv =>
      (fun t => assign colsGL (List.ofFn (U.getD t 0)) 0,
        fun t => assign colsGL
          (List.ofFn fun c => ((List.zip W Minv).map fun p => p.1 c * (List.ofFn p.2).getD t 0).sum) 0)
  else none

/-- `get_logical_ops` of a subsystem code (`/repo/qldpc/codes/common.py:925-973`). -/
def subsystemLogicals (M : Rows F (n + n)) : Option (Rows F (n + n) × Rows F (n + n)) := do
  let d ← stdSubsystem M
  let k := subsystemDimension M
  let colsGL := (d.colsGX ++ d.colsLX).insertionSort (· ≤ ·)
  let seeds ← gaugeSeeds ((pySlice d.matrix d.rowsGZ).map Prod.snd)
    ((pySlice d.matrix d.rowsGX).map Prod.fst) colsGL k
  let pairs := (List.range k).map fun t => logicalPair d k t (seeds.1 t) (seeds.2 t)
  pure (pairs.map Prod.fst, pairs.map Prod.snd)

/-- The state of a `QuditCode` object (`/repo/qldpc/codes/common.py:80-83, 715-718`): parity check
matrix, subsystem flag, cached logical operators (X-type rows, then Z-type rows), dimension and distance,
where `some none` is `nan`. -/
structure QCode (F : Type) (n : ℕ) where
  matrix : Rows F (n + n)
  isSub : Bool
  logicals? : Option (Rows F (n + n)) := none
  dim? : Option ℕ := none
  dist? : Option (Option ℕ) := none

namespace QCode

/-- `QuditCode(matrix, field, is_subsystem_code=...)` (`/repo/qldpc/codes/common.py:720-747`). -/
def ofMatrix (M : Rows F (n + n)) (isSub : Option Bool := none) : QCode F n :=
  { matrix := M, isSub := isSub.getD (isSubsystem M) }

/-- `get_logical_ops()` (`/repo/qldpc/codes/common.py:911-973`); `none` if it raises. -/
def getLogicalOps (c : QCode F n) : Option (Rows F (n + n)) :=
  match c.logicals? with
  | some L => some L
  | none =>
    (if c.isSub then subsystemLogicals c.matrix else stabLogicals c.matrix).map fun p => p.1 ++ p.2

/-- `dimension` (`/repo/qldpc/codes/common.py:1243-1253`). -/
def dimension (c : QCode F n) : ℕ :=
  match c.dim? with
  | some k => k
  | none =>
    match c.logicals? with
    | some L => L.length / 2
    | none => if c.isSub then subsystemDimension c.matrix else stabDimension c.matrix

/-- `get_stabilizer_ops()` (`/repo/qldpc/codes/common.py:1185-1214`), without cached operators. -/
def stabilizerOps (c : QCode F n) : Rows F (n + n) :=
  if c.isSub then subsystemStabilizers c.matrix else c.matrix

/-- `set_logical_ops` (`/repo/qldpc/codes/common.py:1166-1183`).  `np.array_equal` compares shapes
first. -/
def setLogicalOps (c : QCode F n) (ops : Rows F (n + n)) (validate : Bool := true) :
    Except String (QCode F n) :=
  let k := ops.length / 2
  let opsX := ops.take k
  let opsZ := ops.drop k
  let products := opsX.map fun p => opsZ.map fun q => dot (symplecticConjugate p) q
  let eye : List (List F) := (List.range k).map fun t => eyeRow k t
  let accepted : QCode F n := { c with logicals? := some ops, dim? := some k }
  if validate then
    if ¬(opsZ.length = k ∧ products = eye) then
      .error "The given logical operators have incorrect commutation relations"
    else if (c.matrix.map symplecticConjugate).any fun r => ops.any fun l => dot r l ≠ 0 then
      .error "The given logical operators violate parity checks"
    else if k ≠ c.dimension then
      .error "An incorrect number of logical operators was provided"
    else .ok accepted
  else .ok accepted

end QCode

/-- Swap the X and Z support of a row at the given qudits
(`/repo/qldpc/codes/common.py:1365-1366`): `row[:, qudits] = row[::-1, qudits]`. -/
def conjugateRow (qudits : List (Fin n)) (r : Fin (n + n) → F) : Fin (n + n) → F :=
  Fin.append (fun i => if i ∈ qudits then zPart r i else xPart r i)
    (fun i => if i ∈ qudits then xPart r i else zPart r i)

/-- `conjugated` (`/repo/qldpc/codes/common.py:1361-1375`). -/
def QCode.conjugated (c : QCode F n) (qudits : List (Fin n)) : Except String (QCode F n) :=
  let code : QCode F n := { matrix := c.matrix.map (conjugateRow qudits), isSub := c.isSub }
  match c.logicals? with
  | none => .ok code
  | some L => code.setLogicalOps (L.map (conjugateRow qudits))

end QLDPC
