import Verif.Model.Qudit

/-!
# Stacking and concatenation of qudit codes

`QuditCode.stack`, `QuditCode.concatenate`, `_standardize_concatenation_inputs`
(`/repo/qldpc/codes/common.py:1415-1553`).
-/

namespace QLDPC

open Spec

variable {F : Type} [Field F] [DecidableEq F]

/-- Total size of a list of blocks. -/
def blocksLen {α : ℕ → Type} : List (Σ n, α n) → ℕ
  | [] => 0
  | b :: l => b.1 + blocksLen l

/-- A row on the first block of `n + m` qudits: entries of the X part and of the Z part are padded
separately (`/repo/qldpc/codes/common.py:1424-1428`). -/
def padL {n : ℕ} (m : ℕ) (r : Fin (n + n) → F) : Fin ((n + m) + (n + m)) → F :=
  Fin.append (Fin.append (xPart r) 0) (Fin.append (zPart r) 0)

/-- A row on the second block of `n + m` qudits (`/repo/qldpc/codes/common.py:1424-1428`). -/
def padR (n : ℕ) {m : ℕ} (r : Fin (m + m) → F) : Fin ((n + m) + (n + m)) → F :=
  Fin.append (Fin.append 0 (xPart r)) (Fin.append 0 (zPart r))

/-- `np.hstack([block_diag(X parts), block_diag(Z parts)])` for the rows `f` of each block
(`/repo/qldpc/codes/common.py:1424-1428`, and `1432-1449` for the logical operators). -/
def blocksRows {α : ℕ → Type} (f : ∀ n, α n → Rows F (n + n)) :
    (l : List (Σ n, α n)) → Rows F (blocksLen l + blocksLen l)
  | [] => []
  | b :: l => (f b.1 b.2).map (padL (blocksLen l)) ++ (blocksRows f l).map (padR b.1)

/-- A `QuditCode` with its number of qudits. -/
abbrev AnyQ (F : Type) := Σ n : ℕ, QCode F n

/-- Logical X operators: `get_logical_ops(Pauli.X)`, the first half of the rows
(`/repo/qldpc/codes/common.py:907-909`). -/
def QCode.logicalsX {n : ℕ} (c : QCode F n) : Rows F (n + n) :=
  (c.getLogicalOps.getD []).take ((c.getLogicalOps.getD []).length / 2)

/-- Logical Z operators: `get_logical_ops(Pauli.Z)`, the second half of the rows
(`/repo/qldpc/codes/common.py:907-909`). -/
def QCode.logicalsZ {n : ℕ} (c : QCode F n) : Rows F (n + n) :=
  (c.getLogicalOps.getD []).drop ((c.getLogicalOps.getD []).length / 2)

/-- The stacked code before logical operators are set (`/repo/qldpc/codes/common.py:1424-1430`). -/
def stackBase (codes : List (AnyQ F)) : QCode F (blocksLen codes) :=
  QCode.ofMatrix (blocksRows (fun _ c => c.matrix) codes) (some (codes.any fun c => c.2.isSub))

/-- `QuditCode.stack(*codes, inherit_logicals=...)` (`/repo/qldpc/codes/common.py:1415-1450`).  No codes:
`ClassicalCode.stack` raises. -/
def stackQ (codes : List (AnyQ F)) (inherit : Bool) : Except String (QCode F (blocksLen codes)) :=
  if codes = [] then .error "no codes"
  else if inherit then
    if codes.all fun c => c.2.getLogicalOps.isSome then
      (stackBase codes).setLogicalOps
        (blocksRows (fun _ c => c.logicalsX) codes ++ blocksRows (fun _ c => c.logicalsZ) codes)
    else .error "get_logical_ops"
  else .ok (stackBase codes)

/-- `outer_physical_to_inner_logical` when none is given (`/repo/qldpc/codes/common.py:1517-1522`):
`arange(len(outer) * k).reshape(len(outer), k).T.ravel()`. -/
def interleavedWiring (m k : ℕ) : List ℕ :=
  (List.range k).flatMap fun i => (List.range m).map fun j => j * k + i

/-- The permutation of the inner logical operators (`/repo/qldpc/codes/common.py:1547-1551`): rows
`wiring` of the X-type operators, then rows `wiring` of the Z-type operators.  `none` for an index out of
range. -/
def permuteLogicals {n : ℕ} (wiring : List ℕ) (L : Rows F (n + n)) : Option (Rows F (n + n)) := do
  let k := L.length / 2
  let x ← indexList (L.take k) wiring
  let z ← indexList (L.drop k) wiring
  pure (x ++ z)

/-- `[code] * num` stacked, if there is more than one block, otherwise the code itself
(`/repo/qldpc/codes/common.py:1540-1544`). -/
def copies {n : ℕ} (c : QCode F n) (num : ℕ) : Except String (AnyQ F) :=
  if 1 < num then
    (stackQ (List.replicate num ⟨n, c⟩) true).map fun s => ⟨_, s⟩
  else .ok ⟨n, c⟩

/-- The wiring as a tuple (`/repo/qldpc/codes/common.py:1516-1538`); `%` by zero raises
`ZeroDivisionError`. -/
def resolveWiring (m k : ℕ) : Option (List ℕ) → Except String (List ℕ)
  | none => .ok (interleavedWiring m k)
  | some w =>
    if k = 0 ∨ m = 0 then .error "ZeroDivisionError"
    else if w.length % k ≠ 0 ∨ w.length % m ≠ 0 then .error "divisibility"
    else .ok w

/-- `_standardize_concatenation_inputs` (`/repo/qldpc/codes/common.py:1500-1553`): the two codes, and the
caller's inner code afterwards (line 1547 writes to it if it was not stacked). -/
def standardize {n m : ℕ} (inner : QCode F n) (outer : QCode F m) (wiring? : Option (List ℕ)) :
    Except String (AnyQ F × AnyQ F × QCode F n) := do
  let wiring ← resolveWiring m inner.dimension wiring?
  -- `//` by zero raises `ZeroDivisionError`
  if inner.dimension = 0 ∨ m = 0 then Except.error "ZeroDivisionError" else
  let inner' ← copies inner (wiring.length / inner.dimension)
  let outer' ← copies outer (wiring.length / m)
  match inner'.2.getLogicalOps.bind (permuteLogicals wiring) with
  | none => Except.error "get_logical_ops or IndexError"
  | some L =>
    let after : QCode F n := if 1 < wiring.length / inner.dimension then inner else
      { inner with logicals? := inner.getLogicalOps.bind (permuteLogicals wiring) }
    Except.ok (⟨inner'.1, { inner'.2 with logicals? := some L }⟩, outer', after)

/-- `rows @ L` for rows of length `2 m`; numpy raises if `L` has another number of rows. -/
def expandRows {n m : ℕ} (rows : Rows F (m + m)) (L : Rows F (n + n)) : Option (Rows F (n + n)) :=
  if L.length = m + m then some (rows.map fun r => vecMat (List.ofFn r) L) else none

/-- `QuditCode.concatenate` (`/repo/qldpc/codes/common.py:1452-1489`): the concatenated code and the
caller's inner code afterwards. -/
def concatenate {n m : ℕ} (inner : QCode F n) (outer : QCode F m) (wiring? : Option (List ℕ))
    (inherit : Bool) : Except String (AnyQ F × QCode F n) := do
  let (i, o, after) ← standardize inner outer wiring?
  match i.2.getLogicalOps with
  | none => Except.error "get_logical_ops"
  | some L =>
    match expandRows o.2.matrix L with
    | none => Except.error "shapes"
    | some checks =>
      let code : QCode F i.1 := QCode.ofMatrix (i.2.matrix ++ checks) (some (i.2.isSub || o.2.isSub))
      if inherit then
        match o.2.getLogicalOps.bind fun K => expandRows K L with
        | none => Except.error "get_logical_ops or shapes"
        | some K => Except.ok (⟨i.1, { code with logicals? := some K }⟩, after)
      else Except.ok (⟨i.1, code⟩, after)

end QLDPC
