import Verif.Model.Concat
import Verif.Model.CssDistance

/-!
# Stacking and concatenation of CSS codes

`CSSCode.set_logical_ops_xz`, `CSSCode.stack`, `CSSCode.concatenate`
(`/repo/qldpc/codes/common.py:1924-1933, 2217-2296`).
-/

namespace QLDPC

open Spec

variable {F : Type} [Field F] [DecidableEq F]

/-- A `CSSCode` with its number of qudits. -/
abbrev AnyCss (F : Type) := Σ n : ℕ, CssCode F n

/-- `set_logical_ops_xz(logicals_x, logicals_z)` with validation (`/repo/qldpc/codes/common.py:1166-1183`,
`1924-1933`); the full parity check matrix is block diagonal (`1654-1662`). -/
def CssCode.setLogicalOpsXZ {n : ℕ} (c : CssCode F n) (LX LZ : Rows F n) : Except String (CssCode F n) :=
  let asQudit : QCode F n :=
    { matrix := blockDiag2 c.hx c.hz, isSub := c.isSub, dim? := some c.dimension }
  (asQudit.setLogicalOps (blockDiag2 LX LZ)).map fun _ => { c with logicals? := some (LX, LZ) }

/-- `scipy.linalg.block_diag` of one matrix for each code (`/repo/qldpc/codes/common.py:2228-2229, 2240-2241`). -/
def blocksDiag {α : ℕ → Type} (f : ∀ n, α n → Rows F n) : (l : List (Σ n, α n)) → Rows F (blocksLen l)
  | [] => []
  | b :: l => blockDiag2 (f b.1 b.2) (blocksDiag f l)

/-- `get_logical_ops(Pauli.X)` and `get_logical_ops(Pauli.Z)` (`/repo/qldpc/codes/common.py:1755-1797`). -/
def CssCode.logicalsOf {n : ℕ} (p : PauliXZ) (c : CssCode F n) : Rows F n :=
  (c.logicals.map (CssCode.pick p)).getD []

/-- The stacked code before logical operators are set (`/repo/qldpc/codes/common.py:2228-2235`). -/
def stackCssBase (codes : List (AnyCss F)) : CssCode F (blocksLen codes) :=
  CssCode.ofMatrices (blocksDiag (fun _ c => c.hx) codes) (blocksDiag (fun _ c => c.hz) codes)
    (some (codes.any fun c => c.2.isSub)) (codes.all fun c => c.2.equalXZ)

/-- `CSSCode.stack(*codes, inherit_logicals=...)` (`/repo/qldpc/codes/common.py:2217-2243`).  No codes:
`ClassicalCode.stack` raises. -/
def stackCss (codes : List (AnyCss F)) (inherit : Bool) : Except String (CssCode F (blocksLen codes)) :=
  if codes = [] then .error "no codes"
  else if inherit then
    if codes.all fun c => c.2.logicals.isSome then
      (stackCssBase codes).setLogicalOpsXZ (blocksDiag (fun _ c => c.logicalsOf .X) codes)
        (blocksDiag (fun _ c => c.logicalsOf .Z) codes)
    else .error "get_logical_ops"
  else .ok (stackCssBase codes)

/-- `[code] * num` stacked, if there is more than one block, otherwise the code itself
(`/repo/qldpc/codes/common.py:1540-1544`). -/
def copiesCss {n : ℕ} (c : CssCode F n) (num : ℕ) : Except String (AnyCss F) :=
  if 1 < num then
    (stackCss (List.replicate num ⟨n, c⟩) true).map fun s => ⟨_, s⟩
  else .ok ⟨n, c⟩

/-- The permutation of the inner logical operators (`/repo/qldpc/codes/common.py:1547-1551`). -/
def permuteLogicalsXZ {n : ℕ} (wiring : List ℕ) (L : Rows F n × Rows F n) : Option (Rows F n × Rows F n) := do
  let x ← indexList L.1 wiring
  let z ← indexList L.2 wiring
  pure (x, z)

/-- `_standardize_concatenation_inputs` for CSS codes (`/repo/qldpc/codes/common.py:1500-1553`): the two codes,
and the caller's inner code afterwards. -/
def standardizeCss {n m : ℕ} (inner : CssCode F n) (outer : CssCode F m) (wiring? : Option (List ℕ)) :
    Except String (AnyCss F × AnyCss F × CssCode F n) := do
  let wiring ← resolveWiring m inner.dimension wiring?
  if inner.dimension = 0 ∨ m = 0 then Except.error "ZeroDivisionError" else
  let inner' ← copiesCss inner (wiring.length / inner.dimension)
  let outer' ← copiesCss outer (wiring.length / m)
  match inner'.2.logicals.bind (permuteLogicalsXZ wiring) with
  | none => Except.error "get_logical_ops or IndexError"
  | some L =>
    let after : CssCode F n := if 1 < wiring.length / inner.dimension then inner else
      { inner with logicals? := inner.logicals.bind (permuteLogicalsXZ wiring) }
    Except.ok (⟨inner'.1, { inner'.2 with logicals? := some L }⟩, outer', after)

/-- `rows @ L` for rows of length `m`; numpy raises if `L` has another number of rows. -/
def expandBits {n m : ℕ} (rows : Rows F m) (L : Rows F n) : Option (Rows F n) :=
  if L.length = m then some (rows.map fun r => vecMat (List.ofFn r) L) else none

/-- `CSSCode.concatenate` (`/repo/qldpc/codes/common.py:2245-2296`): the concatenated code and the caller's
inner code afterwards.  The product of the block diagonal matrices of logical operators is block diagonal. -/
def concatenateCss {n m : ℕ} (inner : CssCode F n) (outer : CssCode F m) (wiring? : Option (List ℕ))
    (inherit : Bool) : Except String (AnyCss F × CssCode F n) := do
  let (i, o, after) ← standardizeCss inner outer wiring?
  match i.2.logicals with
  | none => Except.error "get_logical_ops"
  | some L =>
    match expandBits o.2.hx L.1, expandBits o.2.hz L.2 with
    | some checksX, some checksZ =>
      let code : CssCode F i.1 := CssCode.ofMatrices (i.2.hx ++ checksX) (i.2.hz ++ checksZ)
      if inherit then
        match o.2.logicals.bind fun K => (expandBits K.1 L.1).bind fun x => (expandBits K.2 L.2).map fun z => (x, z) with
        | none => Except.error "get_logical_ops or shapes"
        | some K => Except.ok (⟨i.1, { code with logicals? := some K }⟩, after)
      else Except.ok (⟨i.1, code⟩, after)
    | _, _ => Except.error "shapes"

end QLDPC
