import Verif.Model.Qudit
import Verif.Model.CssDistance
import Verif.Model.Families
import Verif.Model.Text
import Mathlib.Algebra.Field.ZMod
import Mathlib.Data.Fin.VecNotation

/-!
# Named codes

`FiveQubitCode`, `SteaneCode`, `IcebergCode`, `C4Code`, `C6Code` (`/repo/qldpc/codes/quantum.py:43-122`).
-/

namespace QLDPC

open Spec

/-- A `CSSCode` object together with its attribute `_dimension`, which takes precedence over anything
computed (`/repo/qldpc/codes/common.py:1246-1247`). -/
structure NamedCss (F : Type) (n : ℕ) where
  code : CssCode F n
  dim? : Option ℤ := none

/-- `set_logical_ops_xz(logicals_x, logicals_z, validate=...)` (`/repo/qldpc/codes/common.py:1166-1183`,
`1924-1933`).  The dimension is negative only for `IcebergCode(0)`, which sets no logical operators. -/
def NamedCss.setLogicalOpsXZ {F : Type} [Field F] [DecidableEq F] {n : ℕ} (c : NamedCss F n)
    (LX LZ : Rows F n) (validate : Bool := true) : Except String (NamedCss F n) :=
  let asQudit : QCode F n :=
    { matrix := blockDiag2 c.code.hx c.code.hz, isSub := c.code.isSub, dim? := c.dim?.map Int.toNat }
  (asQudit.setLogicalOps (blockDiag2 LX LZ) validate).map fun _ =>
    { code := { c.code with logicals? := some (LX, LZ) }, dim? := some ((LX.length + LZ.length) / 2 : ℕ) }

/-- The strings given to `FiveQubitCode` (`/repo/qldpc/codes/quantum.py:47-51`). -/
def fiveQubitStrings : List String := ["X Z Z X I", "I X Z Z X", "X I X Z Z", "Z X I X Z"]

/-- `FiveQubitCode()` (`/repo/qldpc/codes/quantum.py:43-56`). -/
def fiveQubitCode (t : CharTable) (fi : FieldInts (ZMod 2)) :
    Except String (Σ n, QCode (ZMod 2) n) :=
  (fromStrings t fi (fiveQubitStrings.map String.toList)).map fun M =>
    ⟨M.1, { QCode.ofMatrix M.2 (some false) with dim? := some 1, dist? := some (some 3) }⟩

/-- `SteaneCode()` (`/repo/qldpc/codes/quantum.py:59-67`). -/
def steaneCode : Except String (NamedCss (ZMod 2) (hammingColumns [(0 : ZMod 2), 1] 3).length) :=
  let h := (hammingCode (F := ZMod 2) [0, 1] 3).matrix
  let c : NamedCss (ZMod 2) _ := { code := CssCode.ofMatrices h h (some false) }
  (c.setLogicalOpsXZ [fun _ => 1] [fun _ => 1] false).map fun c =>
    { code := { c.code with distX? := some (some 3), distZ? := some (some 3) }, dim? := some 1 }

/-- `IcebergCode(size, alternative_logicals=...)` (`/repo/qldpc/codes/quantum.py:70-95`). -/
def icebergCode (size : ℕ) (alternative : Bool) :
    Except String (NamedCss (ZMod 2) (2 * size)) :=
  let checks : Rows (ZMod 2) (2 * size) := [fun _ => 1]
  let c : NamedCss (ZMod 2) (2 * size) :=
    { code := { CssCode.ofMatrices checks checks (some false) with
        distX? := some (some 2), distZ? := some (some 2) }
      dim? := some (2 * size - 2) }
  if h : alternative = true ∧ size = 3 then
    let sectorX : Rows (ZMod 2) 3 := [![1, 1, 0], ![0, 1, 1]]
    let sectorZ := sectorX.reverse
    let resize := fun (r : Fin (3 + 3) → ZMod 2) (i : Fin (2 * size)) => r (i.cast (by omega))
    c.setLogicalOpsXZ ((blockDiag2 sectorX sectorX).map resize) ((blockDiag2 sectorZ sectorZ).map resize)
  else .ok c

/-- `C4Code()` (`/repo/qldpc/codes/quantum.py:98-106`). -/
def c4Code : Except String (NamedCss (ZMod 2) 4) :=
  icebergCode 2 false

/-- `C6Code()` (`/repo/qldpc/codes/quantum.py:109-122`). -/
def c6Code : Except String (NamedCss (ZMod 2) 6) :=
  let checks : Rows (ZMod 2) 6 := [![1, 1, 0, 0, 1, 1], ![0, 1, 1, 1, 1, 0]]
  let c : NamedCss (ZMod 2) 6 := { code := CssCode.ofMatrices checks checks (some false) }
  let ops : Rows (ZMod 2) 6 := blockDiag2 (n := 3) (m := 3) [![1, 1, 1]] [![1, 1, 1]]
  (c.setLogicalOpsXZ ops ops).map fun c =>
    { code := { c.code with distX? := some (some 2), distZ? := some (some 2) }, dim? := some 2 }

/-- What `get_distance_if_known(pauli)` says for an object with known dimension `0`, or else the recorded
value (`/repo/qldpc/codes/common.py:2045-2057`). -/
def NamedCss.distIfKnown {F : Type} [Field F] [DecidableEq F] {n : ℕ} (c : NamedCss F n) (p : PauliXZ) :
    Option (Option ℕ) :=
  if c.dim? = some 0 then some none else
    match p with
    | .X => c.code.distX?
    | .Z => c.code.distZ?

end QLDPC
