import Verif.Model.Product
import Verif.Model.Families
import Verif.Model.Simplex
import Verif.Model.Surface

/-!
# Families of (subsystem) hypergraph product codes

`SurfaceCode` and `ToricCode` with `rotated=False`, `BaconShorCode`, `SHYPSCode`
(`/repo/qldpc/codes/quantum.py`).  The number of qudits is part of the result.
-/

namespace QLDPC

variable (F : Type) [Field F] [DecidableEq F]

/-- `SurfaceCode(rows, cols, field, rotated=False)` (`/repo/qldpc/codes/quantum.py:1318-1332, 1350-1359`). -/
def planarSurfaceCode (rows cols : ℕ) : Option (Σ N, KnownCss F N) :=
  match repetitionCode F rows, repetitionCode F cols with
  | some a, some b => some ⟨_, {
      hx := hgpX id a.matrix b.matrix
      hz := hgpZ id a.matrix b.matrix
      dimension := 1
      distX := cols
      distZ := rows }⟩
  | _, _ => none

/-- `ToricCode(rows, cols, field, rotated=False)` (`/repo/qldpc/codes/quantum.py:1435-1449, 1478-1490`).
Without rows or columns `np.kron` of empty arrays gives a code without qudits. -/
def planarToricCode (rows cols : ℕ) : Σ N, KnownCss F N :=
  ⟨_, { hx := hgpX id (ringCode F rows).matrix (ringCode F cols).matrix
        hz := hgpZ id (ringCode F rows).matrix (ringCode F cols).matrix
        dimension := 2
        distX := min rows cols
        distZ := min rows cols }⟩

/-- A subsystem CSS code (gauge generators of X-type and Z-type) with the attributes that its constructor
sets: `_stabilizer_ops`, logical operators, `_dimension`, `_distance_x`, `_distance_z`. -/
structure KnownSubsystem (F : Type) (n : ℕ) where
  hx : Rows F n
  hz : Rows F n
  stabs : Rows F n × Rows F n
  logicals : Rows F n × Rows F n
  dim? : Option ℕ
  distX? : Option (Option ℕ)
  distZ? : Option (Option ℕ)

variable {F}

/-- `SHPCode.__init__` (`/repo/qldpc/codes/quantum.py:899-927`) with `set_logicals=True`. -/
def shpCode {n m : ℕ} (a : CCode F n) (b : CCode F m) : KnownSubsystem F (n * m) :=
  { hx := shpX a.matrix b.matrix
    hz := shpZ a.matrix b.matrix
    stabs := shpStabs a b
    logicals := shpLogicals a b
    dim? := none
    distX? := none
    distZ? := none }

variable (F)

/-- `BaconShorCode(rows, cols, field)` (`/repo/qldpc/codes/quantum.py:1574-1584`). -/
def baconShorCode (rows : ℕ) (cols : Option ℕ) : Option (Σ N, KnownSubsystem F N) :=
  match repetitionCode F rows, repetitionCode F (cols.getD rows) with
  | some a, some b => some ⟨_, shpCode a b⟩
  | _, _ => none

/-- `SHYPSCode(dim_x, dim_z)` (`/repo/qldpc/codes/quantum.py:1600-1609`).  `get_distance` of a simplex code
returns the recorded distance (`/repo/qldpc/codes/common.py:389-429`). -/
def shypsCode (dimX : ℕ) (dimZ : Option ℕ) : Option (Σ N, KnownSubsystem F N) :=
  match simplexCode F dimX, simplexCode F (dimZ.getD dimX) with
  | some a, some b => some ⟨_, { shpCode a b with
      dim? := some (dimX * dimZ.getD dimX)
      distX? := b.dist?
      distZ? := a.dist? }⟩
  | _, _ => none

end QLDPC
