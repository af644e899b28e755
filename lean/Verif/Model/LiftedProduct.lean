import Verif.Model.Product

/-!
# Lifted products as CSS codes

`LPCode` and `SLPCode` of `/repo/qldpc/codes/quantum.py`: the parity check matrices that are handed to `CSSCode`.
-/

namespace QLDPC

variable {F : Type} [Field F] [DecidableEq F] {n m : ℕ}

/-- The rows of a matrix. -/
def rowsOf {r c : ℕ} (M : Matrix (Fin r) (Fin c) F) : Rows F c := (List.finRange r).map fun i j => M i j

section Ring

variable {R : Type} [Mul R] [Zero R] [One R] {d : ℕ}

/-- `LPCode.__init__` (`/repo/qldpc/codes/quantum.py:992-1016`): the matrices passed to `CSSCode.__init__`. -/
def lpMatrices [Neg R] (star : R → R) (Λ : R → Matrix (Fin d) (Fin d) F) (A : Rows R n) (B : Rows R m) :
    Rows F ((n * m + A.length * B.length) * d) × Rows F ((n * m + A.length * B.length) * d) :=
  (rowsOf (lpCode star Λ A B).1, rowsOf (lpCode star Λ A B).2)

/-- `LPCode.sector_size` (`/repo/qldpc/codes/quantum.py:1009-1011`): `lift_dim` times the outer product of the reversed
shapes. -/
def lpSectorSize (d : ℕ) (A : Rows R n) (B : Rows R m) : (ℕ × ℕ) × (ℕ × ℕ) :=
  ((d * (n * m), d * (n * B.length)), (d * (A.length * m), d * (A.length * B.length)))

/-- `HGPCode.sector_size` (`/repo/qldpc/codes/quantum.py:720-724`). -/
def hgpSectorSize (A : Rows F n) (B : Rows F m) : (ℕ × ℕ) × (ℕ × ℕ) :=
  ((n * m, n * B.length), (A.length * m, A.length * B.length))

/-- `SLPCode.__init__` (`/repo/qldpc/codes/quantum.py:1053-1070`): the matrices passed to `CSSCode.__init__`. -/
def slpMatrices (Λ : R → Matrix (Fin d) (Fin d) F) (A : Rows R n) (B : Rows R m) :
    Rows F (n * m * d) × Rows F (n * m * d) :=
  (rowsOf (liftArray Λ (asMatrix (shpX A B))), rowsOf (liftArray Λ (asMatrix (shpZ A B))))

end Ring

end QLDPC
