import Verif.Model.Classical
import Verif.Spec.Symplectic

/-!
# Pauli strings and qudit codes: `/repo/qldpc/math.py`, `QuditCode` of `/repo/qldpc/codes/common.py`

A row of a parity check matrix with `2 n` columns is a function on `Fin (n + n)`; `reshape(-1, 2, n)`
puts entry `(0, i)` at `i` and entry `(1, i)` at `n + i`.
-/

namespace QLDPC

open Spec

variable {F : Type} [Field F] [DecidableEq F] {n : ℕ}

/-- `symplectic_conjugate` of one row (`/repo/qldpc/math.py:52-62`): reshape to `(2, n)`, reverse the
first axis, negate the new first half. -/
def symplecticConjugate (v : Fin (n + n) → F) : Fin (n + n) → F :=
  Fin.append (fun i => -(v (Fin.natAdd n i))) (fun i => v (Fin.castAdd n i))

/-- Default of `is_subsystem_code` in `QuditCode.__init__` (`/repo/qldpc/codes/common.py:745-746`):
`np.any(symplectic_conjugate(matrix) @ matrix.T)`. -/
def isSubsystem (M : Rows F (n + n)) : Bool :=
  (M.map symplecticConjugate).any fun r => M.any fun q => dot r q ≠ 0

/-- Default of `is_subsystem_code` in `CSSCode.__init__` (`/repo/qldpc/codes/common.py:1596-1599`):
`np.any(matrix_x @ matrix_z.T)`. -/
def isSubsystemCSS (Hx Hz : Rows F n) : Bool := Hx.any fun r => Hz.any fun q => dot r q ≠ 0

/-- `CSSCode.matrix` (`/repo/qldpc/codes/common.py:1654-1662`). -/
def cssMatrix (Hx Hz : Rows F n) : Rows F (n + n) := blockDiag2 Hx Hz

end QLDPC
