import Verif.Model.Classical

/-! # Classical simplex codes (`/repo/qldpc/codes/classical.py:255-300`) -/

namespace QLDPC

/-- `SimplexCode.get_polynomial_exponents(dim)` (`/repo/qldpc/codes/classical.py:277-300`). -/
def simplexExponents : ℕ → Option (List ℕ)
  | 2 => some [0, 1, 2]
  | 3 => some [0, 2, 3]
  | 4 => some [0, 3, 4]
  | 5 => some [0, 3, 5]
  | 6 => some [0, 5, 6]
  | 7 => some [0, 6, 7]
  | _ => none

/-- A row of the matrix after `matrix[rows, (rows + shift) % block_length] = 1` for all shifts
(`/repo/qldpc/codes/classical.py:268-271`). -/
def simplexRow (F : Type) [Field F] (N : ℕ) (shifts : List ℕ) (row : ℕ) : Fin N → F := fun col =>
  if shifts.any fun s => decide (col.val = (row + s) % N) then 1 else 0

/-- `SimplexCode(dim)` (`/repo/qldpc/codes/classical.py:265-275`); the field is that with two elements. -/
def simplexCode (F : Type) [Field F] [DecidableEq F] (dim : ℕ) : Option (CCode F (2 ^ dim - 1)) :=
  (simplexExponents dim).map fun shifts =>
    { matrix := (List.range (2 ^ dim - 1)).map fun row => simplexRow F (2 ^ dim - 1) shifts row,
      dim? := some dim, dist? := some (some (2 ^ (dim - 1))) }

end QLDPC
