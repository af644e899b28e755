import Verif.Model.Classical

/-!
# Families of classical codes

`/repo/qldpc/codes/classical.py`.  A galois field is a field `F`; where the code enumerates it, `els` is
the list of its elements, zero first (`range(field.order)` viewed as field elements).
-/

namespace QLDPC

variable {F : Type} [Field F] [DecidableEq F] {n m : ℕ}

/-- A row of `self.field.Zeros(...)` after `row[i] = 1` and then `row[j] = -1`
(`/repo/qldpc/codes/classical.py:38-41, 52-55`); the later assignment wins if `i = j`. -/
def edgeRow (n i j : ℕ) : Fin n → F := fun b => if b.val = j then -1 else if b.val = i then 1 else 0

/-- `RepetitionCode(bits)` (`/repo/qldpc/codes/classical.py:36-44`); `Zeros((-1, 0))` raises. -/
def repetitionCode (F : Type) [Field F] [DecidableEq F] (n : ℕ) : Option (CCode F n) :=
  if n = 0 then none else
  some { matrix := (List.range (n - 1)).map fun row => edgeRow n row (row + 1),
         dim? := some 1, dist? := some (some n) }

/-- `RingCode(bits)` (`/repo/qldpc/codes/classical.py:50-58`). -/
def ringCode (F : Type) [Field F] [DecidableEq F] (n : ℕ) : CCode F n :=
  { matrix := (List.range n).map fun row => edgeRow n row ((row + 1) % n),
    dim? := some 1, dist? := some (some n) }

/-- The matrix with the given columns: `field(columns).T` (`/repo/qldpc/codes/classical.py:71, 81`). -/
def fromColumns (rank : ℕ) (cols : List (List F)) : Rows F cols.length :=
  (List.range rank).map fun i j => (cols.get j).getD i 0

/-- Columns of the Hamming code over `F_2`: all nonzero bitstrings
(`/repo/qldpc/codes/classical.py:68-71`). -/
def bitColumns (F : Type) [Field F] [DecidableEq F] (rank : ℕ) : List (List F) :=
  (productRepeat [0, 1] rank).drop 1

/-- Columns of the Hamming code in general: strings whose first nonzero element is 1
(`/repo/qldpc/codes/classical.py:76-81`). -/
def stringColumns (els : List F) (rank : ℕ) : List (List F) :=
  ((List.range rank).reverse).flatMap fun top =>
    (productRepeat els (rank - top - 1)).map fun rest => List.replicate top 0 ++ [1] ++ rest

/-- `strings` or `bitstrings[1:]` of `HammingCode` (`/repo/qldpc/codes/classical.py:68-81`). -/
def hammingColumns (els : List F) (rank : ℕ) : List (List F) :=
  if els.length = 2 then bitColumns F rank else stringColumns els rank

/-- `HammingCode(rank, field)` for `rank ≥ 1` (`/repo/qldpc/codes/classical.py:64-84`). -/
def hammingCode (els : List F) (rank : ℕ) : CCode F (hammingColumns els rank).length :=
  { matrix := fromColumns rank (hammingColumns els rank),
    dim? := some ((hammingColumns els rank).length - (fromColumns rank (hammingColumns els rank)).length),
    dist? := some (some 3) }

/-- `ExtendedHammingCode(rank)` (`/repo/qldpc/codes/classical.py:93-102`): a zero column in front, a row of
ones on top, to which the first row of the Hamming code is added.  `matrix[1]` raises for rank 0. -/
def extendedHammingCode (F : Type) [Field F] [DecidableEq F] (rank : ℕ) :
    Option (CCode F ((bitColumns F rank).length + 1)) :=
  let padded : Rows F ((bitColumns F rank).length + 1) :=
    (fromColumns rank (bitColumns F rank)).map fun r => Fin.cons 0 r
  match padded with
  | [] => none
  | first :: rest =>
    let matrix := (1 + first) :: first :: rest
    some { matrix := matrix,
           dim? := some ((bitColumns F rank).length + 1 - matrix.length), dist? := some (some 4) }

/-- `2 ** m`, by doubling. -/
def pow2 : ℕ → ℕ
  | 0 => 1
  | m + 1 => pow2 m + pow2 m

/-- `ReedMullerCode.get_generator(order, size)` (`/repo/qldpc/codes/classical.py:160-173`); `none` if the
parameters are invalid.  For `order = 0` the code returns a 1-D array, here its only row. -/
def rmGenerator (F : Type) [Field F] [DecidableEq F] : (order size : ℕ) → Option (Rows F (pow2 size))
  | 0, _ => some [1]
  | order + 1, 0 => none
  | order + 1, size + 1 =>
    if order + 1 = size + 1 then
      some ((List.finRange (pow2 (size + 1))).map fun i => Pi.single i 1)
    else
      match rmGenerator F (order + 1) size, rmGenerator F order size with
      | some a, some b =>
        some (a.map (fun r => Fin.append r r) ++ b.map fun r => Fin.append 0 r)
      | _, _ => none

/-- `ReedMullerCode(order, size)` (`/repo/qldpc/codes/classical.py:148-158`).  For `order = 0`,
`ClassicalCode(generator).generator` asks galois for the null space of a 1-D array, which raises. -/
def reedMullerCode (F : Type) [Field F] [DecidableEq F] (order size : ℕ) : Option (CCode F (pow2 size)) :=
  if order = 0 then none else
  (rmGenerator F order size).map fun G =>
    { matrix := nullSpace G, dim? := some G.length, dist? := some (some (2 ^ (size - order))) }

end QLDPC
