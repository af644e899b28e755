import Mathlib.LinearAlgebra.Span.Basic
import Mathlib.Data.List.FinRange

/-!
# Linear algebra over a finite field

`galois.FieldArray` matrices with `n` columns are modelled as lists of rows.  The library routines
`row_reduce` and `null_space`, used throughout `/repo/qldpc/codes/common.py`
(e.g. lines 247, 311, 605) and `/repo/qldpc/codes/quantum.py` (e.g. lines 855-858), are modelled by
an explicit Gauss-Jordan elimination.
-/

namespace QLDPC

variable {F : Type*} [Field F] [DecidableEq F] {n : ℕ}

/-- A matrix over `F` with `n` columns, as a list of rows (`galois.FieldArray` with shape
`(len(rows), n)`; `/repo/qldpc/codes/common.py:80`, `AbstractCode._matrix`). -/
abbrev Rows (F : Type*) (n : ℕ) := List (Fin n → F)

/-- Dot product of a row with a vector: one entry of `matrix @ vector`
(`/repo/qldpc/codes/common.py:242`). -/
def dot (r x : Fin n → F) : F := ∑ i, r i * x i

/-- One elimination: subtract `r j` times the pivot row `p` from the row `r`
(inner loop of `galois` `row_reduce`, called at `/repo/qldpc/codes/common.py:247`). -/
def elim (j : Fin n) (p r : Fin n → F) : Fin n → F := fun c => r c - r j * p c

/-- One column of Gauss-Jordan elimination.  The state holds the finished `(pivot, row)` pairs and
the rows not used yet (`galois` `row_reduce`, called at `/repo/qldpc/codes/common.py:247`).
Simplification: the pivot row is taken out of the unfinished rows, where galois swaps it with the
first one; the final result is the same because the reduced form is unique
(`Lemmas/LinAlg.lean`, `rref_unique`). -/
def rrefStep (st : List (Fin n × (Fin n → F)) × Rows F n) (j : Fin n) :
    List (Fin n × (Fin n → F)) × Rows F n :=
  match st.2.find? (fun r => r j ≠ 0) with
  | none => st
  | some r =>
    let p : Fin n → F := fun c => (r j)⁻¹ * r c
    (st.1.map (fun q => (q.1, elim j p q.2)) ++ [(j, p)], (st.2.erase r).map (elim j p))

/-- Gauss-Jordan elimination over all columns (`galois` `row_reduce`, called at
`/repo/qldpc/codes/common.py:247`). -/
def rrefState (M : Rows F n) : List (Fin n × (Fin n → F)) × Rows F n :=
  (List.finRange n).foldl rrefStep ([], M)

/-- The nonzero rows of the reduced row echelon form, each with its pivot column
(`row_reduce` then `matrix[np.any(matrix, axis=1), :]`, `/repo/qldpc/codes/common.py:247-248`;
pivots as found by `first_nonzero_cols`, `/repo/qldpc/math.py:65-69`). -/
def rrefPairs (M : Rows F n) : List (Fin n × (Fin n → F)) := (rrefState M).1

/-- `matrix.row_reduce()` of galois: same number of rows, zero rows at the bottom
(called at `/repo/qldpc/codes/common.py:247`). -/
def rowReduce (M : Rows F n) : Rows F n :=
  (rrefState M).1.map Prod.snd ++ (rrefState M).2

/-- `matrix_rref[np.any(matrix_rref, axis=1), :]` (`/repo/qldpc/codes/common.py:248`): drop the
all-zero rows. -/
def dropZero (M : Rows F n) : Rows F n := M.filter (fun r => decide (∃ c, r c ≠ 0))

/-- Pivot columns of the reduced row echelon form (`/repo/qldpc/math.py:65-69`). -/
def pivots (M : Rows F n) : List (Fin n) := (rrefPairs M).map Prod.fst

/-- Kernel vector that belongs to the free column `f` of a reduced form given as pairs. -/
def kernelVec (d : List (Fin n × (Fin n → F))) (f : Fin n) : Fin n → F := fun c =>
  if c = f then 1 else
    match d.find? (fun q => q.1 = c) with
    | none => 0
    | some q => - q.2 f

/-- Basis of the kernel of `M`, one vector for each free column. -/
def kernelBasis (M : Rows F n) : Rows F n :=
  ((List.finRange n).filter (fun c => c ∉ pivots M)).map (kernelVec (rrefPairs M))

/-- `matrix.null_space()` of galois, called at `/repo/qldpc/codes/common.py:311`: a basis of the
right null space, in reduced row echelon form.  Simplification: the basis is read off the reduced
form instead of row-reducing `[A^T | I]`; both produce the unique reduced basis of the kernel. -/
def nullSpace (M : Rows F n) : Rows F n := (rrefPairs (kernelBasis M)).map Prod.snd

end QLDPC
