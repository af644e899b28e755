import Verif.Model.CSS
import Verif.Model.RingArray

/-!
# Two-block and product codes

`TBCode`, `HGPCode`, `SHPCode`, `LPCode` of `/repo/qldpc/codes/quantum.py`.  Matrices over a
ring `R` (a field for the hypergraph products, a group algebra for the lifted products) are lists of
rows, as elsewhere.
-/

namespace QLDPC

section Ring

variable {R : Type} {n m : ℕ}

/-- `matrix.T` for a galois array, and `RingArray.T`, which also transposes the entries
(`/repo/qldpc/abstract.py:820-823`): `star` is the transposition of one entry. -/
def transposeRows (star : R → R) (A : Rows R n) : Rows R A.length :=
  (List.finRange n).map fun j i => star (A.get i j)

/-- `np.eye(n, dtype=int)` (`/repo/qldpc/codes/quantum.py:749-752`). -/
def eyeRows (R : Type) [Zero R] [One R] (n : ℕ) : Rows R n :=
  (List.finRange n).map fun i j => if j = i then 1 else 0

/-- `np.block([A, B])` for two matrices of the same height (`/repo/qldpc/codes/quantum.py:755-756`). -/
def hstack (A : Rows R n) (B : Rows R m) : Rows R (n + m) := List.zipWith Fin.append A B

/-- `-A`. -/
def negRows [Neg R] (A : Rows R n) : Rows R n := A.map fun r j => - r j

/-- `matrix_x` in `HGPCode.get_matrix_product` (`/repo/qldpc/codes/quantum.py:742-757`). -/
def hgpX [Mul R] [Zero R] [One R] (star : R → R) (A : Rows R n) (B : Rows R m) :
    Rows R (n * m + A.length * B.length) :=
  hstack (kron A (eyeRows R m)) (kron (eyeRows R A.length) (transposeRows star B))

/-- `matrix_z` in `HGPCode.get_matrix_product` (`/repo/qldpc/codes/quantum.py:742-757`). -/
def hgpZ [Mul R] [Zero R] [One R] [Neg R] (star : R → R) (A : Rows R n) (B : Rows R m) :
    Rows R (n * m + A.length * B.length) :=
  hstack (negRows (kron (eyeRows R n) B)) (kron (transposeRows star A) (eyeRows R B.length))

/-- `matrix_x` in `SHPCode.get_matrix_product` (`/repo/qldpc/codes/quantum.py:929-937`). -/
def shpX [Mul R] [Zero R] [One R] (A : Rows R n) (_B : Rows R m) : Rows R (n * m) := kron A (eyeRows R m)

/-- `matrix_z` in `SHPCode.get_matrix_product` (`/repo/qldpc/codes/quantum.py:929-937`). -/
def shpZ [Mul R] [Zero R] [One R] (_A : Rows R n) (B : Rows R m) : Rows R (n * m) := kron (eyeRows R n) B

/-- The rows as a matrix. -/
def asMatrix (M : Rows R n) : Matrix (Fin M.length) (Fin n) R := fun i j => M.get i j

end Ring

variable {F : Type} [Field F] [DecidableEq F] {n m : ℕ}

/-- `matrix_a @ matrix_b` (`/repo/qldpc/codes/quantum.py:156`); `B` has as many rows as `A` has columns. -/
def mulRows (A : Rows F n) (B : Rows F m) : Rows F m := A.map fun a => vecMat (List.ofFn a) B

/-- `TBCode.__init__` (`/repo/qldpc/codes/quantum.py:144-168`): `matrix_x` and `matrix_z`, `none` if an
exception is raised.  Both matrices have `n` columns here; with different numbers of columns either a
product, the comparison of their shapes, or `np.block` fails, as they do here for matrices that are not
square (`matrix_x` has `2n` columns, `matrix_z` twice the number of rows). -/
def tbCode (validate : Bool) (A B : Rows F n) : Option (Rows F (n + n) × Rows F (n + n)) :=
  if h : B.length = n ∧ A.length = n then
    if validate ∧ mulRows A B ≠ mulRows B A then none
    else
      let mx := hstack A B
      let mz := hstack (transposeRows id B) (negRows (transposeRows id A))
      some (mx, mz.map fun r j => r (j.cast (by rw [h.1, h.2])))
  else none

/-- `pivots` in `get_canonical_logical_ops` (`/repo/qldpc/codes/quantum.py:860-868`, `954-957`). -/
def pivotRows (G : Rows F n) : Rows F n :=
  (firstNonzeroCols G).map fun c j => if j = c then 1 else 0

/-- `HGPCode.get_canonical_logical_ops` (`/repo/qldpc/codes/quantum.py:842-878`). -/
def hgpLogicals (a : CCode F n) (b : CCode F m) :
    Rows F (n * m + a.matrix.length * b.matrix.length) ×
      Rows F (n * m + a.matrix.length * b.matrix.length) :=
  let ga := rowReduce a.generator
  let gb := rowReduce b.generator
  let gaT := nullSpace (transposeRows id a.matrix)
  let gbT := nullSpace (transposeRows id b.matrix)
  (blockDiag2 (kron (pivotRows ga) gb) (kron gaT (pivotRows gbT)),
    blockDiag2 (kron ga (pivotRows gb)) (kron (pivotRows gaT) gbT))

/-- `SHPCode._stabilizer_ops` (`/repo/qldpc/codes/quantum.py:922-924`): the blocks of X-type and of
Z-type. -/
def shpStabs (a : CCode F n) (b : CCode F m) : Rows F (n * m) × Rows F (n * m) :=
  (kron a.matrix b.generator, kron (negRows a.generator) b.matrix)

/-- `SHPCode.get_canonical_logical_ops` (`/repo/qldpc/codes/quantum.py:939-961`). -/
def shpLogicals (a : CCode F n) (b : CCode F m) : Rows F (n * m) × Rows F (n * m) :=
  let gx := rowReduce a.generator
  let gz := rowReduce b.generator
  (kron (pivotRows gx) gz, kron gx (pivotRows gz))

/-- `LPCode.__init__` (`/repo/qldpc/codes/quantum.py:992-1016`): the lifted parity check matrices; `Λ` is
the lift of an entry. -/
def lpCode {R : Type} [Mul R] [Zero R] [One R] [Neg R] {d : ℕ} (star : R → R)
    (Λ : R → Matrix (Fin d) (Fin d) F) (A : Rows R n) (B : Rows R m) :
    Matrix (Fin ((hgpX star A B).length * d)) (Fin ((n * m + A.length * B.length) * d)) F ×
      Matrix (Fin ((hgpZ star A B).length * d)) (Fin ((n * m + A.length * B.length) * d)) F :=
  (liftArray Λ (asMatrix (hgpX star A B)), liftArray Λ (asMatrix (hgpZ star A B)))

end QLDPC
