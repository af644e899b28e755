import Verif.Model.LinAlg
import Mathlib.Algebra.BigOperators.Group.Finset.Basic
import Mathlib.Algebra.Ring.Defs

/-!
# Chain complexes

`ChainComplex` of `/repo/qldpc/objects.py:352-551`.  The matrices of a complex have different shapes, so a matrix
carries its shape; entries outside of the shape have no meaning.
-/

namespace QLDPC

/-- A two-dimensional array: `shape` and entries. -/
structure Mat (R : Type) where
  rows : ℕ
  cols : ℕ
  e : ℕ → ℕ → R

namespace Mat

variable {R : Type}

/-- `field.Zeros((rows, cols))` (`/repo/qldpc/objects.py:460, 462, 521`). -/
def zeros [Zero R] (r c : ℕ) : Mat R := ⟨r, c, fun _ _ => 0⟩

/-- `np.identity(n)` (`/repo/qldpc/objects.py:536, 540`). -/
def eye [Zero R] [One R] (n : ℕ) : Mat R := ⟨n, n, fun i j => if i = j then 1 else 0⟩

/-- `np.kron(a, b)` (`/repo/qldpc/objects.py:537, 542`). -/
def kron [Mul R] (a b : Mat R) : Mat R :=
  ⟨a.rows * b.rows, a.cols * b.cols, fun i j => a.e (i / b.rows) (j / b.cols) * b.e (i % b.rows) (j % b.cols)⟩

/-- `a * (-1) ** deg` (`/repo/qldpc/objects.py:542`). -/
def signed [Ring R] (a : Mat R) (deg : ℕ) : Mat R := ⟨a.rows, a.cols, fun i j => (-1) ^ deg * a.e i j⟩

/-- `a.T`. -/
def T (a : Mat R) : Mat R := ⟨a.cols, a.rows, fun i j => a.e j i⟩

/-- `a @ b`, for `a.shape[1] == b.shape[0]`. -/
def mul [Ring R] (a b : Mat R) : Mat R := ⟨a.rows, b.cols, fun i j => ∑ k ∈ Finset.range a.cols, a.e i k * b.e k j⟩

/-- Side by side. -/
def hcat (a b : Mat R) : Mat R :=
  ⟨a.rows, a.cols + b.cols, fun i j => if j < a.cols then a.e i j else b.e i (j - a.cols)⟩

/-- One above the other. -/
def vcat (a b : Mat R) : Mat R :=
  ⟨a.rows + b.rows, a.cols, fun i j => if i < a.rows then a.e i j else b.e (i - a.rows) j⟩

/-- The inner lists of `np.block`; `none` for an empty list or different heights. -/
def hcatAll : List (Mat R) → Option (Mat R)
  | [] => none
  | [a] => some a
  | a :: l => match hcatAll l with
    | none => none
    | some b => if a.rows = b.rows then some (hcat a b) else none

/-- The outer list of `np.block`; `none` for an empty list or different widths. -/
def vcatAll : List (Mat R) → Option (Mat R)
  | [] => none
  | [a] => some a
  | a :: l => match vcatAll l with
    | none => none
    | some b => if a.cols = b.cols then some (vcat a b) else none

end Mat

/-- All values of a list of computations, or none. -/
def allSome {α : Type} : List (Option α) → Option (List α)
  | [] => some []
  | none :: _ => none
  | some a :: l => match allSome l with
    | none => none
    | some b => some (a :: b)

/-- `np.block(blocks)` (`/repo/qldpc/objects.py:545`). -/
def Mat.block {R : Type} (blocks : List (List (Mat R))) : Option (Mat R) :=
  match allSome (blocks.map Mat.hcatAll) with
  | none => none
  | some l => Mat.vcatAll l

/-- A `ChainComplex`: its boundary operators (`/repo/qldpc/objects.py:373`). -/
structure Chain (R : Type) where
  ops : List (Mat R)

namespace Chain

variable {R : Type} [Ring R]

/-- `_validate_ops` (`/repo/qldpc/objects.py:415-422`): no exception is raised. -/
def validate [DecidableEq R] (c : Chain R) : Bool :=
  (c.ops.zip c.ops.tail).all fun p => decide (p.1.cols = p.2.rows) &&
    (List.range p.1.rows).all fun i => (List.range p.2.cols).all fun j => decide ((p.1.mul p.2).e i j = 0)

/-- `num_links` (`/repo/qldpc/objects.py:434-437`). -/
def links (c : Chain R) : ℕ := c.ops.length

/-- `op(degree)` (`/repo/qldpc/objects.py:454-461`), for a complex with boundary operators and
`0 <= degree <= num_links + 1`. -/
def op (c : Chain R) (degree : ℕ) : Mat R :=
  if degree = 0 then Mat.zeros 0 ((c.ops.head?.map Mat.rows).getD 0)
  else if degree = c.ops.length + 1 then Mat.zeros ((c.ops.getLast?.map Mat.cols).getD 0) 0
  else (c.ops[degree - 1]?).getD (Mat.zeros 0 0)

/-- `dim(degree)` (`/repo/qldpc/objects.py:444-446`). -/
def dim (c : Chain R) (degree : ℕ) : ℕ := (c.op degree).cols

/-- `T` (`/repo/qldpc/objects.py:448-452`). -/
def T (c : Chain R) : Chain R := ⟨c.ops.reverse.map Mat.T⟩

/-- `get_degree_pairs` (`/repo/qldpc/objects.py:500-505`). -/
def degreePairs (la lb degree : ℕ) : List (ℕ × ℕ) :=
  let minDeg := degree - lb
  let maxDeg := min la degree
  (List.range (maxDeg + 1 - minDeg)).map fun t => (maxDeg - t, degree - (maxDeg - t))

/-- `get_block_index` (`/repo/qldpc/objects.py:507-510`). -/
def blockIndex (la degA degB : ℕ) : ℕ := min la (degA + degB) - degA

/-- `blocks[row][col] = M` for `col` in range; `none` if `row` is not (an `IndexError`). -/
def setBlock (height : ℕ) (blocks : ℕ → ℕ → Mat R) (row col : ℕ) (M : Mat R) : Option (ℕ → ℕ → Mat R) :=
  if row < height then some fun r c => if r = row ∧ c = col then M else blocks r c else none

/-- One round of the loop that fills in the nonzero blocks (`/repo/qldpc/objects.py:531-543`). -/
def fillColumn (a b : Chain R) (height col : ℕ) (degs : ℕ × ℕ) (blocks : ℕ → ℕ → Mat R) :
    Option (ℕ → ℕ → Mat R) :=
  let opA := a.op degs.1
  let opB := b.op degs.2
  match (if degs.1 ≠ 0 then
      setBlock height blocks (blockIndex a.links (degs.1 - 1) degs.2) col (Mat.kron opA (Mat.eye opB.cols))
    else some blocks) with
  | none => none
  | some blocks =>
    if degs.2 ≠ 0 then
      setBlock height blocks (blockIndex a.links degs.1 (degs.2 - 1)) col
        ((Mat.kron (Mat.eye opA.cols) opB).signed degs.1)
    else some blocks

/-- The loop over the columns (`/repo/qldpc/objects.py:531-543`). -/
def fillColumns (a b : Chain R) (height : ℕ) : ℕ → List (ℕ × ℕ) → (ℕ → ℕ → Mat R) → Option (ℕ → ℕ → Mat R)
  | _, [], blocks => some blocks
  | col, degs :: l, blocks => match fillColumn a b height col degs blocks with
    | none => none
    | some blocks => fillColumns a b height (col + 1) l blocks

/-- The array of zero blocks (`/repo/qldpc/objects.py:512-520, 525-528`). -/
def zeroBlocks (a b : Chain R) (rows cols : List (ℕ × ℕ)) (r c : ℕ) : Mat R := match rows[r]?, cols[c]? with
  | some p, some q => Mat.zeros (a.dim p.1 * b.dim p.2) (a.dim q.1 * b.dim q.2)
  | _, _ => Mat.zeros 0 0

/-- One boundary operator of the tensor product (`/repo/qldpc/objects.py:523-545`). -/
def tensorOp (a b : Chain R) (degree : ℕ) : Option (Mat R) :=
  let rows := degreePairs a.links b.links (degree - 1)
  let cols := degreePairs a.links b.links degree
  match fillColumns a b rows.length 0 cols (zeroBlocks a b rows cols) with
  | none => none
  | some blocks =>
    Mat.block ((List.range rows.length).map fun r => (List.range cols.length).map fun c => blocks r c)

/-- `ChainComplex.tensor_product` (`/repo/qldpc/objects.py:463-551`) of complexes over the same ring; `none` if an
exception is raised. -/
def tensorProduct (a b : Chain R) : Option (Chain R) :=
  if a.ops = [] ∧ b.ops = [] then some ⟨[]⟩
  else if a.ops = [] ∨ b.ops = [] then none
  else match allSome ((List.range (a.links + b.links)).map fun k => tensorOp a b (k + 1)) with
    | none => none
    | some l => some ⟨l⟩

end Chain

end QLDPC
