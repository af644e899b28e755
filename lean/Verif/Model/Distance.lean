import Verif.Model.Popcount
import Mathlib.Data.Nat.Bitwise
import Mathlib.Data.Int.Bitwise
import Mathlib.Data.Nat.Size

/-!
# Bit packing, Gray-code walk and exact distance search of `/repo/qldpc/codes/distance.py`

Rows of bits are `List Bool`; packed rows are `List (BitVec 64)`; the vectorised "operational array"
is a `List` of packed rows.
-/

namespace QLDPC

/-- `_count_trailing_zeros` (`/repo/qldpc/codes/distance.py:155-157`):
`(val & -val).bit_length() - 1` on unbounded python integers. -/
def countTrailingZeros (val : ℕ) : ℕ :=
  (Int.land (val : ℤ) (-(val : ℤ))).toNat.size - 1

/-- The `while width > 1` loop of `_inplace_rowsum` (`/repo/qldpc/codes/distance.py:166-170`) for one
row of `w`-bit unsigned integers.  The list is `arr[:width]`; the remaining, indeterminate, columns
are dropped.  The first argument bounds the number of iterations; `inplaceRowsum` passes the width,
which is enough (`inplaceRowsum_eq`). -/
def rowsumLoop {w : ℕ} : ℕ → List (BitVec w) → List (BitVec w)
  | 0, arr => arr
  | fuel + 1, arr =>
    let width := arr.length
    if width > 1 then
      let split := width / 2
      rowsumLoop fuel
        (List.zipWith (· + ·) (arr.take split) ((arr.drop (width - split)).take split) ++
          (arr.drop split).take (width - split - split))
    else arr

/-- `_inplace_rowsum` (`/repo/qldpc/codes/distance.py:160-172`) for one row of `w`-bit unsigned
integers.  The code raises `IndexError` on an empty row; here that is `none`. -/
def inplaceRowsum {w : ℕ} (arr : List (BitVec w)) : Option (BitVec w) :=
  (rowsumLoop arr.length arr)[0]?

/-- `_to_int` inside `_rows_to_ints` (`/repo/qldpc/codes/distance.py:186-188`):
`(bits << arange(len - 1, -1, -1)).sum()`, with 64-bit wrap-around. -/
def toInt (bits : List Bool) : BitVec 64 :=
  (bits.zipIdx.map fun p => (BitVec.ofNat 64 p.1.toNat) <<< (bits.length - 1 - p.2)).foldl
    (· + ·) 0#64

/-- `bits[i : i + tsize] for i in range(0, len(bits), tsize)`
(`/repo/qldpc/codes/distance.py:190-192`). -/
def slices (tsize : ℕ) (bits : List Bool) : List (List Bool) :=
  (List.range ((bits.length + tsize - 1) / tsize)).map fun k => (bits.drop (k * tsize)).take tsize

/-- One row of `_rows_to_ints` (`/repo/qldpc/codes/distance.py:175-194`) with `tsize = 64`. -/
def rowToInts (bits : List Bool) : List (BitVec 64) := (slices 64 bits).map toInt

/-- One row of `_riffle` (`/repo/qldpc/codes/distance.py:197-201`):
`reshape(2, n/2).transpose().reshape(n)`, i.e. output bit `j` is input bit
`(j % 2) * (n/2) + j / 2`.  The assertion on an even length is `none` otherwise. -/
def riffle (bits : List Bool) : Option (List Bool) :=
  if bits.length % 2 = 0 then
    some ((List.range bits.length).map fun j =>
      bits.getD ((j % 2) * (bits.length / 2) + j / 2) false)
  else none

/-- Python slice `l[:k]` with a possibly negative `k` (as used at
`/repo/qldpc/codes/distance.py:261`). -/
def pyTake {α : Type} (l : List α) (k : ℤ) : List α :=
  if 0 ≤ k then l.take k.toNat else l.take (l.length - (-k).toNat)

/-- Python slice `l[k:]` with a possibly negative `k` (as used at
`/repo/qldpc/codes/distance.py:271`). -/
def pyDrop {α : Type} (l : List α) (k : ℤ) : List α :=
  if 0 ≤ k then l.drop k.toNat else l.drop (l.length - (-k).toNat)

/-- `a ^ b` on packed rows. -/
def xorRow (a b : List (BitVec 64)) : List (BitVec 64) := List.zipWith (· ^^^ ·) a b

/-- `array = np.vstack([array, array ^ op])` for successive `op`
(`/repo/qldpc/codes/distance.py:260-269`). -/
def stackOps (array : List (List (BitVec 64))) (ops : List (List (BitVec 64))) :
    List (List (BitVec 64)) :=
  ops.foldl (fun array op => array ++ array.map (xorRow · op)) array

/-- `_inplace_rowsum(weight_func(array)).min(initial=min_weight)`
(`/repo/qldpc/codes/distance.py:279-281, 285-286, 290-291`).  `wb` is the width of the integers in
which `weight_func` returns its result: `64`, except that numpy's own `bitwise_count` without an
`out` argument returns 8-bit integers.  An empty row is an error (`none`). -/
def blockMin (kernel : BitVec 64 → BitVec 64) (wb : ℕ) (array : List (List (BitVec 64)))
    (init : ℕ) : Option ℕ :=
  array.foldlM (fun m row =>
    (inplaceRowsum (row.map fun x => (kernel x).setWidth wb)).map fun s => min m s.toNat) init

/-- State of the search: the operational array and the running minimum. -/
abbrev SearchState := List (List (BitVec 64)) × ℕ

/-- `arrayf ^= op; weights = ...; min_weight = ...` (`/repo/qldpc/codes/distance.py:283-286` and
`288-291`). -/
def searchStep (kernel : BitVec 64 → BitVec 64) (op : List (BitVec 64)) (st : SearchState) :
    Option SearchState :=
  let array := st.1.map (xorRow · op)
  (blockMin kernel 64 array st.2).map fun m => (array, m)

/-- The inner loop over stabilizers (`/repo/qldpc/codes/distance.py:288-291`).  Indexing out of range
would raise (`none`). -/
def stabLoop (kernel : BitVec 64 → BitVec 64) (stabs : List (List (BitVec 64)))
    (st : SearchState) : Option SearchState :=
  (List.range' 1 (2 ^ stabs.length - 1)).foldlM (fun st si =>
    (stabs[countTrailingZeros si]?).bind fun op => searchStep kernel op st) st

/-- The outer loop over logical operators (`/repo/qldpc/codes/distance.py:283-291`). -/
def logicalLoop (kernel : BitVec 64 → BitVec 64) (logicals stabs : List (List (BitVec 64)))
    (st : SearchState) : Option SearchState :=
  (List.range' 1 (2 ^ logicals.length - 1)).foldlM (fun st li =>
    (logicals[countTrailingZeros li]?).bind fun op =>
      (searchStep kernel op st).bind (stabLoop kernel stabs)) st

/-- The part of `get_distance_quantum` after packing (`/repo/qldpc/codes/distance.py:246-293`).
`words` is `int_logical_ops.shape[-1]`, `wb` the integer width of the first weight computation (see
`blockMin`). -/
def searchPacked (kernel : BitVec 64 → BitVec 64) (wb numBits words : ℕ) (blockSize : ℤ)
    (logicals stabs : List (List (BitVec 64))) : Option ℕ :=
  let numStabs := stabs.length
  let nv : ℤ := min (blockSize + 1 - words) (logicals.length + stabs.length : ℤ)
  let array := stackOps [List.replicate words 0#64] (pyTake stabs nv)
  let (array, logicals) :=
    if nv > numStabs then
      (stackOps array (pyTake logicals (nv - numStabs)), pyDrop logicals (nv - numStabs))
    else (array, logicals)
  let stabs := pyDrop stabs nv
  (blockMin kernel wb (array.drop (2 ^ numStabs)) numBits).bind fun m =>
    (logicalLoop kernel logicals stabs (array, m)).map Prod.snd

/-- `get_distance_quantum` (`/repo/qldpc/codes/distance.py:219-293`) on operators given as bit strings
of length `numBits`.  `wb` is the width of the first weight computation (64 for the pure-numpy and
numba kernels, 8 for `np.bitwise_count`). -/
def getDistanceQuantum (wb numBits : ℕ) (blockSize : ℤ) (homogeneous : Bool)
    (logicalOps stabilizers : List (List Bool)) : Option ℕ :=
  let words := (numBits + 63) / 64
  if homogeneous then
    searchPacked hammingKernel wb numBits words blockSize
      (logicalOps.map rowToInts) (stabilizers.map rowToInts)
  else
    (logicalOps.mapM riffle).bind fun logicalOps =>
      (stabilizers.mapM riffle).bind fun stabilizers =>
        searchPacked symplecticKernel wb numBits words blockSize
          (logicalOps.map rowToInts) (stabilizers.map rowToInts)

/-- `get_distance_classical` (`/repo/qldpc/codes/distance.py:204-216`). -/
def getDistanceClassical (wb numBits : ℕ) (blockSize : ℤ) (generators : List (List Bool)) :
    Option ℕ :=
  getDistanceQuantum wb numBits blockSize true generators []

end QLDPC
