import Verif.Model.Popcount
import Verif.Model.Distance
import Mathlib.Logic.Equiv.Fin.Basic
import Mathlib.Logic.Function.Basic
import Mathlib.Data.Nat.Notation

/-!
# Buffers of the weight kernels of `/repo/qldpc/codes/distance.py`, and which kernel is chosen

Arrays of `N` 64-bit words live in a heap, so that a kernel that writes to one array can destroy another one.
-/

namespace QLDPC

/-- Arrays by address; the addresses from `next` on are not in use. -/
structure WordHeap (N : ℕ) where
  cell : ℕ → Fin N → BitVec 64
  next : ℕ

namespace WordHeap

variable {N : ℕ}

/-- An in-place operation (`out &= ...`) on the array at `a`. -/
def write (h : WordHeap N) (a : ℕ) (f : Fin N → BitVec 64) : WordHeap N :=
  { h with cell := Function.update h.cell a f }

/-- A numpy function with an argument `out=`: the result is written to the given array, or to a new one.  Returns the
address of the result. -/
def ufuncOut (h : WordHeap N) (out : Option ℕ) (f : Fin N → BitVec 64) : WordHeap N × ℕ :=
  match out with
  | some a => (h.write a f, a)
  | none => ({ cell := Function.update h.cell h.next f, next := h.next + 1 }, h.next)

/-- The common tail of the two buffered kernels (`/repo/qldpc/codes/distance.py:28-40` and `57-68`). -/
def sumFieldsBuffered (h : WordHeap N) (buf : Option ℕ) (out : ℕ) : WordHeap N × ℕ :=
  let (h, b) := h.ufuncOut buf fun i => h.cell out i >>> 2
  let h := h.write b fun i => h.cell b i &&& mask33
  let h := h.write out fun i => h.cell out i &&& mask33
  let h := h.write out fun i => h.cell out i + h.cell b i
  let (h, b) := h.ufuncOut (some b) fun i => h.cell out i >>> 4
  let h := h.write out fun i => h.cell out i + h.cell b i
  let h := h.write out fun i => h.cell out i &&& mask0F
  let h := h.write out fun i => h.cell out i * mask01
  let h := h.write out fun i => h.cell out i >>> 56
  (h, out)

/-- `_hamming_weight` (`/repo/qldpc/codes/distance.py:14-40`). -/
def hammingBuffered (h : WordHeap N) (arr : ℕ) (buf out : Option ℕ) : WordHeap N × ℕ :=
  let (h, o) := h.ufuncOut out fun i => h.cell arr i >>> 1
  let h := h.write o fun i => h.cell o i &&& mask55
  let (h, o) := h.ufuncOut (some o) fun i => h.cell arr i - h.cell o i
  h.sumFieldsBuffered buf o

/-- `_symplectic_weight` (`/repo/qldpc/codes/distance.py:43-68`). -/
def symplecticBuffered (h : WordHeap N) (arr : ℕ) (buf out : Option ℕ) : WordHeap N × ℕ :=
  let (h, o) := h.ufuncOut out fun i => h.cell arr i >>> 1
  let h := h.write o fun i => h.cell o i ||| h.cell arr i
  let h := h.write o fun i => h.cell o i &&& mask55
  h.sumFieldsBuffered buf o

/-- The kernel that uses `np.bitwise_count` (`/repo/qldpc/codes/distance.py:139-148`); `count` is that function on one
word. -/
def symplecticCounted (count : BitVec 64 → BitVec 64) (h : WordHeap N) (arr : ℕ) (buf out : Option ℕ) : WordHeap N × ℕ :=
  let (h, b) := h.ufuncOut buf fun i => h.cell arr i >>> 1
  let h := h.write b fun i => h.cell b i ||| h.cell arr i
  let h := h.write b fun i => h.cell b i &&& mask55
  h.ufuncOut out fun i => count (h.cell b i)

end WordHeap

/-- A weight function: whether it has a parameter for a buffer, what it does, and the width of the integers in a new
array that it returns. -/
structure WeightFn (N : ℕ) where
  takesBuf : Bool
  run : WordHeap N → ℕ → Option ℕ → Option ℕ → WordHeap N × ℕ
  freshWidth : ℕ

/-- A numpy function of one array, given by its values on single words. -/
def WeightFn.ufunc {N : ℕ} (kernel : BitVec 64 → BitVec 64) (freshWidth : ℕ) : WeightFn N where
  takesBuf := false
  run h arr _ out := h.ufuncOut out fun i => kernel (h.cell arr i)
  freshWidth := freshWidth

/-- `_get_hamming_weight_fn` (`/repo/qldpc/codes/distance.py:111-124`): the function and the number of buffers.  `hasCount`:
numpy has a function `bitwise_count`, which is `count` on one word.  `numba.vectorize` applies
`_hamming_weight_single` (lines 71-88) to every word. -/
def hammingWeightFn {N : ℕ} (count : BitVec 64 → BitVec 64) (useNumba hasCount : Bool) : WeightFn N × ℕ :=
  if useNumba then (.ufunc hammingKernel 64, 0)
  else if hasCount then (.ufunc count 8, 0)
  else (⟨true, WordHeap.hammingBuffered, 64⟩, 1)

/-- `_get_symplectic_weight_fn` (`/repo/qldpc/codes/distance.py:127-152`). -/
def symplecticWeightFn {N : ℕ} (count : BitVec 64 → BitVec 64) (useNumba hasCount : Bool) : WeightFn N × ℕ :=
  if useNumba then (.ufunc symplecticKernel 64, 0)
  else if hasCount then (⟨true, WordHeap.symplecticCounted count, 8⟩, 1)
  else (⟨true, WordHeap.symplecticBuffered, 64⟩, 1)

/-- `weight_func(arr, *bufs, out=out)` (`/repo/qldpc/codes/distance.py:280, 285, 290`): the heap, the address of the result
and the width of its integers.  The second positional argument of a numpy function is `out`; to give it twice raises, and
so do too many arguments. -/
def callWeight {N : ℕ} (fn : WeightFn N) (h : WordHeap N) (arr : ℕ) (bufs : List ℕ) (out : Option ℕ) :
    Option (WordHeap N × ℕ × ℕ) :=
  match bufs with
  | [] => let r := fn.run h arr none out; some (r.1, r.2, if out.isSome then 64 else fn.freshWidth)
  | [b] =>
    if fn.takesBuf then
      let r := fn.run h arr (some b) out
      some (r.1, r.2, if out.isSome then 64 else fn.freshWidth)
    else match out with
      | some _ => none
      | none => let r := fn.run h arr none (some b); some (r.1, r.2, 64)
  | _ => none

/-- The weights that the search sees (`/repo/qldpc/codes/distance.py:283-291`): the operators `ops` are added to the array
one after the other, and the weights are computed each time.  `rowsum` is what `_inplace_rowsum` (lines 160-172) leaves in
the array of weights. -/
def searchWeights {N : ℕ} (fn : WeightFn N) (arr : ℕ) (bufs : List ℕ) (out : ℕ) (rowsum : (Fin N → BitVec 64) → Fin N → BitVec 64) :
    List (Fin N → BitVec 64) → WordHeap N → Option (List (Fin N → BitVec 64))
  | [], _ => some []
  | op :: ops, h =>
    match callWeight fn (h.write arr fun i => h.cell arr i ^^^ op i) arr bufs (some out) with
    | none => none
    | some (h, o, _) => (searchWeights fn arr bufs out rowsum ops (h.write o (rowsum (h.cell o)))).map (h.cell o :: ·)

/-- The rows of an array with `R` rows of `W` words. -/
def wordRows {R W : ℕ} (a : Fin (R * W) → BitVec 64) : List (List (BitVec 64)) :=
  List.ofFn fun r : Fin R => List.ofFn fun c : Fin W => a (finProdFinEquiv (r, c))

/-- One round of the search with its arrays (`/repo/qldpc/codes/distance.py:284-286, 289-291`): add an operator to each row in
place, compute the weights, and take the minimum of their sums over the rows.  `rowsum` is what `_inplace_rowsum` leaves in the
array of weights.  The state is the heap and the running minimum. -/
def heapStep {R W : ℕ} (fn : WeightFn (R * W)) (arr : ℕ) (bufs : List ℕ) (out : ℕ)
    (rowsum : (Fin (R * W) → BitVec 64) → Fin (R * W) → BitVec 64) (op : Fin W → BitVec 64) (st : WordHeap (R * W) × ℕ) :
    Option (WordHeap (R * W) × ℕ) :=
  match callWeight fn (st.1.write arr fun i => st.1.cell arr i ^^^ op (finProdFinEquiv.symm i).2) arr bufs (some out) with
  | none => none
  | some (h, o, _) =>
    ((wordRows (h.cell o)).foldlM (fun m row => (inplaceRowsum row).map fun s => min m s.toNat) st.2).map fun m =>
      (h.write o (rowsum (h.cell o)), m)

/-- The inner loop with its arrays (`/repo/qldpc/codes/distance.py:288-291`). -/
def heapStabLoop {R W : ℕ} (fn : WeightFn (R * W)) (arr : ℕ) (bufs : List ℕ) (out : ℕ)
    (rowsum : (Fin (R * W) → BitVec 64) → Fin (R * W) → BitVec 64) (stabs : List (Fin W → BitVec 64))
    (st : WordHeap (R * W) × ℕ) : Option (WordHeap (R * W) × ℕ) :=
  (List.range' 1 (2 ^ stabs.length - 1)).foldlM (fun st si =>
    (stabs[countTrailingZeros si]?).bind fun op => heapStep fn arr bufs out rowsum op st) st

/-- The outer loop with its arrays (`/repo/qldpc/codes/distance.py:283-291`). -/
def heapLogicalLoop {R W : ℕ} (fn : WeightFn (R * W)) (arr : ℕ) (bufs : List ℕ) (out : ℕ)
    (rowsum : (Fin (R * W) → BitVec 64) → Fin (R * W) → BitVec 64) (logicals stabs : List (Fin W → BitVec 64))
    (st : WordHeap (R * W) × ℕ) : Option (WordHeap (R * W) × ℕ) :=
  (List.range' 1 (2 ^ logicals.length - 1)).foldlM (fun st li =>
    (logicals[countTrailingZeros li]?).bind fun op =>
      (heapStep fn arr bufs out rowsum op st).bind (heapStabLoop fn arr bufs out rowsum stabs)) st

end QLDPC
