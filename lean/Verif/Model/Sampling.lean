import Mathlib.Data.Nat.Choose.Basic
import Mathlib.Data.Rat.Floor
import Mathlib.Algebra.Field.Rat
import Mathlib.Algebra.BigOperators.Group.List.Basic
import Mathlib.Algebra.Order.Ring.Rat

/-!
# Index slices, sample allocation, logical error rates

`_join_slices`, `_get_sample_allocation`, `_get_error_probs_by_weight`
(`/repo/qldpc/codes/common.py:2419-2495`), `get_logical_error_rate_func` and
`_estimate_decoding_fidelity_and_variance` of `ClassicalCode` (`/repo/qldpc/codes/common.py:609-684`).
Floating point numbers are replaced by rational numbers: rounding errors are not modelled.
-/

namespace QLDPC

/-! ### Slices -/

/-- The argument of `_join_slices`: `slice(start, stop, step)` or a list of indices. -/
inductive SliceArg where
  | slice (start : Option ℤ) (stop : ℤ) (step : Option ℤ)
  | list (l : List ℤ)

/-- `np.arange(start, stop, step)` for a nonzero step. -/
def arange (start stop step : ℤ) : List ℤ :=
  let len := if 0 < step then (stop - start + step - 1) / step else (start - stop - step - 1) / (-step)
  (List.range len.toNat).map fun k : ℕ => start + k * step

/-- `x or default` for integers. -/
def orInt (x : Option ℤ) (default : ℤ) : ℤ := match x with | some 0 => default | some z => z | none => default

/-- One sector (`/repo/qldpc/codes/common.py:2423-2425`). -/
def sectorIndices : SliceArg → List ℤ
  | .slice start stop step => arange (orInt start 0) stop (orInt step 1)
  | .list l => l

/-- `_join_slices(*sectors)` (`/repo/qldpc/codes/common.py:2419-2428`). -/
def joinSlices (sectors : List SliceArg) : List ℤ := (sectors.map sectorIndices).flatten

/-! ### Sample allocation -/

/-- `_get_error_probs_by_weight(n, p, max_weight)` (`/repo/qldpc/codes/common.py:2464-2495`), in exact
arithmetic; `max_weight or block_length`. -/
def errorProbs (n : ℕ) (p : ℚ) (maxWeight : ℕ) : List ℚ :=
  let w := if maxWeight = 0 then n else maxWeight
  (List.range (w + 1)).map fun k => (n.choose k : ℚ) * p ^ k * (1 - p) ^ (n - k)

/-- `probs.max()`. -/
def listMax (l : List ℚ) : ℚ := l.foldl max (l.headD 0)

/-- `np.argmax(probs)`: the first index of the maximum. -/
def argmax (l : List ℚ) : ℕ := l.findIdx fun x => decide (x = listMax l)

/-- Lines 2449-2452 of `/repo/qldpc/codes/common.py`: no samples for weight 0, flat to the left of the peak,
sum one. -/
def flattenProbs (probs : List ℚ) : List ℚ :=
  let probs := probs.set 0 0
  let top := argmax probs
  let probs := probs.zipIdx.map fun e => if 1 ≤ e.2 ∧ e.2 < top then listMax probs else e.1
  probs.map fun x => x / probs.sum

/-- `np.round`: to the nearest integer, ties to even. -/
def roundEven (x : ℚ) : ℤ :=
  let r := x - ⌊x⌋
  if r < 1 / 2 then ⌊x⌋ else if 1 / 2 < r then ⌊x⌋ + 1 else if ⌊x⌋ % 2 = 0 then ⌊x⌋ else ⌊x⌋ + 1

/-- `np.round(probs * num_samples)`. -/
def roundedAllocation (probs : List ℚ) (N : ℕ) : List ℤ := probs.map fun x => roundEven (x * N)

/-- The loop of lines 2456-2457 of `/repo/qldpc/codes/common.py`; `none` after `fuel` rounds. -/
def allocationLoop (probs : List ℚ) : (fuel N : ℕ) → Option (List ℤ)
  | 0, _ => none
  | fuel + 1, N =>
    if (roundedAllocation probs N).sum < N then allocationLoop probs fuel (N + 1)
    else some (roundedAllocation probs N)

/-- `sample_allocation[: nonzero[-1] + 1]` (`/repo/qldpc/codes/common.py:2460-2461`); an `IndexError` if all
are zero. -/
def dropTrailingZeros (l : List ℤ) : Option (List ℤ) :=
  if l.all fun x => x = 0 then none else some (l.reverse.dropWhile fun x => x = 0).reverse

/-- `_get_sample_allocation(num_samples, block_length, max_error_rate)`
(`/repo/qldpc/codes/common.py:2439-2461`), with `fuel` rounds of the loop. -/
def sampleAllocation (fuel N n : ℕ) (p : ℚ) : Option (List ℤ) :=
  (allocationLoop (flattenProbs (errorProbs n p n)) fuel N).bind dropTrailingZeros

/-! ### Logical error rates -/

/-- `1 - infidelity` of `_estimate_decoding_fidelity_and_variance`
(`/repo/qldpc/codes/common.py:666-684`): one flag for each sample, true for a failure; `none` for a division
by zero. -/
def fidelity (failures : List Bool) : Option ℚ :=
  if failures = [] then none else some (1 - (failures.countP id : ℚ) / failures.length)

/-- The variance returned with it. -/
def fidelityVariance (failures : List Bool) : Option ℚ :=
  if failures = [] then none else
    let x := (failures.countP id : ℚ) / failures.length
    some (x * (1 - x) / failures.length)

/-- `get_logical_error_rate(error_rate)` (`/repo/qldpc/codes/common.py:652-662`) and the square of the
standard error; `fidelities` are for weights `0, 1, ...`, the first is 1. -/
def logicalErrorRate (n : ℕ) (maxRate : ℚ) (fidelities variances : List ℚ) (p : ℚ) : Option (ℚ × ℚ) :=
  if maxRate < p then none else
    let probs := errorProbs n p (fidelities.length - 1)
    -- `@` of arrays of different lengths raises
    if probs.length ≠ fidelities.length ∨ probs.length ≠ variances.length then none else
    some (1 - (List.zipWith (· * ·) probs fidelities).sum,
      (List.zipWith (fun q v => q ^ 2 * v) probs variances).sum)

end QLDPC
