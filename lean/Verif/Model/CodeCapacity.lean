import Verif.Model.Sampling
import Verif.Model.Decoders

/-!
# Sampling errors for logical error rates

`_estimate_decoding_fidelity_and_variance` of `ClassicalCode` (`/repo/qldpc/codes/common.py:664-684`) and of `CSSCode`
(`/repo/qldpc/codes/common.py:2376-2416`), and the construction of the decoders in
`CSSCode.get_logical_error_rate_func` (`/repo/qldpc/codes/common.py:2321-2343`).  The three random functions of numpy that
are used are modelled by the expected value of a function of the list that they return.
-/

namespace QLDPC

/-! ### Random draws -/

section Draws

variable {A : Type}

/-- The expected value of `f(np.random.choice(items, size=k))`: independent draws with equal probabilities. -/
def meanChoice (items : List A) : ℕ → (List A → ℚ) → ℚ
  | 0, f => f []
  | k + 1, f => (items.map fun a => meanChoice items k fun l => f (a :: l)).sum / items.length

/-- The expected value of `f(np.random.choice(items, size=k, p=probs))`: independent draws with given probabilities. -/
def meanWeighted (items : List (A × ℚ)) : ℕ → (List A → ℚ) → ℚ
  | 0, f => f []
  | k + 1, f => (items.map fun a => a.2 * meanWeighted items k fun l => f (a.1 :: l)).sum

/-- The expected value of `f(np.random.choice(pool, size=k, replace=False))` and of `f(random.sample(pool, k))`: each
remaining item is the next one with the same probability. -/
def meanSample [DecidableEq A] : List A → ℕ → (List A → ℚ) → ℚ
  | _, 0, f => f []
  | pool, k + 1, f => (pool.map fun a => meanSample (pool.erase a) k fun l => f (a :: l)).sum / pool.length

/-- The expected value of a function of the results of `k` independent repetitions. -/
def meanRepeat (mean : (A → ℚ) → ℚ) : ℕ → (List A → ℚ) → ℚ
  | 0, f => f []
  | k + 1, f => mean fun a => meanRepeat mean k fun l => f (a :: l)

end Draws

/-- The expected value of a function of the outcomes ("the sample is a failure") of all samples, for a list of error
weights and numbers of samples (the loops in `/repo/qldpc/codes/common.py:649-652`, `667-677` and `2354-2363`, `2388-2412`).
`mean w` is the expected value of a function of the outcome for an error of weight `w`. -/
def meanOutcomes (mean : ℕ → (Bool → ℚ) → ℚ) : List (ℕ × ℕ) → (List (List Bool) → ℚ) → ℚ
  | [], f => f []
  | (w, k) :: rest, f => meanRepeat (mean w) k fun failures => meanOutcomes mean rest fun l => f (failures :: l)

/-- The value of the function that is constructed from given outcomes for the error weights 1, 2, ...
(`/repo/qldpc/codes/common.py:645-661`, `679-681`, and `2349-2374`, `2414-2416`). -/
def rateOfOutcomes (n : ℕ) (maxRate : ℚ) (outcomes : List (List Bool)) (p : ℚ) : Option (ℚ × ℚ) := do
  let fidelities ← outcomes.mapM fidelity
  let variances ← outcomes.mapM fidelityVariance
  logicalErrorRate n maxRate (1 :: fidelities) (0 :: variances) p

variable {F : Type} [Field F] [DecidableEq F] {n : ℕ}

/-- `error = np.zeros(n); error[locs] = vals` (`/repo/qldpc/codes/common.py:671-672`, `2395-2398`). -/
def placeValues {A : Type} [Zero A] (locs : List (Fin n)) (vals : List A) : Fin n → A :=
  (locs.zip vals).foldl (fun e lv => Function.update e lv.1 lv.2) 0

/-- The expected value of a function of the errors that `ClassicalCode` samples for a weight
(`/repo/qldpc/codes/common.py:670-672`); `nonzero` is `range(1, field.order)`. -/
def classicalMean (nonzero : List F) (n w : ℕ) (f : (Fin n → F) → ℚ) : ℚ :=
  meanSample (List.finRange n) w fun locs => meanChoice nonzero w fun vals => f (placeValues locs vals)

/-- Whether a sample of `ClassicalCode` is a failure (`/repo/qldpc/codes/common.py:675-677`). -/
def classicalFails (decoder : (Fin n → F) → Fin n → F) (error : Fin n → F) : Bool := decide (decoder error ≠ 0)

/-- `pauli_bias_zxy` (`/repo/qldpc/codes/common.py:2324-2329`) as the probabilities of 1, 2, 3 in `np.random.choice`
(`/repo/qldpc/codes/common.py:2391`).  The assertion fails unless three numbers are given; `np.random.choice` raises if a
probability is negative or not a number. -/
def pauliBias : Option (List ℚ) → Option (List (ℕ × ℚ))
  | none => some [(1, 1 / 3), (2, 1 / 3), (3, 1 / 3)]
  | some [x, y, z] =>
    let s := x + y + z
    if s = 0 ∨ z / s < 0 ∨ x / s < 0 ∨ y / s < 0 then none else some [(1, z / s), (2, x / s), (3, y / s)]
  | some _ => none

/-- `error_locations[(error_paulis % 2).astype(bool)]` (`/repo/qldpc/codes/common.py:2394`). -/
def locsZ (locs : List (Fin n)) (paulis : List ℕ) : List (Fin n) :=
  ((locs.zip paulis).filter fun e => e.2 % 2 ≠ 0).map Prod.fst

/-- `error_locations[error_paulis > 1]` (`/repo/qldpc/codes/common.py:2405`). -/
def locsX (locs : List (Fin n)) (paulis : List ℕ) : List (Fin n) :=
  ((locs.zip paulis).filter fun e => 1 < e.2).map Prod.fst

/-- The expected value of a function of the X-type and Z-type parts of the errors that `CSSCode` samples for a weight
(`/repo/qldpc/codes/common.py:2390-2398`, `2405-2409`).  The code draws the X-type part only if the Z-type part is
decoded; drawing it always does not change expected values. -/
def cssMean (nonzero : List F) (bias : List (ℕ × ℚ)) (n w : ℕ) (f : (Fin n → F) → (Fin n → F) → ℚ) : ℚ :=
  meanSample (List.finRange n) w fun locs => meanWeighted bias w fun paulis =>
    meanChoice nonzero (locsZ locs paulis).length fun valsZ =>
      meanChoice nonzero (locsX locs paulis).length fun valsX =>
        f (placeValues (locsX locs paulis) valsX) (placeValues (locsZ locs paulis) valsZ)

/-- Whether a sample of `CSSCode` is a failure (`/repo/qldpc/codes/common.py:2399-2402`, `2410-2412`). -/
def cssFails (decoderX decoderZ : (Fin n → F) → Fin n → F) (logicalsX logicalsZ : Rows F n) (errorX errorZ : Fin n → F) :
    Bool :=
  if (matVec logicalsX (decoderZ errorZ)).any fun x => x ≠ 0 then true
  else (matVec logicalsZ (decoderX errorX)).any fun x => x ≠ 0

end QLDPC
