import Verif.Model.CodeCapacity

/-!
# Logical error rates from given samples

`_estimate_decoding_fidelity_and_variance` of `ClassicalCode` (`/repo/qldpc/codes/common.py:666-684`) and of `CSSCode`
(`/repo/qldpc/codes/common.py:2376-2416`) for given values of the random functions.
-/

namespace QLDPC

variable {F : Type} [Field F] [DecidableEq F] {n : ℕ}

/-- Whether each of the samples of a weight is a failure (`/repo/qldpc/codes/common.py:670-680`).  A sample consists of the
values of `random.sample` and `np.random.choice`. -/
def classicalOutcomes (decoder : (Fin n → F) → Fin n → F) (samples : List (List (Fin n) × List F)) : List Bool :=
  samples.map fun s => classicalFails decoder (placeValues s.1 s.2)

/-- The values of the random functions for one sample of a CSS code: locations, Paulis, and values of the Z-type and X-type
parts (`/repo/qldpc/codes/common.py:2390-2398`, `2405-2409`). -/
structure CssSample (F : Type) (n : ℕ) where
  locs : List (Fin n)
  paulis : List ℕ
  valsZ : List F
  valsX : List F

/-- Whether each of the samples of a weight is a failure (`/repo/qldpc/codes/common.py:2388-2412`). -/
def cssOutcomes (decoderX decoderZ : (Fin n → F) → Fin n → F) (logicalsX logicalsZ : Rows F n) (samples : List (CssSample F n)) :
    List Bool :=
  samples.map fun s => cssFails decoderX decoderZ logicalsX logicalsZ (placeValues (locsX s.locs s.paulis) s.valsX)
    (placeValues (locsZ s.locs s.paulis) s.valsZ)

/-- The value of the function that `ClassicalCode.get_logical_error_rate_func` returns (`/repo/qldpc/codes/common.py:638-664`);
`samples` are those of the weights 1, 2, ... -/
def classicalRate (H : Rows F n) (decoder : List F → Fin n → F) (maxRate : ℚ) (samples : List (List (List (Fin n) × List F)))
    (p : ℚ) : Option (ℚ × ℚ) :=
  rateOfOutcomes n maxRate (samples.map (classicalOutcomes (directDecode decoder H))) p

/-- The value of the function that `CSSCode.get_logical_error_rate_func` returns (`/repo/qldpc/codes/common.py:2331-2374`).
`SX` and `SZ` are the stabilizer operators, `decoderX` decodes the syndromes of `SZ`. -/
def cssRate (SX SZ LX LZ : Rows F n) (decoderX decoderZ : List F → Fin n → F) (maxRate : ℚ)
    (samples : List (List (CssSample F n))) (p : ℚ) : Option (ℚ × ℚ) :=
  rateOfOutcomes n maxRate (samples.map (cssOutcomes (directDecode decoderX SZ) (directDecode decoderZ SX) LX LZ)) p

end QLDPC
