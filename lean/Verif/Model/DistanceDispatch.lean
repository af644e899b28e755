import Verif.Model.CssDistance
import Verif.Model.QuditDistance
import Verif.Model.Decoders

/-!
# `get_distance` and `get_code_params`: distances to vectors, choice of method, code parameters
-/

namespace QLDPC

open Spec

variable {F : Type} [Field F] [DecidableEq F] {n : ℕ}

/-- The argument `bound` of `get_distance` (`/repo/qldpc/codes/common.py:389-391`, `1291-1293`,
`2001-2003`): the number of trials `int(bound)`, or nothing if `not bound`.  Booleans are the integers 0
and 1; `range` of a negative number is empty. -/
def boundTrials : Option ℤ → Option ℕ
  | none => none
  | some b => if b = 0 then none else some b.toNat

/-- The draws of one call of `get_distance_bound`: random words with the decoder used for each without a
vector, and the decoders used with a vector. -/
structure BoundDraws (F : Type) (n : ℕ) where
  words : List ((Fin n → F) × (Rows F n → List F → Fin n → F)) := []
  decoders : ℕ → Rows F n → List F → Fin n → F

/-- `get_one_distance_bound(vector=...)` (`/repo/qldpc/codes/common.py:475-482`). -/
def oneVectorBound (decode : Rows F n → List F → Fin n → F) (H : Rows F n) (v : Fin n → F) : ℕ :=
  countNonzero (decode H (matVec H v))

/-- The loop of `get_distance_bound` with a vector (`/repo/qldpc/codes/common.py:450-456`); trial number
`t` uses decoder `t`. -/
def vectorLoop (H : Rows F n) (v : Fin n → F) (cutoff : Option ℕ)
    (decoders : ℕ → Rows F n → List F → Fin n → F) : ℕ → ℕ → ℕ → ℕ
  | 0, _, minBound => minBound
  | trials + 1, t, minBound =>
    if cutoffReached cutoff minBound then minBound
    else vectorLoop H v cutoff decoders trials (t + 1) (min minBound (oneVectorBound (decoders t) H v))

namespace CCode

/-- `get_distance_bound` (`/repo/qldpc/codes/common.py:431-456`): result and object afterwards. -/
def distanceBoundV (c : CCode F n) (numTrials : ℕ) (cutoff : Option ℕ) (vector : Option (Fin n → F))
    (draws : BoundDraws F n) : Option (Option ℕ) × CCode F n :=
  match vector with
  | none => (c.distanceBound numTrials cutoff draws.words, (c.distanceIfKnown none).2)
  | some v =>
    match c.distanceIfKnown (some v) with
    | (some d, c) => (some d, c)
    | (none, c) => (some (some (vectorLoop c.matrix v cutoff draws.decoders numTrials 0 n)), c)

/-- `get_distance` (`/repo/qldpc/codes/common.py:371-391`). -/
def getDistance (wb : ℕ) (els : List F) (c : CCode F n) (bound : Option ℤ) (cutoff : Option ℕ)
    (vector : Option (Fin n → F)) (draws : BoundDraws F n) : Option (Option ℕ) × CCode F n :=
  match boundTrials bound with
  | none => c.distanceExact wb els vector
  | some t => c.distanceBoundV t cutoff vector draws

/-- `get_code_params` (`/repo/qldpc/codes/common.py:502-520`). -/
def codeParams (wb : ℕ) (els : List F) (c : CCode F n) (bound : Option ℤ) (cutoff : Option ℕ)
    (draws : BoundDraws F n) : Option (ℕ × ℕ × Option ℕ) :=
  match c.getDistance wb els bound cutoff none draws with
  | (none, _) => none
  | (some d, c) => some (n, c.dimension, d)

end CCode

/-- `QuditCode.get_distance` (`/repo/qldpc/codes/common.py:1282-1293`), also for negative bounds. -/
def QCode.getDistance (wb : ℕ) (els : List F) (c : QCode F n) (bound : Option ℤ) (cutoff : Option ℕ) :
    Option (Option ℕ) × QCode F n :=
  match boundTrials bound with
  | none => c.distExact wb els
  | some t => c.distBound t cutoff

/-- `QuditCode.get_code_params` (`/repo/qldpc/codes/common.py:1263-1280`). -/
def QCode.codeParams (wb : ℕ) (els : List F) (c : QCode F n) (bound : Option ℤ) (cutoff : Option ℕ) :
    Option (ℕ × ℕ × Option ℕ) :=
  match c.getDistance wb els bound cutoff with
  | (none, _) => none
  | (some d, c) => some (n, c.dimension, d)

namespace CssCode

/-- `CSSCode.get_distance` (`/repo/qldpc/codes/common.py:1988-2003`).  After trials of `get_distance_bound` the
object also remembers the logical operators, which is left out here. -/
def getDistance (wb : ℕ) (els : List F) (c : CssCode F n) (p : Option PauliXZ) (bound : Option ℤ)
    (cutoff : Option ℕ) (choices : List PauliXZ) (draws : List (Draw F n)) :
    Option (Option ℕ) × CssCode F n :=
  match boundTrials bound with
  | none => c.distExact wb els p
  | some t => (c.distBound p t cutoff choices draws, (c.distIfKnown p).2)

/-- `get_code_params` of a CSS code (`/repo/qldpc/codes/common.py:1263-1280`). -/
def codeParams (wb : ℕ) (els : List F) (c : CssCode F n) (bound : Option ℤ) (cutoff : Option ℕ)
    (choices : List PauliXZ) (draws : List (Draw F n)) : Option (ℕ × ℕ × Option ℕ) :=
  match c.getDistance wb els none bound cutoff choices draws with
  | (none, _) => none
  | (some d, c) => some (n, c.dimension, d)

end CssCode

end QLDPC
