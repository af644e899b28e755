import Verif.Model.CssDistance
import Verif.Model.Qudit

/-!
# Gauge operators and exact distance of a general `QuditCode`

`/repo/qldpc/codes/common.py:1216-1241, 1295-1353`.
-/

namespace QLDPC

open Spec

variable {F : Type} [Field F] [DecidableEq F] {n : ℕ}

/-- The brute force part of `get_distance_exact` (`/repo/qldpc/codes/common.py:1306-1322`): for binary
fields `get_distance_quantum(..., homogeneous=False)` with `wb`-bit weights, otherwise the minimum,
starting from the number of qudits, over all words of the codes generated by `L` (except zero) and `S`.
`support_x | support_z` is nonzero where either support is. -/
def pauliProductDistance (wb : ℕ) (els : List F) (L S : Rows F (n + n)) : Option ℕ :=
  if els.length = 2 then
    getDistanceQuantum wb (2 * n) 15 false (L.map fun r => List.ofFn fun i => decide (r i ≠ 0))
      (S.map fun r => List.ofFn fun i => decide (r i ≠ 0))
  else
    some ((((CCode.fromGenerator L).iterWords els true).flatMap fun l =>
      ((CCode.fromGenerator S).iterWords els false).map fun s =>
        (List.finRange n).countP fun i => decide (xPart (l + s) i ≠ 0) || decide (zPart (l + s) i ≠ 0)).foldl
      min n)

namespace QCode

/-- `get_dual_subsystem_code` (`/repo/qldpc/codes/common.py:1238-1241`). -/
def dualSubsystem (c : QCode F n) : Option (QCode F n) :=
  c.getLogicalOps.map fun L => ofMatrix (c.stabilizerOps ++ L) (some (decide (c.dimension ≠ 0)))

/-- `get_gauge_ops()` (`/repo/qldpc/codes/common.py:1216-1236`), without cached operators. -/
def gaugeOps (c : QCode F n) : Option (Rows F (n + n)) :=
  if c.isSub then c.dualSubsystem.bind getLogicalOps else some []

/-- `get_stabilizer_ops(canonicalized=True)` (`/repo/qldpc/codes/common.py:1185-1214`).  The operators of
a subsystem code are canonical already. -/
def stabilizerOpsCanon (c : QCode F n) : Rows F (n + n) :=
  if c.isSub then subsystemStabilizers c.matrix else dropZero (rowReduce c.matrix)

/-- Python objects remember computed logical operators (`/repo/qldpc/codes/common.py:972`). -/
def rememberLogicals (c : QCode F n) (L : Rows F (n + n)) : QCode F n := { c with logicals? := some L }

/-- `get_distance_if_known` (`/repo/qldpc/codes/common.py:1327-1333`): result and object afterwards. -/
def distIfKnown (c : QCode F n) : Option (Option ℕ) × QCode F n :=
  if c.dimension = 0 then (some none, { c with dist? := some none }) else (c.dist?, c)

/-- `get_distance_exact` (`/repo/qldpc/codes/common.py:1295-1325`): result (`none` if it raises) and
object afterwards. -/
def distExact (wb : ℕ) (els : List F) (c : QCode F n) : Option (Option ℕ) × QCode F n :=
  match c.distIfKnown with
  | (some d, c) => (some d, c)
  | (none, c) =>
    match c.getLogicalOps with
    | none => (none, c)
    | some L =>
      match (c.rememberLogicals L).gaugeOps with
      | none => (none, c.rememberLogicals L)
      | some G =>
        match pauliProductDistance wb els L (c.stabilizerOpsCanon ++ G) with
        | none => (none, c.rememberLogicals L)
        | some d => (some (some d), { c.rememberLogicals L with dist? := some (some d) })

/-- `get_distance_bound(num_trials, cutoff)` of a general code (`/repo/qldpc/codes/common.py:1335-1359`):
`get_one_distance_bound` raises `NotImplementedError`, so anything beyond a known distance or an empty
loop fails.  `cutoff = 0` is like no cutoff. -/
def distBound (c : QCode F n) (numTrials : ℕ) (cutoff : Option ℕ) : Option (Option ℕ) × QCode F n :=
  match c.distIfKnown with
  | (some d, c) => (some d, c)
  | (none, c) =>
    if numTrials = 0 then (some (some n), c) else
    match cutoff with
    | none => (none, c)
    | some k => if k ≠ 0 ∧ n ≤ k then (some (some n), c) else (none, c)

/-- `get_distance(bound=...)` (`/repo/qldpc/codes/common.py:1282-1293`). -/
def distance (wb : ℕ) (els : List F) (c : QCode F n) (bound : Option ℕ) (cutoff : Option ℕ := none) :
    Option (Option ℕ) × QCode F n :=
  match bound with
  | none => c.distExact wb els
  | some 0 => c.distExact wb els
  | some (t + 1) => c.distBound (t + 1) cutoff

end QCode

end QLDPC
