import Verif.Model.CSS
import Verif.Model.Distance

/-!
# CSS code objects: stabilizer, gauge and logical operators by type, distances

`CSSCode` (`/repo/qldpc/codes/common.py:1556-2215`) with its caches.
-/

namespace QLDPC

open Spec

variable {F : Type} [Field F] [DecidableEq F] {n : ℕ}

/-- `PauliXZ` (`/repo/qldpc/objects.py:90-91`). -/
inductive PauliXZ
  | X
  | Z
deriving DecidableEq

/-- `~pauli` on X and Z (`/repo/qldpc/objects.py:50-52`). -/
def PauliXZ.flip : PauliXZ → PauliXZ
  | .X => .Z
  | .Z => .X

/-- State of a `CSSCode` object (`/repo/qldpc/codes/common.py:1573-1602`): check matrices, flags, the
logical operators (X part of the X-type rows, Z part of the Z-type rows) and the known distances, where
`some none` is `nan`. -/
structure CssCode (F : Type) (n : ℕ) where
  hx : Rows F n
  hz : Rows F n
  isSub : Bool
  equalXZ : Bool
  logicals? : Option (Rows F n × Rows F n) := none
  distX? : Option (Option ℕ) := none
  distZ? : Option (Option ℕ) := none
  dist? : Option (Option ℕ) := none

namespace CssCode

/-- `CSSCode(code_x, code_z, is_subsystem_code=..., promise_equal_distance_xz=...)`
(`/repo/qldpc/codes/common.py:1579-1602`). -/
def ofMatrices (hx hz : Rows F n) (isSub : Option Bool := none) (promise : Bool := false) :
    CssCode F n :=
  { hx := hx, hz := hz
    isSub := isSub.getD (hx.any fun x => hz.any fun z => dot x z ≠ 0)
    equalXZ := promise || decide (hx = hz) }

/-- `get_matrix(pauli)` (`/repo/qldpc/codes/common.py:1649-1652`). -/
def matrixOf (c : CssCode F n) : PauliXZ → Rows F n
  | .X => c.hx
  | .Z => c.hz

/-- `dimension` (`/repo/qldpc/codes/common.py:1243-1253`). -/
def dimension (c : CssCode F n) : ℕ :=
  match c.logicals? with
  | some L => L.1.length
  | none => cssDimension c.hx c.hz c.isSub

/-- The value of `get_logical_ops()` (`/repo/qldpc/codes/common.py:1755-1797`), `none` if it raises. -/
def logicals (c : CssCode F n) : Option (Rows F n × Rows F n) :=
  match c.logicals? with
  | some L => some L
  | none => cssLogicals c.hx c.hz c.isSub

/-- The object after `get_logical_ops()`, which stores the result
(`/repo/qldpc/codes/common.py:1796`). -/
def withLogicals (c : CssCode F n) : CssCode F n :=
  match c.logicals with
  | some L => { c with logicals? := some L }
  | none => c

/-- Component for one Pauli type (`/repo/qldpc/codes/common.py:1739-1753`). -/
def pick (p : PauliXZ) (L : Rows F n × Rows F n) : Rows F n :=
  match p with
  | .X => L.1
  | .Z => L.2

/-- The full matrix of stabilizer generators (`/repo/qldpc/codes/common.py:1948-1964`). -/
def stabMatrix (c : CssCode F n) : Rows F (n + n) :=
  if c.isSub then blockDiag2 (cssStabs c.hx c.hz) (cssStabs c.hz c.hx) else blockDiag2 c.hx c.hz

/-- `get_stabilizer_ops(pauli)` (`/repo/qldpc/codes/common.py:1196-1199`, `1962-1967`): rows are sorted
by the position of their first nonzero entry; `canonicalized=True` has no effect when `pauli` is
given. -/
def stabOps (c : CssCode F n) (p : PauliXZ) : Rows F n :=
  let rows := (List.zip (firstNonzeroCols c.stabMatrix) c.stabMatrix).filter fun r =>
    match p with
    | .X => r.1.val < n
    | .Z => ¬ r.1.val < n
  rows.map fun r =>
    match p with
    | .X => xPart r.2
    | .Z => zPart r.2

/-- `get_dual_subsystem_code` (`/repo/qldpc/codes/common.py:1982-1986`). -/
def dualSubsystem (c : CssCode F n) : Option (CssCode F n) :=
  c.logicals.map fun L =>
    ofMatrices (c.stabOps .X ++ L.1) (c.stabOps .Z ++ L.2) (some (decide (c.dimension ≠ 0)))

/-- `get_gauge_ops()` (`/repo/qldpc/codes/common.py:1216-1236`, `1969-1980`). -/
def gaugeOps (c : CssCode F n) : Option (Rows F n × Rows F n) :=
  if c.isSub then c.dualSubsystem.bind fun d => d.logicals else some ([], [])

end CssCode

/-- The brute force minimum at `/repo/qldpc/codes/common.py:2022-2034`. -/
def productDistance (wb : ℕ) (els : List F) (L S : Rows F n) : Option ℕ :=
  if els.length = 2 then
    getDistanceQuantum wb n 15 true (L.map fun r => List.ofFn fun i => decide (r i ≠ 0))
      (S.map fun r => List.ofFn fun i => decide (r i ≠ 0))
  else
    pyMin (((CCode.fromGenerator L).iterWords els true).flatMap fun l =>
      ((CCode.fromGenerator S).iterWords els false).map fun s => countNonzero (l + s))

namespace CssCode

/-- `get_distance_if_known` (`/repo/qldpc/codes/common.py:2045-2057`): result and object afterwards. -/
def distIfKnown (c : CssCode F n) (p : Option PauliXZ) : Option (Option ℕ) × CssCode F n :=
  let c := if c.dimension = 0 then
      { c with dist? := some none, distX? := some none, distZ? := some none } else c
  (match p with
    | some .X => c.distX?
    | some .Z => c.distZ?
    | none => c.dist?, c)

/-- Python `min(a, b)` of two numbers, `none` being `nan`: `a` unless `b < a`. -/
def pyMin2 : Option ℕ → Option ℕ → Option ℕ
  | none, _ => none
  | some a, none => some a
  | some a, some b => some (min a b)

/-- Keep a computed distance in the object (`/repo/qldpc/codes/common.py:2036-2043`). -/
def storeDist (c : CssCode F n) (p : PauliXZ) (d : ℕ) : CssCode F n :=
  let c := if p = .X ∨ c.equalXZ then { c with distX? := some (some d) } else c
  let c := if p = .Z ∨ c.equalXZ then { c with distZ? := some (some d) } else c
  match c.distX?, c.distZ? with
  | some dx, some dz => { c with dist? := some (pyMin2 dx dz) }
  | _, _ => c

/-- `get_distance_exact(pauli)` for one type (`/repo/qldpc/codes/common.py:2010-2043`): result (`none` =
raises, `some none` = `nan`) and object afterwards. -/
def distExactOne (wb : ℕ) (els : List F) (c : CssCode F n) (p : PauliXZ) :
    Option (Option ℕ) × CssCode F n :=
  match c.distIfKnown (some p) with
  | (some d, c) => (some d, c)
  | (none, c) =>
    match c.logicals with
    | none => (none, c)
    | some L =>
      let c := c.withLogicals
      match c.gaugeOps with
      | none => (none, c)
      | some G =>
        match productDistance wb els (pick p L) (c.stabOps p ++ pick p G) with
        | none => (none, c)
        | some d => (some (some d), c.storeDist p d)

/-- `get_distance_exact(pauli)` (`/repo/qldpc/codes/common.py:2005-2043`). -/
def distExact (wb : ℕ) (els : List F) (c : CssCode F n) (p : Option PauliXZ) :
    Option (Option ℕ) × CssCode F n :=
  match p with
  | some p => c.distExactOne wb els p
  | none =>
    match c.distIfKnown none with
    | (some d, c) => (some d, c)
    | (none, c) =>
      match c.distExactOne wb els .X with
      | (none, c) => (none, c)
      | (some dx, c) =>
        match c.distExactOne wb els .Z with
        | (none, c) => (none, c)
        | (some dz, c) => (some (pyMin2 dx dz), c)

/-- `get_random_logical_op(pauli, ensure_nontrivial=True)` (`/repo/qldpc/codes/common.py:2153-2172`)
for the drawn coefficients `coeffs`, one per logical operator and stabilizer; `none` if the draw is
rejected by `satisfy` or has the wrong length. -/
def randomLogical (c : CssCode F n) (p : PauliXZ) (nontrivial : Bool) (coeffs : List F) :
    Option (Fin n → F) :=
  c.logicals.bind fun L =>
    let ops := pick p L ++ c.stabOps p
    if coeffs.length = ops.length ∧ (nontrivial → (coeffs.take c.dimension).any fun x => x ≠ 0) then
      some (vecMat coeffs ops)
    else none

/-- One random draw: the type chosen if the caller gave none, the coefficients of the random operator,
and the decoder. -/
structure Draw (F : Type) (n : ℕ) where
  coeffs : List F
  decode : Rows F n → List F → Fin n → F

/-- The loop of `get_one_distance_bound` (`/repo/qldpc/codes/common.py:2124-2151`) for type `p`; a
rejected draw is drawn again.  `none`: the stream ends before a valid candidate is found. -/
def oneBound (c : CssCode F n) (p : PauliXZ) : List (Draw F n) → Option (ℕ × List (Draw F n))
  | [] => none
  | r :: draws =>
    match c.randomLogical p.flip true r.coeffs with
    | none => oneBound c p draws
    | some word =>
      let H := c.matrixOf p.flip
      match boundAttempt H word (r.decode (H ++ [word]) (List.replicate H.length 0 ++ [1])) with
      | some w => some (w, draws)
      | none => oneBound c p draws

/-- The loop of `get_distance_bound` (`/repo/qldpc/codes/common.py:2078-2084`); `choices` are the types
picked at random when the caller gives no type. -/
def boundLoop (c : CssCode F n) (p : Option PauliXZ) (cutoff : Option ℕ) :
    List PauliXZ → ℕ → ℕ → List (Draw F n) → Option ℕ
  | _, 0, minBound, _ => some minBound
  | choices, trials + 1, minBound, draws =>
    if cutoffReached cutoff minBound then some minBound
    else
      match c.oneBound (p.getD (choices.headD .X)) draws with
      | none => none
      | some (w, draws) => boundLoop c p cutoff choices.tail trials (min minBound w) draws

/-- `get_distance_bound` (`/repo/qldpc/codes/common.py:2059-2084`). -/
def distBound (c : CssCode F n) (p : Option PauliXZ) (numTrials : ℕ) (cutoff : Option ℕ)
    (choices : List PauliXZ) (draws : List (Draw F n)) : Option (Option ℕ) :=
  match (c.distIfKnown p).1 with
  | some d => some d
  | none => (c.boundLoop p cutoff choices numTrials n draws).map some

/-- The loop of `reduce_logical_op` (`/repo/qldpc/codes/common.py:2194-2200`): the first decoder answer
with the right syndrome. -/
def reduceLoop (E : Rows F n) (syndrome : List F) :
    List (Rows F n → List F → Fin n → F) → Option (Fin n → F)
  | [] => none
  | decode :: l =>
    let v := decode E syndrome
    if E.map (fun r => dot r v) = syndrome then some v else reduceLoop E syndrome l

/-- `reduce_logical_op` (`/repo/qldpc/codes/common.py:2174-2205`); `none` if the assertion on the index
fails, no logical operators can be computed, or the decoder never succeeds. -/
def reduceLogicalOp (c : CssCode F n) (p : PauliXZ) (i : ℕ)
    (decoders : List (Rows F n → List F → Fin n → F)) : Option (CssCode F n) :=
  if i < c.dimension then
    c.logicals.bind fun L =>
      let H := c.matrixOf p.flip
      let E := H ++ pick p.flip L
      let syndrome := (List.range (H.length + c.dimension)).map fun j =>
        if j = H.length + i then 1 else 0
      (reduceLoop E syndrome decoders).map fun v =>
        { c with logicals? := some (match p with
            | .X => (L.1.set i v, L.2)
            | .Z => (L.1, L.2.set i v)) }
  else none

/-- The loop of `reduce_logical_ops` for one type (`/repo/qldpc/codes/common.py:2213-2215`), with the
decoder answers of each call. -/
def reduceFrom (p : PauliXZ) (decoders : ℕ → List (Rows F n → List F → Fin n → F)) :
    List ℕ → CssCode F n → Option (CssCode F n)
  | [], c => some c
  | i :: l, c => (c.reduceLogicalOp p i (decoders i)).bind (reduceFrom p decoders l)

/-- `reduce_logical_ops(pauli)` (`/repo/qldpc/codes/common.py:2207-2215`). -/
def reduceLogicalOps (c : CssCode F n) (p : Option PauliXZ)
    (decoders : PauliXZ → ℕ → List (Rows F n → List F → Fin n → F)) : Option (CssCode F n) :=
  match p with
  | some p => reduceFrom p (decoders p) (List.range c.dimension) c
  | none => (reduceFrom .X (decoders .X) (List.range c.dimension) c).bind fun c =>
      reduceFrom .Z (decoders .Z) (List.range c.dimension) c

end CssCode

end QLDPC
