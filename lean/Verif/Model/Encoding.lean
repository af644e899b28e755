import Verif.Model.CssDistance
import Verif.Model.QuditDistance
import Mathlib.Algebra.Field.ZMod

/-!
# Encoding tableaus

`/repo/qldpc/circuits.py:44-86`.  Only codes on qubits are accepted (`restrict_to_qubits`, `circuits.py:32-41`).
-/

namespace QLDPC

open Spec

variable {n : ℕ}

/-- `_is_canonicalized` (`/repo/qldpc/codes/common.py:2431-2436`). -/
def isCanonicalized {F : Type} [Field F] [DecidableEq F] {n : ℕ} (M : Rows F n) : Bool :=
  (List.zip M (firstNonzeroCols M)).zipIdx.all fun r =>
    decide (r.1.1 r.1.2 ≠ 0) && (M.take r.2).all fun q => decide (q r.1.2 = 0)

/-- `get_stabilizer_ops(canonicalized=True)` of a subsystem code with known stabilizers
(`/repo/qldpc/codes/common.py:1211-1214`); `computed` is the result of the computation in lines 1204-1209. -/
def knownStabilizers {F : Type} [Field F] [DecidableEq F] {n : ℕ} (known computed : Rows F (n + n)) : Rows F (n + n) :=
  if isCanonicalized known then known else computed

section

variable {F : Type} [Field F] [DecidableEq F]

/-- `op.reshape(2, -1)[::-1, :].reshape(ops.shape)` (`/repo/qldpc/circuits.py:68-69`), for an even number of
operators: the two halves are exchanged. -/
def dualOps (L : Rows F (n + n)) : Rows F (n + n) := L.drop (L.length / 2) ++ L.take (L.length / 2)

/-- One row of `ops - ops @ symplectic_conjugate(duals).T @ L`. -/
def subtractComponents (duals L : Rows F (n + n)) (d : Fin (n + n) → F) : Fin (n + n) → F :=
  d - ∑ i : Fin L.length, dot d (symplecticConjugate (duals.getD i 0)) • L[i]

/-- Candidate destabilizers (`/repo/qldpc/circuits.py:62-65`): `(pivot + n) % (2 n)` is the same qubit in the other
half. -/
def candidateDestabs (stabs : Rows F (n + n)) : Rows F (n + n) :=
  (firstNonzeroCols stabs).map fun p i => if i.val = (p.val + n) % (2 * n) then 1 else 0

/-- The loop of `/repo/qldpc/circuits.py:78-79`.  Row 0 is not changed by it. -/
def commuteLoop (stabs : Rows F (n + n)) : Rows F (n + n) → Rows F (n + n) → Rows F (n + n)
  | done, [] => done
  | done, d :: rest => commuteLoop stabs (done ++ [subtractComponents done (stabs.take done.length) d]) rest

/-- The destabilizers. -/
def destabOps (stabs logicals gauges : Rows F (n + n)) : Rows F (n + n) :=
  commuteLoop stabs []
    (((candidateDestabs stabs).map (subtractComponents (dualOps logicals) logicals)).map
      (subtractComponents (dualOps gauges) gauges))

/-- `get_encoding_tableau` (`/repo/qldpc/circuits.py:44-86`): the images of X and of Z operators that are handed over to
Stim; `k` and `g` are `code.dimension` and `code.gauge_dimension`. -/
def encodingTableau (stabs logicals gauges : Rows F (n + n)) (k g : ℕ) :
    Rows F (n + n) × Rows F (n + n) :=
  (logicals.take k ++ gauges.take g ++ destabOps stabs logicals gauges, logicals.drop k ++ gauges.drop g ++ stabs)

end

/-- `stim.Tableau.from_conjugated_generators(xs=..., zs=...)` (`/repo/qldpc/circuits.py:86`) raises unless there are as
many operators as qubits and they have the commutation relations of X and Z operators. -/
def stimTableau (t : Rows (ZMod 2) (n + n) × Rows (ZMod 2) (n + n)) :
    Option (Rows (ZMod 2) (n + n) × Rows (ZMod 2) (n + n)) :=
  let commute (ops : Rows (ZMod 2) (n + n)) : Bool := ops.all fun p => ops.all fun q => decide (sform p q = 0)
  let paired : Bool := decide (∀ i j : Fin n, sform (t.1.getD i 0) (t.2.getD j 0) = if i = j then 1 else 0)
  if t.1.length = n ∧ t.2.length = n ∧ commute t.1 ∧ commute t.2 ∧ paired then some t else none

/-- `gauge_dimension` (`/repo/qldpc/codes/common.py:1255-1261`). -/
def QCode.gaugeDimension {F : Type} [Field F] [DecidableEq F] (c : QCode F n) : ℕ := if c.isSub then QLDPC.gaugeDimension c.matrix else 0

/-- `get_encoding_tableau(QuditCode(matrix))`; `none` if an exception is raised. -/
def QCode.encodingTableau (c : QCode (ZMod 2) n) : Option (Rows (ZMod 2) (n + n) × Rows (ZMod 2) (n + n)) :=
  c.getLogicalOps.bind fun L => c.gaugeOps.bind fun G =>
    stimTableau (QLDPC.encodingTableau c.stabilizerOpsCanon L G c.dimension c.gaugeDimension)

/-- `get_stabilizer_ops(canonicalized=True)` of a `CSSCode` (`/repo/qldpc/codes/common.py:1948-1964`, `1201-1202`,
`1664-1671`). -/
def CssCode.canonicalStabs (c : CssCode (ZMod 2) n) : Rows (ZMod 2) (n + n) :=
  if c.isSub then blockDiag2 (cssStabs c.hx c.hz) (cssStabs c.hz c.hx)
  else blockDiag2 (dropZero (rowReduce c.hx)) (dropZero (rowReduce c.hz))

/-- `gauge_dimension` of a `CSSCode` (`/repo/qldpc/codes/common.py:1255-1261`, `1700-1706`). -/
def CssCode.gaugeDimension (c : CssCode (ZMod 2) n) : ℕ :=
  if c.isSub then ((dropZero (rowReduce c.hx)).length + (dropZero (rowReduce c.hz)).length - c.canonicalStabs.length) / 2
  else 0

/-- X-type and Z-type operators as Pauli strings. -/
def xzRows (L : Rows (ZMod 2) n × Rows (ZMod 2) n) : Rows (ZMod 2) (n + n) :=
  (L.1.map fun r => Fin.append r 0) ++ L.2.map fun r => Fin.append 0 r

/-- `get_encoding_tableau(CSSCode(...))`. -/
def CssCode.encodingTableau (c : CssCode (ZMod 2) n) : Option (Rows (ZMod 2) (n + n) × Rows (ZMod 2) (n + n)) :=
  c.logicals.bind fun L => c.gaugeOps.bind fun G =>
    stimTableau (QLDPC.encodingTableau c.canonicalStabs (xzRows L) (xzRows G) c.dimension c.gaugeDimension)

end QLDPC
