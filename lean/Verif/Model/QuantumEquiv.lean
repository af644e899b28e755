import Verif.Model.Symplectic
import Verif.Model.Text

/-!
# Canonical form, equivalence, rank and weight of quantum codes

`/repo/qldpc/codes/common.py:140-169, 767-777, 849-874, 1653-1706`.  Both codes have the same field and the same number of
qudits; this is handled by typing.  The classical codes of a `CSSCode` are given by their matrices, without cached values.
-/

namespace QLDPC

variable {F : Type} [Field F] [DecidableEq F] {n : ℕ}

/-- A `QuditCode` that is not a `CSSCode`, or a `CSSCode`; with the value of `is_subsystem_code`. -/
inductive QuantumCode (F : Type) (n : ℕ) where
  | qudit (matrix : Rows F (n + n)) (subsystem : Bool)
  | css (hx hz : Rows F n) (subsystem : Bool)

namespace QuantumCode

/-- `matrix` (`/repo/qldpc/codes/common.py:140-143, 1653-1661`). -/
def matrix : QuantumCode F n → Rows F (n + n)
  | .qudit M _ => M
  | .css hx hz _ => cssMatrix hx hz

/-- `is_subsystem_code` (`/repo/qldpc/codes/common.py:767-770`). -/
def subsystem : QuantumCode F n → Bool
  | .qudit _ s => s
  | .css _ _ s => s

/-- `canonicalized` (`/repo/qldpc/codes/common.py:772-777, 1663-1670`). -/
def canonicalized : QuantumCode F n → QuantumCode F n
  | .qudit M s => .qudit (dropZero (rowReduce M)) s
  | .css hx hz s => .css (CCode.ofMatrix hx).canonicalized.matrix (CCode.ofMatrix hz).canonicalized.matrix s

/-- `AbstractCode.equiv`, which is also `QuditCode.equiv` (`/repo/qldpc/codes/common.py:150-155`). -/
def equiv (a b : QuantumCode F n) : Bool := decide (a.canonicalized.matrix = b.canonicalized.matrix)

/-- `CSSCode.equiv` (`/repo/qldpc/codes/common.py:1672-1679`). -/
def equivCss : QuantumCode F n → QuantumCode F n → Bool
  | .css hx hz _, .css hx' hz' _ =>
    CCode.equiv (CCode.ofMatrix hx) (CCode.ofMatrix hx') && CCode.equiv (CCode.ofMatrix hz) (CCode.ofMatrix hz')
  | a, b => equiv a b

/-- `rank` (`/repo/qldpc/codes/common.py:166-169, 1700-1706`). -/
def rank : QuantumCode F n → ℕ
  | .qudit M s => (QuantumCode.qudit M s).canonicalized.matrix.length
  | .css hx hz _ => (CCode.ofMatrix hx).rank + (CCode.ofMatrix hz).rank

/-- `num_checks` (`/repo/qldpc/codes/common.py:161-164, 1685-1698`). -/
def numChecks : QuantumCode F n → ℕ
  | .qudit M _ => M.length
  | .css hx hz _ => hx.length + hz.length

/-- `np.count_nonzero(matrix_x | matrix_z, axis=1)` for one row (`/repo/qldpc/codes/common.py:872-874`): the bitwise "or" of the
integers that stand for the elements of the field. -/
def rowWeight (fi : FieldInts F) (r : Fin (n + n) → F) : ℕ :=
  ((List.finRange n).filter fun i =>
    (fi.toInt (r (Fin.castAdd n i))).toNat ||| (fi.toInt (r (Fin.natAdd n i))).toNat ≠ 0).length

/-- `get_weight` (`/repo/qldpc/codes/common.py:870-874`); `np.max` of an empty array raises. -/
def weight (fi : FieldInts F) (c : QuantumCode F n) : Option ℕ := (c.matrix.map (rowWeight fi)).max?

/-- `num_qubits` (`/repo/qldpc/codes/common.py:860-868`). -/
def numQubits (fi : FieldInts F) (_ : QuantumCode F n) : Except String ℕ :=
  if fi.order = 2 then .ok n else .error "ValueError: this code is built out of qudits"

end QuantumCode

end QLDPC
