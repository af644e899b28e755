import Verif.Model.RingArray
import Verif.Model.Text

/-!
# Matrices as arrays over the trivial group: `/repo/qldpc/abstract.py:1086-1117`

The trivial group is `Unit`.  The field of the ring is that of a `galois.FieldArray`, and that with two elements for any
other array (`/repo/qldpc/abstract.py:1109-1111`).
-/

namespace QLDPC

variable {F : Type} [Field F] [DecidableEq F] {n : ℕ}

/-- `TrivialGroup._trivial_lift` (`/repo/qldpc/abstract.py:1095-1097`), integers seen in the field. -/
def trivialLift (_ : Unit) : Matrix (Fin 1) (Fin 1) F := fun _ _ => ((1 : ℤ) : F)

/-- `val * one if val else zero` (`/repo/qldpc/abstract.py:1112-1113, 1116`). -/
def trivialEntry (val : ℤ) : RMember F Unit := if val ≠ 0 then RMember.mulInt RMember.one val else RMember.zero

/-- `TrivialGroup.to_ring_array(data)` (`/repo/qldpc/abstract.py:1106-1117`) of integers. -/
def toRingArray (M : List (Fin n → ℤ)) : RingRows (RMember F Unit) n := M.map fun r j => trivialEntry (r j)

/-- `np.asarray(data, dtype=int)` of a `galois.FieldArray` (`/repo/qldpc/abstract.py:1115`). -/
def arrayInts (fi : FieldInts F) (A : Rows F n) : List (Fin n → ℤ) := A.map fun r j => fi.toInt (r j)

end QLDPC
