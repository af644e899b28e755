import Verif.Model.Classical

/-!
# Weights of classical codes
-/

namespace QLDPC

variable {F : Type} [Field F] [DecidableEq F] {n : ℕ}

/-- `ClassicalCode.get_weight` (`/repo/qldpc/codes/common.py:296-298`): `np.count_nonzero` of each row; `np.max` of an empty
array raises. -/
def CCode.getWeight (c : CCode F n) : Option ℕ :=
  (c.matrix.map fun r => ((List.finRange n).filter fun i => r i ≠ 0).length).max?

end QLDPC
