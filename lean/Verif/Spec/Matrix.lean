import Verif.Spec.Code

/-! # Entries of matrices -/

namespace QLDPC.Spec

variable {F : Type} [Field F] {n : ℕ}

/-- Entry `(i, j)` of a matrix, `0` outside. -/
def matEntry (H : List (Fin n → F)) (i j : ℕ) : F := ((H[i]?).map fun r => entryAt r j).getD 0

end QLDPC.Spec
