import Verif.Model.GroupBuild
import Mathlib.Data.Matrix.Basic
import Mathlib.Data.Matrix.Mul
import Mathlib.LinearAlgebra.Matrix.Determinant.Basic
import Mathlib.LinearAlgebra.Matrix.NonsingularInverse
import Mathlib.LinearAlgebra.Matrix.Kronecker
import Mathlib.Data.Finset.Dedup
import Mathlib.Logic.Equiv.Fin.Basic

/-!
# Special linear groups and projective special linear groups (`/repo/qldpc/abstract.py:1280-1487`)

The field is `F`, of order `q`; `els` is `field.elements`, in the order of galois, and `a` is `field.primitive_element`.
Vectors and matrices stand for the bytes of their arrays.
-/

namespace QLDPC

variable {F : Type} [Field F] [DecidableEq F]

/-- `itertools.product(elements, repeat=d)` as vectors (`/repo/qldpc/abstract.py:1298`, `1371`, `1408`). -/
def vecProduct (els : List F) : (d : ℕ) → List (Fin d → F)
  | 0 => [Fin.elim0]
  | d + 1 => els.flatMap fun c => (vecProduct els d).map fun v => (Fin.cons c v : Fin (d + 1) → F)

/-- `mat[i, j] = value`, which raises unless the indices are in range. -/
def setMatEntry {d : ℕ} (M : Matrix (Fin d) (Fin d) F) (i j : ℕ) (v : F) : Option (Matrix (Fin d) (Fin d) F) :=
  if i < d ∧ j < d then some (Matrix.of fun k l => if k.1 = i ∧ l.1 = j then v else M k l) else none

/-- `SpecialLinearGroup.get_generating_mats` (`/repo/qldpc/abstract.py:1349-1365`): `gen_x`, `gen_w`.  For dimension zero,
`np.ones(-1)` raises. -/
def slGeneratingMats (d q : ℕ) (a : F) : Option (Matrix (Fin d) (Fin d) F × Matrix (Fin d) (Fin d) F) :=
  if d = 0 then none
  else do
    let w ← setMatEntry (Matrix.of fun i j => if i.1 = j.1 + 1 then -1 else 0) 0 (d - 1) 1
    if q ≤ 3 then
      let x ← setMatEntry 1 0 1 1
      pure (x, w)
    else
      let x ← setMatEntry 1 0 0 a
      let x ← setMatEntry x 1 1 a⁻¹
      let w ← setMatEntry w 0 0 (-1)
      pure (x, w)

/-- The target space of the linear representation (`/repo/qldpc/abstract.py:1296-1300`): all vectors but the first. -/
def slTargetSpace (els : List F) (d : ℕ) : List (Fin d → F) := (vecProduct els d).tail

/-- How a matrix permutes the target space (`/repo/qldpc/abstract.py:1306-1309`); `index` raises if the vector is not in
the list. -/
def slPerm {d : ℕ} (space : List (Fin d → F)) (M : Matrix (Fin d) (Fin d) F) : Option (List ℕ) :=
  space.mapM fun v => space.idxOf? (M.mulVec v)

/-- `GroupMember(perm)` raises unless `perm` is a permutation. -/
def groupMember (p : List ℕ) : Option (List ℕ) := if p.Nodup ∧ ∀ v ∈ p, v < p.length then some p else none

/-- A column of the lift (`/repo/qldpc/abstract.py:1319-1323`). -/
def slLiftColumn {d : ℕ} (space : List (Fin d → F)) (p : List ℕ) (entry : Fin d) : Option (Fin d → F) := do
  let inpIdx ← space.idxOf? fun i => if i = entry then 1 else 0
  let outIdx ← p[inpIdx]?
  space[outIdx]?

/-- `lift` (`/repo/qldpc/abstract.py:1316-1329`, `1430-1442`): the columns stacked and transposed. -/
def slLift {d : ℕ} (space : List (Fin d → F)) (p : List ℕ) : Option (Matrix (Fin d) (Fin d) F) :=
  if h : ∀ entry, (slLiftColumn space p entry).isSome then
    some (Matrix.of fun i j => (slLiftColumn space p j).get (h j) i)
  else none

/-- `SpecialLinearGroup.__init__` with `linear_rep=True` (`/repo/qldpc/abstract.py:1292-1327`): the generators of the
permutation group.  Vectors are read from bytes as `uint8`, which raises for fields of order above 256. -/
def slLinear (els : List F) (d q : ℕ) (a : F) : Option (List (List ℕ)) :=
  if 256 < q then none
  else do
    let mats ← slGeneratingMats d q a
    let space := slTargetSpace els d
    [mats.1, mats.2].mapM fun M => (slPerm space M).bind groupMember

/-- `SpecialLinearGroup.__init__` with `linear_rep=False` (`/repo/qldpc/abstract.py:1329-1333`). -/
def slRegular (fuel d q : ℕ) (a : F) :
    Option (Option (Except String (MatGroup (Matrix (Fin d) (Fin d) F) × List (List ℕ)))) :=
  (slGeneratingMats d q a).map fun mats => fromGeneratingMats fuel [mats.1, mats.2]

/-- `np.reshape(vec, (d, d))` (`/repo/qldpc/abstract.py:1372`). -/
def reshapeSquare {d : ℕ} (v : Fin (d * d) → F) : Matrix (Fin d) (Fin d) F :=
  Matrix.of fun i j => v (finProdFinEquiv (i, j))

/-- `SpecialLinearGroup.iter_mats` (`/repo/qldpc/abstract.py:1367-1374`). -/
def slIterMats (els : List F) (d : ℕ) : List (Matrix (Fin d) (Fin d) F) :=
  ((vecProduct els (d * d)).map reshapeSquare).filter fun M => M.det = 1

/-! ### Projective special linear groups -/

/-- The roots of unity (`/repo/qldpc/abstract.py:1401-1403`, `1480-1482`): `count` powers of the primitive root. -/
def pslRoots (d q : ℕ) (a : F) (count : ℕ) : List F :=
  (List.range count).map fun k => (a ^ ((q - 1) / Nat.gcd d (q - 1))) ^ k

/-- The orbit of an array under the roots, as a frozen set (`/repo/qldpc/abstract.py:1408`, `1484`). -/
def rootOrbit {ι : Type} [Fintype ι] [DecidableEq ι] (roots : List F) (v : ι → F) : Finset (ι → F) :=
  (roots.map fun r => r • v).toFinset

/-- The target space of `ProjectiveSpecialLinearGroup` (`/repo/qldpc/abstract.py:1405-1412`).  `order` lists a set of
orbits in the order in which python iterates over it, and `pick` is the first member of an orbit that python returns. -/
def pslTargetSpace {d : ℕ} (els roots : List F) (order : List (Finset (Fin d → F)) → List (Finset (Fin d → F)))
    (pick : Finset (Fin d → F) → Fin d → F) : List (Fin d → F) :=
  (order ((vecProduct els d).map (rootOrbit roots)).tail.dedup).map pick

/-- How a matrix permutes the target space (`/repo/qldpc/abstract.py:1417-1423`); `next` raises if no vector of the orbit
is in the list. -/
def pslPerm {d : ℕ} (roots : List F) (space : List (Fin d → F)) (M : Matrix (Fin d) (Fin d) F) : Option (List ℕ) :=
  space.mapM fun v =>
    ((roots.map fun r => (r • M).mulVec v).find? fun u => u ∈ space).bind fun u => space.idxOf? u

/-- `ProjectiveSpecialLinearGroup.__init__` with `linear_rep=True` (`/repo/qldpc/abstract.py:1391-1442`). -/
def pslLinear {d : ℕ} (els : List F) (q : ℕ) (a : F)
    (order : List (Finset (Fin d → F)) → List (Finset (Fin d → F))) (pick : Finset (Fin d → F) → Fin d → F) :
    Option (List (List ℕ)) :=
  if 256 < q then none
  else do
    let mats ← slGeneratingMats d q a
    let roots := pslRoots d q a (Nat.gcd d (q - 1))
    let space := pslTargetSpace els roots order pick
    [mats.1, mats.2].mapM fun M => (pslPerm roots space M).bind groupMember

open scoped Kronecker in
/-- `ProjectiveSpecialLinearGroup.get_generating_mats` for fields of order above two
(`/repo/qldpc/abstract.py:1467-1472`); rows and columns of the Kronecker products are numbered by pairs. -/
noncomputable def pslKronMats (d q : ℕ) (a : F) :
    Option (Matrix (Fin d × Fin d) (Fin d × Fin d) F × Matrix (Fin d × Fin d) (Fin d × Fin d) F) :=
  (slGeneratingMats d q a).map fun mats => (mats.1⁻¹ ⊗ₖ mats.1, mats.2⁻¹ ⊗ₖ mats.2)

/-- `ProjectiveSpecialLinearGroup.__init__` with `linear_rep=False` for fields of order above two
(`/repo/qldpc/abstract.py:1444-1448`).  For the field of order two it is that of `SpecialLinearGroup`. -/
noncomputable def pslRegular (fuel d q : ℕ) (a : F) :
    Option (Option (Except String (MatGroup (Matrix (Fin d × Fin d) (Fin d × Fin d) F) × List (List ℕ)))) :=
  (pslKronMats d q a).map fun mats => fromGeneratingMats fuel [mats.1, mats.2]

/-- `ProjectiveSpecialLinearGroup.iter_mats` (`/repo/qldpc/abstract.py:1474-1487`): flat arrays of length `d ** 2`. -/
def pslIterMats {d : ℕ} (els : List F) (q : ℕ) (a : F)
    (order : List (Finset (Fin d × Fin d → F)) → List (Finset (Fin d × Fin d → F)))
    (pick : Finset (Fin d × Fin d → F) → Fin d × Fin d → F) : List (Fin (d * d) → F) :=
  (order ((slIterMats els d).map fun M => rootOrbit (pslRoots d q a d) fun e : Fin d × Fin d => M e.1 e.2).dedup).map
    fun o k => pick o (finProdFinEquiv.symm k)

end QLDPC
