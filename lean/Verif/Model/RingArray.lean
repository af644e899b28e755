import Verif.Model.Groups
import Verif.Model.LinAlg
import Verif.Spec.GroupAlgebra

/-!
# Arrays of group algebra members

`RingArray` (`/repo/qldpc/abstract.py:717-1071`).  Entries are represented by their coefficient functions: by
`C37_operations` and `C37_equality` (`Props/Groups.lean`) that is all the code can observe of a `RingMember`.
-/

namespace QLDPC

open Spec

variable {F G : Type} [Field F] [DecidableEq F] [Group G] [DecidableEq G] [Fintype G] {n : ℕ}

/-- A two-dimensional array with `n` columns, as a list of rows. -/
abbrev RingRows (R : Type) (n : ℕ) := List (Fin n → R)

section Generic

variable {R : Type} [Ring R] [DecidableEq R] (inv : R → Option R)

/-- The first invertible entry of a row and its inverse (`/repo/qldpc/abstract.py:983-986`). -/
def findUnit (v : Fin n → R) : Option (Fin n × R) :=
  (List.finRange n).findSome? fun c => (inv (v c)).map fun a => (c, a)

/-- One round of the loop over rows (`/repo/qldpc/abstract.py:980-1001`). -/
def reduceStep (M : RingRows R n) (row : ℕ) : RingRows R n :=
  match M[row]? with
  | none => M
  | some v =>
    match findUnit inv v with
    | none => M
    | some (c, a) =>
      let w : Fin n → R := fun j => a * v j
      M.mapIdx fun i u => if i = row then w else fun j => u j - u c * w j

/-- `_reduce_rows_with_invertible_entries` (`/repo/qldpc/abstract.py:965-1009`).  The restart in lines 1003-1007
works on `matrix[rows]` with a list of rows, which is a copy; its result is not used, so it is left out here. -/
def reduceRows (M : RingRows R n) : RingRows R n := (List.range M.length).foldl (reduceStep inv) M

/-- Is row `i` the only one with a nonzero entry in some column (`/repo/qldpc/abstract.py:1018-1023`, with the default
`allow_non_units=True`)? -/
def isPivotRow (M : RingRows R n) (i : ℕ) : Bool :=
  (List.finRange n).any fun c =>
    (List.range M.length).all fun k => decide ((((M[k]?).map fun u => u c) ≠ some 0) ↔ k = i)

/-- `_split_by_pivots` (`/repo/qldpc/abstract.py:1011-1026`). -/
def splitByPivots (M : RingRows R n) : RingRows R n × RingRows R n :=
  ((M.zipIdx.filter fun e => isPivotRow M e.2).map Prod.fst,
    ((M.zipIdx.filter fun e => ¬ isPivotRow M e.2).map Prod.fst).filter fun v => ∃ c, v c ≠ 0)

end Generic

section Algebra

variable (members : List G)

/-- The coefficients of a ring member (`_vec`, `/repo/qldpc/abstract.py:510-538`). -/
def RMember.toGAlg (x : RMember F G) : GAlg F G := fun g => x.get g

/-- `RingMember.inverse` (`/repo/qldpc/abstract.py:673-686`) on coefficient functions. -/
def galgInverse (x : GAlg F G) : Option (GAlg F G) :=
  (RMember.inverse members (RMember.fromVector members (members.map x.coef))).map RMember.toGAlg

/-- `RingMember.regular_lift` (`/repo/qldpc/abstract.py:653-658`) on coefficient functions. -/
def galgLift (x : GAlg F G) : Matrix (Fin members.length) (Fin members.length) F :=
  RMember.regLift members (RMember.fromVector members (members.map x.coef))

/-- `RingMember.from_vector` (`/repo/qldpc/abstract.py:688-693`) on coefficient functions. -/
def galgOfVec (v : Fin members.length → F) : GAlg F G :=
  (RMember.fromVector members (List.ofFn v)).toGAlg

/-- One row of `to_field_array().reshape(len(self), -1)` (`/repo/qldpc/abstract.py:1044`, `866-872`). -/
def toFieldRow (v : Fin n → GAlg F G) : Fin (n * members.length) → F :=
  fun b => (v b.divNat).coef (members.get b.modNat)

/-- One row of `from_field_array(ring, array.reshape(len(array), -1, order))`
(`/repo/qldpc/abstract.py:853-864`, `1049-1051`). -/
def fromFieldRow (v : Fin (n * members.length) → F) : Fin n → GAlg F G :=
  fun j => galgOfVec members fun l => v (finProdFinEquiv (j, l))

/-- The rows of `RingArray.regular_lift` (`/repo/qldpc/abstract.py:803-807`) that come from one row of the array. -/
def liftRow (v : Fin n → GAlg F G) : Rows F (n * members.length) :=
  (List.finRange members.length).map fun k b => galgLift members (v b.divNat) k b.modNat

/-- Does the linear system `linear_system.T` have no solution (`/repo/qldpc/abstract.py:1063-1069`): a row of its
reduced form is zero up to the last entry. -/
def inconsistent {m : ℕ} (A : Rows F m) (v : Fin m → F) : Bool :=
  (rowReduce (List.ofFn fun b : Fin m => (Fin.snoc (α := fun _ => F) (fun l : Fin A.length => A[l] b) (v b) :
    Fin (A.length + 1) → F))).any fun r => decide (r (Fin.last _) ≠ 0 ∧ ∀ l : Fin A.length, r l.castSucc = 0)

/-- The loop over rows, the last one first (`/repo/qldpc/abstract.py:1061-1069`).  The first argument holds the
rows still to be looked at in reversed order, the second one the rows kept so far. -/
def removeLoop : RingRows (GAlg F G) n → RingRows (GAlg F G) n → RingRows (GAlg F G) n
  | [], after => after
  | r :: before, after =>
    if inconsistent ((before.reverse ++ after).flatMap fun u => liftRow members fun j => (u j).transpose)
        (toFieldRow members r) then removeLoop before (r :: after)
    else removeLoop before after

/-- `_remove_linearly_dependent_rows` (`/repo/qldpc/abstract.py:1028-1071`). -/
def removeDependent (M : RingRows (GAlg F G) n) : RingRows (GAlg F G) n :=
  removeLoop members ((dropZero (rowReduce (M.map (toFieldRow members)))).map (fromFieldRow members)).reverse []

/-- `row_reduce` with its default arguments: `_heuristic_row_reduce` (`/repo/qldpc/abstract.py:908-963`).  With rows
but no columns the name `inverse` is unbound in line 993. -/
def ringRowReduce (M : RingRows (GAlg F G) n) : Option (RingRows (GAlg F G) n) :=
  if n = 0 ∧ M ≠ [] then none
  else
    let s := splitByPivots (reduceRows (galgInverse members) M)
    some (s.1 ++ if s.2 = [] then [] else removeDependent members s.2)

/-- The ring-valued null vectors before they are reduced (`/repo/qldpc/abstract.py:896-904`). -/
def nullVectors (M : RingRows (GAlg F G) n) : RingRows (GAlg F G) n :=
  (nullSpace (M.flatMap (liftRow members))).map fun v j => (fromFieldRow members v j).transpose

/-- `null_space` (`/repo/qldpc/abstract.py:888-906`).  `np.block` raises without rows or columns, and
`from_field_array` (and before it `reshape`) raises if there is no null vector. -/
def ringNullSpace (M : RingRows (GAlg F G) n) : Option (RingRows (GAlg F G) n) :=
  if n = 0 ∨ M = [] ∨ nullVectors members M = [] then none else ringRowReduce members (nullVectors members M)

/-- `RingArray.lift` and `regular_lift` (`/repo/qldpc/abstract.py:803-813`): the block matrix of the lifts `Λ` of the
entries. -/
def liftArray {R : Type} {r d : ℕ} (Λ : R → Matrix (Fin d) (Fin d) F) (A : Matrix (Fin r) (Fin n) R) :
    Matrix (Fin (r * d)) (Fin (n * d)) F := fun a b => Λ (A a.divNat b.divNat) a.modNat b.modNat

/-- `RingArray.T` (`/repo/qldpc/abstract.py:820-823`). -/
def arrayTranspose {r : ℕ} (A : Matrix (Fin r) (Fin n) (GAlg F G)) : Matrix (Fin n) (Fin r) (GAlg F G) :=
  fun j i => (A i j).transpose

end Algebra

end QLDPC
