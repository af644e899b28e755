import Verif.Model.Qudit
import Mathlib.Data.Matrix.Basic
import Mathlib.Data.List.OfFn

/-!
# Groups, lifts and the group algebra: `/repo/qldpc/abstract.py`

A group is a type `G` with `[Group G]`, together with the list `members` that `Group.generate()` yields.  Its
product is that of the sympy permutations; for permutations themselves `sympyMul` is the product of sympy,
`(p * q)(i) = q(p(i))`.  Members of other groups, for which the code raises, are not part of the type.
-/

namespace QLDPC

open Matrix

/-! ### Permutations -/

/-- `p * q` in sympy: first `p`, then `q`. -/
def sympyMul {n : ℕ} (p q : Equiv.Perm (Fin n)) : Equiv.Perm (Fin n) := p.trans q

/-- `GroupMember.to_matrix` (`/repo/qldpc/abstract.py:90-101`). -/
def permMatrix {n : ℕ} (p : Equiv.Perm (Fin n)) : Matrix (Fin n) (Fin n) ℤ := fun i j => if p i = j then 1 else 0

/-- `GroupMember.__matmul__` (`/repo/qldpc/abstract.py:82-88`): `array_form` of the result, from those of the
factors. -/
def tensorArray (p q : List ℕ) : List ℕ := p ++ q.map fun v => v + p.length

/-! ### Groups -/

section Groups

variable {G : Type} [Group G] [DecidableEq G]

/-- `group._members` and `group.index(member)` (`/repo/qldpc/abstract.py:226-235`): a dictionary, so that the last
position counts; `none` for a `ValueError`. -/
def memberIndex (members : List G) (g : G) : Option ℕ :=
  (members.zipIdx.reverse.find? fun e => e.1 = g).map Prod.snd

/-- `group.regular_lift(member)` (`/repo/qldpc/abstract.py:257-263`). -/
def regularLift (members : List G) (g : G) : Matrix (Fin members.length) (Fin members.length) ℤ := fun i j =>
  if memberIndex members (g * members.get j) = some i.val then 1 else 0

/-- `group.table` (`/repo/qldpc/abstract.py:274-280`). -/
def cayleyTable (members : List G) : List (List (Option ℕ)) :=
  members.map fun a => members.map fun b => memberIndex members (a * b)

end Groups

/-- What equality and hashing of a `Group` look at (`/repo/qldpc/abstract.py:165-173`): the sympy group, the
function that generates members, the lift. -/
structure GroupObject (P A B : Type) where
  group : P
  generateFunc : Option A
  lift : Option B

/-- `__eq__` (`/repo/qldpc/abstract.py:169-170`). -/
def GroupObject.beq {P A B : Type} [DecidableEq P] (x y : GroupObject P A B) : Bool := x.group = y.group

/-- `__hash__` (`/repo/qldpc/abstract.py:172-173`), given the hash of a tuple. -/
def GroupObject.hash {P A B : Type} (h : P × Option A × Option B → ℤ) (x : GroupObject P A B) : ℤ :=
  h (x.group, x.generateFunc, x.lift)

/-- `SmallGroup.random` (`/repo/qldpc/abstract.py:1254-1256`); `draw` is the answer of `Group.random`. -/
def smallGroupRandom {G : Type} [Group G] (groupIndex : ℕ) (draw : G) : G := if 1 < groupIndex then draw else 1

/-! ### Ring members

`_vec` is a dictionary: a list of keys with values, in order of insertion. -/

variable {F G : Type} [Field F] [DecidableEq F] [Group G] [DecidableEq G]

/-- The dictionary `_vec` of a `RingMember` (`/repo/qldpc/abstract.py:531`). -/
abbrev RMember (F G : Type) := List (G × F)

namespace RMember

/-- `_vec.get(g, 0)`. -/
def get (x : RMember F G) (g : G) : F := ((x.find? fun e => e.1 = g).map Prod.snd).getD 0

/-- `_vec[g] += v` of the `defaultdict`. -/
def addAt : RMember F G → G → F → RMember F G
  | [], g, v => [(g, 0 + v)]
  | e :: x, g, v => if e.1 = g then (g, e.2 + v) :: x else e :: addAt x g v

/-- `_vec[g] = v`. -/
def setAt : RMember F G → G → F → RMember F G
  | [], g, v => [(g, v)]
  | e :: x, g, v => if e.1 = g then (g, v) :: x else e :: setAt x g v

/-- `RingMember(ring, *terms)` (`/repo/qldpc/abstract.py:533-542`). -/
def ofTerms (terms : List (F × G)) : RMember F G := terms.foldl (fun x t => addAt x t.2 t.1) []

/-- `ring.zero` (`/repo/qldpc/abstract.py:478-481`). -/
def zero : RMember F G := ofTerms []

/-- `ring.one` (`/repo/qldpc/abstract.py:483-486`). -/
def one : RMember F G := ofTerms [(1, 1)]

/-- `copy` (`/repo/qldpc/abstract.py:624-629`). -/
def copy (x : RMember F G) : RMember F G := x.foldl (fun z e => setAt z e.1 e.2) zero

/-- `__eq__` of members of one ring (`/repo/qldpc/abstract.py:544-550`). -/
def beq (x y : RMember F G) : Bool :=
  (x.all fun e => get x e.1 = get y e.1) && y.all fun e => get x e.1 = get y e.1

/-- `__bool__` (`/repo/qldpc/abstract.py:552-553`). -/
def toBool (x : RMember F G) : Bool := x.any fun e => e.2 ≠ 0

/-- `__add__` of two ring members (`/repo/qldpc/abstract.py:568-572`). -/
def add (x y : RMember F G) : RMember F G := y.foldl (fun z e => addAt z e.1 e.2) (copy x)

/-- `__add__` of a group member (`/repo/qldpc/abstract.py:563-566`). -/
def addMember (x : RMember F G) (g : G) : RMember F G := addAt (copy x) g 1

/-- `__mul__` by an integer (`/repo/qldpc/abstract.py:583-588`). -/
def mulInt (x : RMember F G) (m : ℤ) : RMember F G := x.foldl (fun z e => setAt z e.1 (e.2 * m)) zero

/-- `__add__` of an integer (`/repo/qldpc/abstract.py:560-561`). -/
def addInt (x : RMember F G) (m : ℤ) : RMember F G := add x (mulInt one m)

/-- `__mul__` by a group member (`/repo/qldpc/abstract.py:590-595`). -/
def mulMember (x : RMember F G) (g : G) : RMember F G := x.foldl (fun z e => setAt z (e.1 * g) e.2) zero

/-- `__rmul__` by a group member (`/repo/qldpc/abstract.py:606-616`). -/
def memberMul (g : G) (x : RMember F G) : RMember F G := x.foldl (fun z e => setAt z (g * e.1) e.2) zero

/-- `__mul__` of two ring members (`/repo/qldpc/abstract.py:597-602`). -/
def mul (x y : RMember F G) : RMember F G :=
  (x.flatMap fun a => y.map fun b => (a, b)).foldl (fun z e => addAt z (e.1.1 * e.2.1) (e.1.2 * e.2.2)) zero

/-- `__neg__` (`/repo/qldpc/abstract.py:618-619`). -/
def neg (x : RMember F G) : RMember F G := mulInt x (-1)

/-- `__sub__` of two ring members (`/repo/qldpc/abstract.py:576-577`). -/
def sub (x y : RMember F G) : RMember F G := add x (mulInt y (-1))

/-- `__pow__` (`/repo/qldpc/abstract.py:621-622`): a list repeated a negative number of times is empty. -/
def pow (x : RMember F G) (power : ℤ) : RMember F G := (List.replicate power.toNat x).foldl mul one

/-- `T` (`/repo/qldpc/abstract.py:660-671`). -/
def transpose (x : RMember F G) : RMember F G := x.foldl (fun z e => setAt z e.1⁻¹ e.2) zero

/-- `lift` (`/repo/qldpc/abstract.py:646-651`), for a group lift to matrices, integers seen in the field. -/
def lift {d : ℕ} (L : G → Matrix (Fin d) (Fin d) F) (x : RMember F G) : Matrix (Fin d) (Fin d) F :=
  (x.filter fun e => e.2 ≠ 0).foldl (fun z e => z + e.2 • L e.1) 0

/-- `regular_lift` (`/repo/qldpc/abstract.py:653-658`). -/
def regLift (members : List G) (x : RMember F G) : Matrix (Fin members.length) (Fin members.length) F :=
  lift (fun g => (regularLift members g).map fun v : ℤ => (v : F)) x

/-- `from_vector` (`/repo/qldpc/abstract.py:688-693`). -/
def fromVector (members : List G) (v : List F) : RMember F G :=
  ofTerms ((v.zip members).filter fun e => e.1 ≠ 0)

/-- `to_vector` (`/repo/qldpc/abstract.py:695-700`). -/
def toVector (members : List G) (x : RMember F G) : Option (List F) :=
  x.foldlM (fun v e => (memberIndex members e.1).bind fun i => if i < v.length then some (v.set i e.2) else none)
    (List.replicate members.length 0)

/-- `inverse` (`/repo/qldpc/abstract.py:673-686`). -/
def inverse (members : List G) (x : RMember F G) : Option (RMember F G) :=
  match x.filter fun e => e.2 ≠ 0 with
  | [] => none
  | [e] => some (ofTerms [(e.2⁻¹, e.1⁻¹)])
  | _ =>
    (invRows (List.ofFn fun i j => regLift members x i j)).bind fun B =>
      if h : 0 < members.length then some (fromVector members (B.map fun r => r ⟨0, h⟩)) else none

end RMember

end QLDPC
