import Verif.Model.Groups
import Verif.Model.GroupBuild

/-!
# Direct products of groups: `/repo/qldpc/abstract.py:237-249`

A group is given by the degree and the generators (array forms) of its sympy group.
-/

namespace QLDPC

/-- A sympy `PermutationGroup`: the number of points and the array forms of the generators. -/
structure PermGroup where
  degree : ℕ
  gens : List (List ℕ)

/-- `self._group * other._group` (`/repo/qldpc/abstract.py:237-239`), the product of sympy: generators of the first
group get the points of the second appended, generators of the second are moved behind the points of the first.  That
duplicates are removed does not change the group and is left out. -/
def PermGroup.mul (a b : PermGroup) : PermGroup where
  degree := a.degree + b.degree
  gens := (a.gens.map fun g => g ++ (List.range b.degree).map fun x => x + a.degree) ++
    b.gens.map fun g => List.range a.degree ++ g.map fun x => x + a.degree

/-- `functools.reduce(operator.mul, groups)` (`/repo/qldpc/abstract.py:244, 249`); without groups there is a
`TypeError`. -/
def PermGroup.reduce : List PermGroup → Except String PermGroup
  | [] => .error "TypeError"
  | g :: gs => .ok (gs.foldl PermGroup.mul g)

/-- `group ** power` (`/repo/qldpc/abstract.py:241-244`). -/
def PermGroup.pow (g : PermGroup) (power : ℤ) : Except String PermGroup :=
  if 0 < power then PermGroup.reduce (List.replicate power.toNat g) else .error "AssertionError"

/-- `Group.product(*groups, repeat=repeat)` (`/repo/qldpc/abstract.py:246-249`): a tuple repeated a negative number of times
is empty. -/
def PermGroup.product (groups : List PermGroup) (times : ℤ := 1) : Except String PermGroup :=
  PermGroup.reduce (List.replicate times.toNat groups).flatten

end QLDPC
