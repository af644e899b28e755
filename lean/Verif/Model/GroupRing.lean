import Verif.Model.Groups

/-!
# Tests on groups and group rings: `/repo/qldpc/abstract.py:202-205, 460-468`
-/

namespace QLDPC

variable {G : Type} [Group G] [DecidableEq G]

/-- `PermutationGroup.is_abelian` of sympy: a loop over pairs of generators, in which pairs with `y <= x` (comparison of
array forms) are left out. -/
def generatorsCommute (le : G → G → Bool) (gens : List G) : Bool :=
  gens.all fun x => gens.all fun y => if le y x then true else decide (x * y = y * x)

/-- `Group.is_abelian` (`/repo/qldpc/abstract.py:202-205`), which is also `GroupRing.is_abelian`
(`/repo/qldpc/abstract.py:460-463`): a ring is never an `AbelianGroup`, so that there the first argument is false. -/
def isAbelianTest (isAbelianGroup : Bool) (le : G → G → Bool) (gens : List G) : Bool :=
  isAbelianGroup || generatorsCommute le gens

/-- `GroupRing.is_semisimple` (`/repo/qldpc/abstract.py:465-468`): `bool(self.group.order % self.field.characteristic)`. -/
def isSemisimpleTest (order characteristic : ℕ) : Bool := order % characteristic ≠ 0

/-- What equality of rings looks at (`/repo/qldpc/abstract.py:444-447`): the field, and the group as in
`Group.__eq__` (`/repo/qldpc/abstract.py:169-170`). -/
structure RingObject (Fld P A B : Type) where
  field : Fld
  group : GroupObject P A B

/-- `GroupRing.__eq__` (`/repo/qldpc/abstract.py:444-447`). -/
def RingObject.beq {Fld P A B : Type} [DecidableEq Fld] [DecidableEq P] (x y : RingObject Fld P A B) : Bool :=
  decide (x.field = y.field) && x.group.beq y.group

/-- `GroupRing.__hash__` (`/repo/qldpc/abstract.py:449-450`), given the hash of a tuple and the orders of fields. -/
def RingObject.hash {Fld P A B : Type} (order : Fld → ℕ) (hg : P × Option A × Option B → ℤ) (h : ℕ × ℤ → ℤ)
    (x : RingObject Fld P A B) : ℤ := h (order x.field, x.group.hash hg)

end QLDPC
