import Mathlib.Algebra.MonoidAlgebra.Basic
import Mathlib.Algebra.Ring.InjSurj
import Mathlib.Algebra.BigOperators.Finsupp.Basic

/-!
# The algebra of a finite group

Formal sums `∑ x_g g` as functions `g ↦ x_g`, with the product of formal sums.  The ring laws are inherited
from Mathlib's monoid algebra.
-/

namespace QLDPC.Spec

/-- Formal sums over `G` with coefficients in `F`. -/
def GAlg (F G : Type) : Type := G → F

namespace GAlg

variable {F G : Type} [Field F] [Group G] [Fintype G]

/-- The coefficient at a group element. -/
def coef (x : GAlg F G) (g : G) : F := x g

@[ext] theorem ext {x y : GAlg F G} (h : ∀ g, x.coef g = y.coef g) : x = y := funext h

instance [DecidableEq F] : DecidableEq (GAlg F G) := inferInstanceAs (DecidableEq (G → F))

instance : Zero (GAlg F G) := ⟨fun _ => 0⟩
instance [DecidableEq G] : One (GAlg F G) := ⟨fun g => if g = 1 then 1 else 0⟩
instance : Add (GAlg F G) := ⟨fun x y g => x g + y g⟩
instance : Neg (GAlg F G) := ⟨fun x g => - x g⟩
instance : Sub (GAlg F G) := ⟨fun x y g => x g - y g⟩
/-- `∑ x_h h · ∑ y_k k = ∑_g (∑_{hk = g} x_h y_k) g`. -/
instance : Mul (GAlg F G) := ⟨fun x y g => ∑ h, x h * y (h⁻¹ * g)⟩
instance : SMul ℕ (GAlg F G) := ⟨fun m x g => m • x g⟩
instance : SMul ℤ (GAlg F G) := ⟨fun m x g => m • x g⟩
instance : SMul F (GAlg F G) := ⟨fun m x g => m * x g⟩
instance [DecidableEq G] : Pow (GAlg F G) ℕ := ⟨fun x k => k.rec 1 fun _ y => y * x⟩
instance [DecidableEq G] : NatCast (GAlg F G) := ⟨fun m g => if g = 1 then m else 0⟩
instance [DecidableEq G] : IntCast (GAlg F G) := ⟨fun m g => if g = 1 then m else 0⟩

/-- The group element `g` as a formal sum. -/
def single [DecidableEq G] (g : G) : GAlg F G := fun h => if h = g then 1 else 0

/-- The transpose: `∑ x_g g⁻¹`. -/
def transpose (x : GAlg F G) : GAlg F G := fun g => x g⁻¹

@[simp] theorem coef_zero (g : G) : (0 : GAlg F G).coef g = 0 := rfl
@[simp] theorem coef_one [DecidableEq G] (g : G) : (1 : GAlg F G).coef g = if g = 1 then 1 else 0 := rfl
@[simp] theorem coef_add (x y : GAlg F G) (g : G) : (x + y).coef g = x.coef g + y.coef g := rfl
@[simp] theorem coef_neg (x : GAlg F G) (g : G) : (-x).coef g = - x.coef g := rfl
@[simp] theorem coef_sub (x y : GAlg F G) (g : G) : (x - y).coef g = x.coef g - y.coef g := rfl
theorem coef_mul (x y : GAlg F G) (g : G) : (x * y).coef g = ∑ h, x.coef h * y.coef (h⁻¹ * g) := rfl
@[simp] theorem coef_smul (c : F) (x : GAlg F G) (g : G) : (c • x).coef g = c * x.coef g := rfl
@[simp] theorem coef_single [DecidableEq G] (g h : G) : (single g : GAlg F G).coef h = if h = g then 1 else 0 := rfl
@[simp] theorem coef_transpose (x : GAlg F G) (g : G) : x.transpose.coef g = x.coef g⁻¹ := rfl

instance [DecidableEq G] : Ring (GAlg F G) where
  add_assoc x y z := funext fun _ => add_assoc _ _ _
  zero_add x := funext fun _ => zero_add _
  add_zero x := funext fun _ => add_zero _
  add_comm x y := funext fun _ => add_comm _ _
  neg_add_cancel x := funext fun _ => neg_add_cancel _
  sub_eq_add_neg x y := funext fun _ => sub_eq_add_neg _ _
  nsmul := fun m x => m • x
  nsmul_zero x := funext fun _ => zero_nsmul _
  nsmul_succ m x := funext fun _ => succ_nsmul _ _
  zsmul := fun m x => m • x
  zsmul_zero' x := funext fun _ => zero_zsmul _
  zsmul_succ' m x := funext fun _ => SubNegMonoid.zsmul_succ' _ _
  zsmul_neg' m x := funext fun _ => SubNegMonoid.zsmul_neg' _ _
  natCast m := m
  natCast_zero := funext fun g => by
    show (if g = 1 then ((0 : ℕ) : F) else 0) = 0
    simp
  natCast_succ m := funext fun g => by
    show (if g = 1 then ((m + 1 : ℕ) : F) else 0) = (if g = 1 then (m : F) else 0) + if g = 1 then 1 else 0
    split <;> simp
  intCast m := m
  intCast_ofNat m := funext fun g => by
    show (if g = 1 then (((m : ℕ) : ℤ) : F) else 0) = if g = 1 then (m : F) else 0
    simp
  intCast_negSucc m := funext fun g => by
    show (if g = 1 then ((Int.negSucc m : ℤ) : F) else 0) = - if g = 1 then ((m + 1 : ℕ) : F) else 0
    split <;> simp [Int.cast_negSucc]
  npow := fun k x => x ^ k
  npow_zero x := rfl
  npow_succ k x := rfl
  zero_mul x := funext fun g => Finset.sum_eq_zero fun h _ => zero_mul _
  mul_zero x := funext fun g => Finset.sum_eq_zero fun h _ => mul_zero _
  left_distrib x y z := funext fun g => by
    show ∑ h, x h * (y (h⁻¹ * g) + z (h⁻¹ * g)) = (∑ h, x h * y (h⁻¹ * g)) + ∑ h, x h * z (h⁻¹ * g)
    rw [← Finset.sum_add_distrib]
    exact Finset.sum_congr rfl fun h _ => mul_add _ _ _
  right_distrib x y z := funext fun g => by
    show ∑ h, (x h + y h) * z (h⁻¹ * g) = (∑ h, x h * z (h⁻¹ * g)) + ∑ h, y h * z (h⁻¹ * g)
    rw [← Finset.sum_add_distrib]
    exact Finset.sum_congr rfl fun h _ => add_mul _ _ _
  one_mul x := funext fun g => by
    show ∑ h, (if h = 1 then (1 : F) else 0) * x (h⁻¹ * g) = x g
    rw [Finset.sum_eq_single 1]
    · simp
    · intro h _ hne
      simp [hne]
    · simp
  mul_one x := funext fun g => by
    show ∑ h, x h * (if h⁻¹ * g = 1 then (1 : F) else 0) = x g
    rw [Finset.sum_eq_single g]
    · simp
    · intro h _ hne
      rw [if_neg, mul_zero]
      rw [inv_mul_eq_one]
      exact hne
    · simp
  mul_assoc x y z := funext fun g => by
    show ∑ h, (∑ k, x k * y (k⁻¹ * h)) * z (h⁻¹ * g) = ∑ k, x k * ∑ h, y h * z (h⁻¹ * (k⁻¹ * g))
    simp only [Finset.sum_mul, Finset.mul_sum]
    rw [Finset.sum_comm]
    refine Finset.sum_congr rfl fun k _ => ?_
    refine Fintype.sum_equiv (Equiv.mulLeft k⁻¹) _ _ fun h => ?_
    simp only [Equiv.coe_mulLeft, mul_inv_rev, inv_inv]
    rw [mul_assoc, mul_assoc (h⁻¹) k, ← mul_assoc k, mul_inv_cancel, one_mul]

theorem coef_sum [DecidableEq G] {ι : Type} (s : Finset ι) (f : ι → GAlg F G) (g : G) :
    (∑ i ∈ s, f i).coef g = ∑ i ∈ s, (f i).coef g := by
  classical
  induction s using Finset.induction_on with
  | empty => rfl
  | insert a s ha ih => rw [Finset.sum_insert ha, Finset.sum_insert ha, coef_add, ih]

theorem transpose_mul (x y : GAlg F G) : (x * y).transpose = y.transpose * x.transpose := by
  ext g
  rw [coef_transpose, coef_mul, coef_mul]
  refine Fintype.sum_equiv (Equiv.mulLeft g) _ _ fun h => ?_
  simp [mul_comm]

theorem transpose_add (x y : GAlg F G) : (x + y).transpose = x.transpose + y.transpose := rfl
theorem transpose_zero : (0 : GAlg F G).transpose = 0 := rfl
theorem transpose_transpose (x : GAlg F G) : x.transpose.transpose = x := by
  ext g
  simp

/-- Formal sums as elements of Mathlib's monoid algebra: the definitions agree. -/
noncomputable def toMA (x : GAlg F G) : MonoidAlgebra F G := ∑ g, MonoidAlgebra.single g (x.coef g)

theorem toMA_coeff (x : GAlg F G) (g : G) : (toMA x : MonoidAlgebra F G).coeff g = x.coef g := by
  classical
  unfold toMA
  simp [Finsupp.single_apply]

theorem toMA_mul (x y : GAlg F G) : toMA (x * y) = toMA x * toMA y := by
  classical
  refine MonoidAlgebra.ext (Finsupp.ext fun g => ?_)
  rw [toMA_coeff, coef_mul]
  unfold toMA
  simp only [Finset.sum_mul, Finset.mul_sum, MonoidAlgebra.single_mul_single]
  simp [Finsupp.single_apply]
  rw [Finset.sum_comm]
  refine Finset.sum_congr rfl fun h _ => ?_
  rw [Finset.sum_eq_single (h⁻¹ * g)]
  · simp
  · intro k _ hne
    rw [if_neg]
    rintro rfl
    simp at hne
  · simp

end GAlg

end QLDPC.Spec
