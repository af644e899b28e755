import Verif.Model.GroupRing
import Verif.Spec.GroupAlgebra
import Mathlib.RepresentationTheory.Maschke
import Mathlib.Algebra.CharP.Basic
import Mathlib.Data.ZMod.Basic
import Mathlib.Algebra.Field.ZMod
import Mathlib.GroupTheory.Perm.Fin
import Mathlib.Algebra.Group.Subgroup.Lattice

/-!
# C93: tests on groups and group rings
-/

namespace QLDPC.Props

open QLDPC QLDPC.Spec

variable {F G : Type} [Field F] [Group G] [DecidableEq G]

/-! ### Commutativity -/

/-- **C93**: `is_abelian` is true exactly if all members of the group commute. -/
theorem C93_abelian (isAbelianGroup : Bool) (le : G → G → Bool) (htotal : ∀ x y, le x y = true ∨ le y x = true)
    (hanti : ∀ x y, le x y = true → le y x = true → x = y) (gens : List G)
    (hgens : Subgroup.closure {g | g ∈ gens} = ⊤) (hflag : isAbelianGroup = true → ∀ a b : G, a * b = b * a) :
    isAbelianTest isAbelianGroup le gens = true ↔ ∀ a b : G, a * b = b * a := by
  have key : generatorsCommute le gens = true ↔ ∀ a b : G, a * b = b * a := by
    unfold generatorsCommute
    rw [List.all_eq_true]
    constructor
    · intro h
      have hc : ∀ x ∈ {g | g ∈ gens}, ∀ y ∈ {g | g ∈ gens}, x * y = y * x := by
        intro x hx y hy
        have h1 := List.all_eq_true.1 (h x hx) y hy
        have h2 := List.all_eq_true.1 (h y hy) x hx
        by_cases hyx : le y x = true
        · by_cases hxy : le x y = true
          · rw [hanti x y hxy hyx]
          · rw [if_neg hxy] at h2
            exact (of_decide_eq_true h2).symm
        · rw [if_neg hyx] at h1
          exact of_decide_eq_true h1
      have hle : Subgroup.closure {g | g ∈ gens} ≤ Subgroup.centralizer (Subgroup.closure {g | g ∈ gens} : Set G) := by
        rw [Subgroup.closure_le]
        intro x hx
        rw [SetLike.mem_coe, Subgroup.mem_centralizer_iff]
        intro y hy
        have hle' : Subgroup.closure {g | g ∈ gens} ≤ Subgroup.centralizer {x} := by
          rw [Subgroup.closure_le]
          intro z hz
          rw [SetLike.mem_coe, Subgroup.mem_centralizer_iff]
          intro w hw
          rw [Set.mem_singleton_iff.1 hw]
          exact hc x hx z hz
        exact (Subgroup.mem_centralizer_iff.1 (hle' hy) x rfl).symm
      intro a b
      have ha : a ∈ Subgroup.closure {g | g ∈ gens} := by rw [hgens]; trivial
      have hb : b ∈ Subgroup.closure {g | g ∈ gens} := by rw [hgens]; trivial
      exact Subgroup.mem_centralizer_iff.1 (hle hb) a ha
    · intro h x _
      rw [List.all_eq_true]
      intro y _
      split
      · rfl
      · exact decide_eq_true (h x y)
  unfold isAbelianTest
  rw [Bool.or_eq_true, key]
  constructor
  · rintro (h | h)
    · exact hflag h
    · exact h
  · exact Or.inr

/-- The algebra of a group is commutative exactly if the group is. -/
theorem C93_ring_abelian [Fintype G] : (∀ a b : G, a * b = b * a) ↔ ∀ x y : GAlg F G, x * y = y * x := by
  constructor
  · intro h x y
    ext g
    rw [GAlg.coef_mul, GAlg.coef_mul]
    refine Fintype.sum_equiv ((Equiv.inv G).trans (Equiv.mulRight g)) _ _ fun k => ?_
    simp only [Equiv.trans_apply, Equiv.inv_apply, Equiv.coe_mulRight, mul_inv_rev, inv_inv]
    rw [mul_comm, mul_assoc, h k g, inv_mul_cancel_left]
  · intro h a b
    have h1 := h (GAlg.single a) (GAlg.single b)
    have hs : ∀ a b : G, (GAlg.single a * GAlg.single b : GAlg F G) = GAlg.single (a * b) := by
      intro a b
      ext g
      rw [GAlg.coef_mul, Finset.sum_eq_single a]
      · simp only [GAlg.coef_single, if_true, one_mul]
        congr 1
        exact propext ⟨fun e => by rw [← e, mul_inv_cancel_left], fun e => by rw [e, inv_mul_cancel_left]⟩
      · intro k _ hk
        rw [GAlg.coef_single, if_neg hk, zero_mul]
      · simp
    rw [hs, hs] at h1
    have h2 := congrArg (fun z : GAlg F G => z.coef (a * b)) h1
    simp only [GAlg.coef_single, if_true] at h2
    by_contra hne
    rw [if_neg hne] at h2
    exact one_ne_zero h2

/-! ### Semisimplicity -/

/-- The sum of all group members. -/
def allOnes (F G : Type) [Field F] : GAlg F G := fun _ => 1

/-- Formal sums and Mathlib's monoid algebra are the same ring. -/
noncomputable def galgEquiv [Fintype G] : GAlg F G ≃+* MonoidAlgebra F G where
  toFun := GAlg.toMA
  invFun x := fun g => x.coeff g
  left_inv x := funext fun g => GAlg.toMA_coeff x g
  right_inv x := MonoidAlgebra.ext (Finsupp.ext fun g => GAlg.toMA_coeff _ g)
  map_mul' := GAlg.toMA_mul
  map_add' x y := MonoidAlgebra.ext (Finsupp.ext fun g => by
    rw [GAlg.toMA_coeff]
    have h : ((GAlg.toMA x + GAlg.toMA y : MonoidAlgebra F G)).coeff g = (GAlg.toMA x).coeff g + (GAlg.toMA y).coeff g := rfl
    rw [h, GAlg.toMA_coeff, GAlg.toMA_coeff, GAlg.coef_add])

theorem allOnes_mul [Fintype G] (x : GAlg F G) : allOnes F G * x = (∑ g, x.coef g) • allOnes F G := by
  ext g
  rw [GAlg.coef_mul, GAlg.coef_smul]
  have h1 : ∀ g, (allOnes F G).coef g = 1 := fun _ => rfl
  simp only [h1, one_mul, mul_one]
  exact Fintype.sum_equiv ((Equiv.inv G).trans (Equiv.mulRight g)) _ _ fun k => rfl

theorem mul_allOnes [Fintype G] (x : GAlg F G) : x * allOnes F G = (∑ g, x.coef g) • allOnes F G := by
  ext g
  rw [GAlg.coef_mul, GAlg.coef_smul]
  have h1 : ∀ g, (allOnes F G).coef g = 1 := fun _ => rfl
  simp only [h1, mul_one]

theorem card_cast_iff [Fintype G] (p : ℕ) [CharP F p] : isSemisimpleTest (Nat.card G) p = true ↔ (Nat.card G : F) ≠ 0 := by
  unfold isSemisimpleTest
  rw [decide_eq_true_iff, Ne, Ne, CharP.cast_eq_zero_iff F p, Nat.dvd_iff_mod_eq_zero]

/-- If the test fails, the sum of all group members commutes with everything, is not zero, and its square is zero. -/
theorem C93_nilpotent [Fintype G] (p : ℕ) [CharP F p] (h : isSemisimpleTest (Nat.card G) p = false) :
    ∃ x : GAlg F G, x ≠ 0 ∧ x * x = 0 ∧ ∀ y, x * y = y * x := by
  have h0 : (Nat.card G : F) = 0 := by
    by_contra hne
    rw [(card_cast_iff p).2 hne] at h
    cases h
  refine ⟨allOnes F G, ?_, ?_, fun y => by rw [allOnes_mul, mul_allOnes]⟩
  · intro he
    exact one_ne_zero (congrArg (fun z : GAlg F G => z.coef 1) he)
  · rw [allOnes_mul]
    have : ∑ g : G, (allOnes F G).coef g = 0 := by
      have h1 : ∀ g, (allOnes F G).coef g = 1 := fun _ => rfl
      simp only [h1, Finset.sum_const, Finset.card_univ, nsmul_eq_mul, mul_one]
      rw [← Nat.card_eq_fintype_card]
      exact h0
    rw [this]
    ext g
    simp

/-- **C93**: `is_semisimple` is true exactly if the group algebra is semisimple (Maschke's theorem and its converse). -/
theorem C93_semisimple [Fintype G] (p : ℕ) [CharP F p] :
    isSemisimpleTest (Nat.card G) p = true ↔ IsSemisimpleRing (GAlg F G) := by
  constructor
  · intro h
    haveI : NeZero (Nat.card G : F) := ⟨(card_cast_iff p).1 h⟩
    haveI : IsSemisimpleRing (MonoidAlgebra F G) := inferInstanceAs (IsSemisimpleModule (MonoidAlgebra F G) (MonoidAlgebra F G))
    exact (galgEquiv (F := F) (G := G)).symm.isSemisimpleRing
  · intro hss
    by_contra h
    obtain ⟨x, hx, hxx, hcomm⟩ := C93_nilpotent (F := F) (G := G) p (by simpa using h)
    obtain ⟨J, hJ⟩ := exists_isCompl (Ideal.span {x})
    have h1 : (1 : GAlg F G) ∈ Ideal.span {x} ⊔ J := by rw [hJ.sup_eq_top]; trivial
    obtain ⟨i, hi, j, hj, hij⟩ := Submodule.mem_sup.1 h1
    obtain ⟨a, rfl⟩ := Ideal.mem_span_singleton'.1 hi
    have h2 : x = x * j := by
      calc x = x * (a * x + j) := by rw [hij, mul_one]
        _ = a * (x * x) + x * j := by rw [mul_add, ← mul_assoc, hcomm a, mul_assoc]
        _ = x * j := by rw [hxx, mul_zero, zero_add]
    have h3 : x ∈ J := by rw [h2]; exact J.mul_mem_left x hj
    have h4 : x ∈ Ideal.span {x} ⊓ J := ⟨Ideal.mem_span_singleton_self x, h3⟩
    rw [hJ.inf_eq_bot] at h4
    exact hx h4

/-! ### Equality -/

/-- Equality of rings is an equivalence; it looks at the field and at the sympy group only. -/
theorem C93_ring_eq {Fld P A B : Type} [DecidableEq Fld] [DecidableEq P] (x y : RingObject Fld P A B) :
    x.beq y = true ↔ x.field = y.field ∧ x.group.group = y.group.group := by
  unfold RingObject.beq GroupObject.beq
  simp

/-- Equal rings may have different hashes: the hash of a group depends on its lift. -/
theorem C93_hash_disagreement : ∃ (hg : ℕ × Option ℕ × Option ℕ → ℤ) (h : ℕ × ℤ → ℤ) (x y : RingObject ℕ ℕ ℕ ℕ),
    x.beq y = true ∧ x.hash id hg h ≠ y.hash id hg h :=
  ⟨fun t => (t.2.2.getD 0 : ℕ), fun t => t.2, ⟨2, 0, none, some 1⟩, ⟨2, 0, none, some 2⟩, by decide, by decide⟩

section Examples

/-- The hypotheses of `C93_abelian` are met by a cyclic group with two generators. -/
example : ∃ gens : List (Multiplicative (ZMod 6)), Subgroup.closure {g | g ∈ gens} = ⊤ ∧
    (∀ x y : Multiplicative (ZMod 6), decide (x.toAdd.val ≤ y.toAdd.val) = true ∨ decide (y.toAdd.val ≤ x.toAdd.val) = true) ∧
    (∀ x y : Multiplicative (ZMod 6), decide (x.toAdd.val ≤ y.toAdd.val) = true → decide (y.toAdd.val ≤ x.toAdd.val) = true → x = y) := by
  refine ⟨[Multiplicative.ofAdd 2, Multiplicative.ofAdd 3], ?_, by decide +kernel, by decide +kernel⟩
  rw [eq_top_iff]
  intro g _
  have h2 : Multiplicative.ofAdd (2 : ZMod 6) ∈ Subgroup.closure {g | g ∈ [Multiplicative.ofAdd (2 : ZMod 6), Multiplicative.ofAdd 3]} :=
    Subgroup.subset_closure (by simp)
  have h3 : Multiplicative.ofAdd (3 : ZMod 6) ∈ Subgroup.closure {g | g ∈ [Multiplicative.ofAdd (2 : ZMod 6), Multiplicative.ofAdd 3]} :=
    Subgroup.subset_closure (by simp)
  have h1 : Multiplicative.ofAdd (1 : ZMod 6) ∈ Subgroup.closure {g | g ∈ [Multiplicative.ofAdd (2 : ZMod 6), Multiplicative.ofAdd 3]} := by
    have := Subgroup.mul_mem _ h3 (Subgroup.inv_mem _ h2)
    have e : Multiplicative.ofAdd (3 : ZMod 6) * (Multiplicative.ofAdd (2 : ZMod 6))⁻¹ = Multiplicative.ofAdd 1 := by decide
    rwa [e] at this
  have hg : ∀ g : Multiplicative (ZMod 6), g = Multiplicative.ofAdd (1 : ZMod 6) ^ g.toAdd.val := by decide +kernel
  rw [hg g]
  exact Subgroup.pow_mem _ h1 _

example : generatorsCommute (fun x y : Equiv.Perm (Fin 3) => decide (x = y)) [Equiv.swap 0 1, Equiv.swap 1 2] = false := by
  decide +kernel

/-- Both answers of `is_semisimple` occur. -/
example : isSemisimpleTest (Nat.card (Multiplicative (ZMod 3))) 2 = true ∧
    isSemisimpleTest (Nat.card (Multiplicative (ZMod 4))) 2 = false := by
  have h3 : Nat.card (Multiplicative (ZMod 3)) = 3 := by rw [Nat.card_congr Multiplicative.toAdd, Nat.card_zmod]
  have h4 : Nat.card (Multiplicative (ZMod 4)) = 4 := by rw [Nat.card_congr Multiplicative.toAdd, Nat.card_zmod]
  rw [h3, h4]
  decide

example : IsSemisimpleRing (GAlg (ZMod 2) (Multiplicative (ZMod 3))) := by
  refine (C93_semisimple (F := ZMod 2) (G := Multiplicative (ZMod 3)) 2).1 ?_
  rw [Nat.card_congr Multiplicative.toAdd, Nat.card_zmod]
  decide

end Examples

#print axioms C93_abelian
#print axioms C93_ring_abelian
#print axioms C93_nilpotent
#print axioms C93_semisimple
#print axioms C93_ring_eq
#print axioms C93_hash_disagreement

/-! ### Instances of the theorems: concrete cases meet the hypotheses -/

example := C93_nilpotent (F := ZMod 2) (G := Multiplicative (ZMod 4)) 2 (by rw [Nat.card_congr Multiplicative.toAdd, Nat.card_zmod]; decide)

example := C93_abelian (G := Multiplicative (ZMod 2)) true (fun x y => decide (x.toAdd.val ≤ y.toAdd.val)) (by decide +kernel) (by decide +kernel)
  [Multiplicative.ofAdd 1] (by
    rw [eq_top_iff]
    intro g _
    have h1 : Multiplicative.ofAdd (1 : ZMod 2) ∈ Subgroup.closure {g | g ∈ [Multiplicative.ofAdd (1 : ZMod 2)]} := Subgroup.subset_closure (by simp)
    have hg : ∀ g : Multiplicative (ZMod 2), g = Multiplicative.ofAdd (1 : ZMod 2) ^ g.toAdd.val := by decide +kernel
    rw [hg g]
    exact Subgroup.pow_mem _ h1 _) (fun _ => mul_comm)

end QLDPC.Props
