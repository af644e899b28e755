import Verif.Model.MatrixGroups
import Verif.Lemmas.SpecialLinear

/-!
# Lemmas on the special linear groups that are built
-/

namespace QLDPC

open Matrix Matrix.SpecialLinearGroup Fin.CommRing

variable {F : Type} [Field F] [DecidableEq F]

namespace SLin

variable {n : ℕ}

theorem fin01 : (0 : Fin (n + 2)) ≠ 1 := by simp

theorem val_eq_zero_iff (i : Fin (n + 2)) : i.1 = 0 ↔ i = 0 := by rw [Fin.ext_iff]; simp

theorem val_eq_one_iff (i : Fin (n + 2)) : i.1 = 1 ↔ i = 1 := by rw [Fin.ext_iff]; simp

theorem val_eq_last_iff (i : Fin (n + 2)) : i.1 = n + 1 ↔ i = Fin.last (n + 1) := by rw [Fin.ext_iff]; simp

theorem shiftMat_apply (i j : Fin (n + 2)) :
    shiftMat F n i j = if i.1 = 0 ∧ j.1 = n + 1 then 1 else if i.1 = j.1 + 1 then -1 else 0 := by
  have hj := j.2
  have hi := i.2
  simp only [shiftMat, sg, ← val_eq_last_iff, Fin.ext_iff (a := i), Fin.val_add, Fin.val_one]
  by_cases h : j.1 = n + 1
  · rw [h, Nat.mod_self]
    by_cases h0 : i.1 = 0
    · simp [h0]
    · simp only [h0, if_false, false_and]; rw [if_neg]; omega
  · rw [Nat.mod_eq_of_lt (by omega)]
    simp only [h, and_false, if_false]

theorem transvection_apply (c : F) (i j : Fin (n + 2)) :
    (SpecialLinearGroup.transvection fin01 c).1 i j = if i.1 = 0 ∧ j.1 = 1 then c else (1 : Matrix _ _ F) i j := by
  rw [transvection_coe, Matrix.add_apply]
  simp only [val_eq_zero_iff, val_eq_one_iff, Matrix.single, Matrix.of_apply, eq_comm (a := (0 : Fin (n + 2))),
    eq_comm (a := (1 : Fin (n + 2)))]
  split_ifs with h
  · rw [h.1, h.2]; simp
  · simp

/-- The entries of `gen_x` for `q > 3`. -/
def genD (a : F) (i : Fin (n + 2)) : F := if i = 0 then a else if i = 1 then a⁻¹ else 1

theorem prod_genD {a : F} (ha : a ≠ 0) : ∏ i : Fin (n + 2), genD a i = 1 := by
  rw [Fin.prod_univ_succ, Fin.prod_univ_succ]
  have : ∀ i : Fin n, genD a (i.succ.succ) = 1 := by
    intro i
    have h1 : i.succ.succ ≠ (0 : Fin (n + 2)) := Fin.succ_ne_zero _
    have h2 : i.succ.succ ≠ (1 : Fin (n + 2)) := by
      intro h
      have := congrArg Fin.val h
      simp at this
    simp [genD, h1, h2]
  simp only [this, Finset.prod_const_one, mul_one]
  simp [genD, ha]

theorem mulTransShift (i j : Fin (n + 2)) :
    (SpecialLinearGroup.transvection fin01 (1 : F) * shiftSL F n).1 i j =
      if i.1 = 0 ∧ j.1 = 0 then -1 else shiftMat F n i j := by
  rw [coe_mul, transvection_coe, add_mul, one_mul]
  change shiftMat F n i j + ((single 0 1 1 : Matrix (Fin (n + 2)) (Fin (n + 2)) F) * shiftMat F n : Matrix (Fin (n + 2)) (Fin (n + 2)) F) i j = _
  rw [Matrix.mul_apply, Finset.sum_eq_single 1]
  · rw [shiftMat_apply 1 j]
    simp only [Matrix.single, Matrix.of_apply, val_eq_zero_iff, eq_comm (a := (0 : Fin (n + 2))) (b := i), and_true]
    by_cases h0 : i = 0
    · subst h0
      by_cases hj : j = 0
      · subst hj
        rw [shiftMat_apply]
        simp
      · have : j.1 ≠ 0 := fun h => hj ((val_eq_zero_iff j).1 h)
        simp [hj, this, Ne.symm this]
    · simp [h0]
  · intro b _ hb
    simp [Matrix.single, hb.symm]
  · simp

/-- The generating matrices for `q ≤ 3`. -/
theorem slMats_small {q : ℕ} (hq : q ≤ 3) (a : F) : slGeneratingMats (n + 2) q a =
    some ((SpecialLinearGroup.transvection fin01 (1 : F)).1, shiftMat F n) := by
  simp only [slGeneratingMats, setMatEntry, if_pos hq]
  rw [if_neg (by omega), if_pos ⟨by omega, by omega⟩, if_pos ⟨by omega, by omega⟩]
  simp only [Option.bind_eq_bind, Option.bind_some, Option.pure_def, Option.some.injEq, Prod.mk.injEq]
  constructor
  · ext i j; rw [transvection_apply]; rfl
  · ext i j; rw [shiftMat_apply]; rfl

/-- The generating matrices for `q > 3`. -/
theorem slMats_large {q : ℕ} (hq : ¬ q ≤ 3) {a : F} (ha : a ≠ 0) : slGeneratingMats (n + 2) q a =
    some ((diagSL (genD (n := n) a) (prod_genD ha)).1,
      (SpecialLinearGroup.transvection fin01 (1 : F) * shiftSL F n).1) := by
  simp only [slGeneratingMats, setMatEntry, if_neg hq]
  rw [if_neg (by omega), if_pos ⟨by omega, by omega⟩]
  simp only [Option.bind_eq_bind, Option.bind_some]
  rw [if_pos ⟨by omega, by omega⟩, Option.bind_some, if_pos ⟨by omega, by omega⟩, Option.bind_some,
    if_pos ⟨by omega, by omega⟩, Option.bind_some]
  simp only [Option.pure_def, Option.some.injEq, Prod.mk.injEq]
  constructor
  · ext i j
    change _ = diagonal (genD a) i j
    simp only [val_eq_zero_iff, val_eq_one_iff, diagonal_apply, genD, Matrix.one_apply]
    by_cases h0 : i = 0 <;> by_cases h1 : i = 1 <;> by_cases h2 : j = 0 <;> by_cases h3 : j = 1 <;>
      by_cases h4 : i = j <;> simp_all
  · ext i j
    rw [mulTransShift, shiftMat_apply]; rfl

end SLin

/-- The matrices that two elements of a finite special linear group generate. -/
theorem semigroup_closure_SL {d : ℕ} [Finite F] {X W : SpecialLinearGroup (Fin d) F}
    (h : Subgroup.closure {X, W} = ⊤) (M : Matrix (Fin d) (Fin d) F) :
    M ∈ Subsemigroup.closure {X.1, W.1} ↔ M.det = 1 := by
  constructor
  · intro hM
    induction hM using Subsemigroup.closure_induction with
    | mem x hx => rcases hx with rfl | rfl; exacts [X.2, W.2]
    | mul x y _ _ hx hy => rw [det_mul, hx, hy, one_mul]
  · intro hM
    have hpow : ∀ k : ℕ, (X ^ (k + 1)).1 ∈ Subsemigroup.closure {X.1, W.1} := by
      intro k
      induction k with
      | zero => rw [zero_add, pow_one]; exact Subsemigroup.subset_closure (Or.inl rfl)
      | succ k ih => rw [pow_succ, coe_mul]; exact Subsemigroup.mul_mem _ ih (Subsemigroup.subset_closure (Or.inl rfl))
    have hone : (1 : Matrix (Fin d) (Fin d) F) ∈ Subsemigroup.closure {X.1, W.1} := by
      have h1 := hpow (orderOf X - 1)
      rw [Nat.sub_add_cancel (orderOf_pos X), pow_orderOf_eq_one] at h1
      exact h1
    have hm : (⟨M, hM⟩ : SpecialLinearGroup (Fin d) F) ∈ Submonoid.closure {X, W} := by
      rw [← Subgroup.closure_toSubmonoid_of_finite, h]; trivial
    have key : ∀ g ∈ Submonoid.closure {X, W}, g.1 ∈ Subsemigroup.closure {X.1, W.1} := by
      intro g hg
      induction hg using Submonoid.closure_induction with
      | mem x hx =>
        rcases hx with rfl | rfl
        · exact Subsemigroup.subset_closure (Or.inl rfl)
        · exact Subsemigroup.subset_closure (Or.inr rfl)
      | one => exact hone
      | mul x y _ _ hx hy => rw [coe_mul]; exact Subsemigroup.mul_mem _ hx hy
    exact key _ hm

end QLDPC
