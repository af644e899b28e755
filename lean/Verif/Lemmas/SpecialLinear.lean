import Mathlib.LinearAlgebra.Matrix.SpecialLinearGroup
import Mathlib.FieldTheory.Finite.Basic
import Mathlib.LinearAlgebra.Matrix.Permutation
import Mathlib.Logic.Equiv.Fin.Rotate
import Mathlib.GroupTheory.Perm.Fin
import Mathlib.Tactic.LinearCombination
import Mathlib.Tactic.FieldSimp
import Mathlib.Tactic.Ring

/-!
# Two matrices that generate the special linear group
-/

namespace QLDPC.SLin

open Matrix Matrix.SpecialLinearGroup

variable {F : Type} [Field F]

section General

variable {ι : Type} [Fintype ι] [DecidableEq ι]

/-- A diagonal matrix `diag(a, 1/a)` is a product of transvections. -/
theorem diag2n_eq {i j : ι} (hij : i ≠ j) (a : F) (ha : a ≠ 0) :
    diag2n hij a ha = SpecialLinearGroup.transvection hij a * SpecialLinearGroup.transvection hij.symm (-a⁻¹) *
      SpecialLinearGroup.transvection hij a * SpecialLinearGroup.transvection hij (-1) *
      SpecialLinearGroup.transvection hij.symm 1 * SpecialLinearGroup.transvection hij (-1) := by
  apply Subtype.ext
  rw [diag2n_coe]
  simp only [coe_mul, transvection_coe, mul_add, add_mul, mul_one, one_mul, single_mul_single_same, single_mul_single_of_ne,
    hij, hij.symm, ne_eq, not_false_eq_true, not_true_eq_false, add_zero, zero_add]
  have e1 : a * -a⁻¹ = -1 := by field_simp
  have e2 : -a⁻¹ * a = -1 := by field_simp
  ext k l
  simp only [Matrix.add_apply, Matrix.single, Matrix.of_apply, Matrix.one_apply, diagonal_apply, eq_comm (a := k) (b := i),
    eq_comm (a := k) (b := j), e1, e2]
  have hji : j ≠ i := hij.symm
  by_cases h1 : i = k <;> by_cases h2 : j = k <;> by_cases h3 : i = l <;> by_cases h4 : j = l <;>
    by_cases h5 : k = l
  all_goals first
    | (exfalso; subst_vars; simp_all; done)
    | (subst_vars; simp_all; done)
    | (subst_vars; simp_all; ring)

/-- The transvections generate. -/
theorem closure_eq_top_of_transvections [Nontrivial ι] (G : Subgroup (SpecialLinearGroup ι F))
    (h : ∀ (i j : ι) (hij : i ≠ j) (c : F), SpecialLinearGroup.transvection hij c ∈ G) : G = ⊤ := by
  refine eq_top_iff.2 fun M _ => ?_
  refine diagonal_transvection_induction' (fun M => M ∈ G) M (fun i j hij c hc => ?_) h (fun A B => G.mul_mem)
  rw [diag2n_eq]
  exact G.mul_mem (G.mul_mem (G.mul_mem (G.mul_mem (G.mul_mem (h _ _ _ _) (h _ _ _ _)) (h _ _ _ _)) (h _ _ _ _))
    (h _ _ _ _)) (h _ _ _ _)

/-- Commutator of transvections. -/
theorem transvection_commutator {i j k : ι} (hij : i ≠ j) (hjk : j ≠ k) (hik : i ≠ k) (b c : F) :
    SpecialLinearGroup.transvection hij b * SpecialLinearGroup.transvection hjk c *
      SpecialLinearGroup.transvection hij (-b) * SpecialLinearGroup.transvection hjk (-c) =
      SpecialLinearGroup.transvection hik (b * c) := by
  apply Subtype.ext
  simp only [coe_mul, transvection_coe, mul_add, add_mul, mul_one, one_mul, single_mul_single_same, single_mul_single_of_ne,
    hij, hij.symm, hjk, hjk.symm, hik, hik.symm, ne_eq, not_false_eq_true, not_true_eq_false, add_zero, zero_add]
  ext k l
  simp only [Matrix.add_apply, Matrix.single, Matrix.of_apply]
  split_ifs <;> simp_all

end General

/-- In a finite field every element is a sum of two squares. -/
theorem sum_two_squares [Fintype F] (x : F) : ∃ u v : F, u ^ 2 + v ^ 2 = x := by
  classical
  by_cases h : ringChar F = 2
  · obtain ⟨r, hr⟩ := FiniteField.isSquare_of_char_two h x
    exact ⟨r, 0, by rw [hr]; ring⟩
  · have ho := FiniteField.odd_card_of_char_ne_two h
    obtain ⟨u, v, huv⟩ := FiniteField.exists_root_sum_quadratic (f := Polynomial.X ^ 2) (g := Polynomial.X ^ 2 - Polynomial.C x)
      (Polynomial.degree_X_pow 2) (Polynomial.degree_X_pow_sub_C (by decide) _) ho
    refine ⟨u, v, ?_⟩
    simp only [Polynomial.eval_pow, Polynomial.eval_X, Polynomial.eval_sub, Polynomial.eval_C] at huv
    linear_combination huv


section Shift

open Fin.CommRing

variable {n : ℕ}

/-- Signs of the shift matrix. -/
def sg (F : Type) [Field F] (j : Fin (n + 2)) : F := if j = Fin.last (n + 1) then 1 else -1

theorem sg_mul_self (j : Fin (n + 2)) : sg F j * sg F j = 1 := by
  unfold sg; split_ifs <;> ring

theorem prod_sg : ∏ j : Fin (n + 2), sg F j = (-1) ^ (n + 1) := by
  rw [Fin.prod_univ_castSucc]
  simp [sg, (Fin.castSucc_lt_last _).ne]

/-- The matrix that maps `e_j` to `± e_{j + 1}`, cyclically. -/
def shiftMat (F : Type) [Field F] (n : ℕ) : Matrix (Fin (n + 2)) (Fin (n + 2)) F :=
  fun i j => if i = j + 1 then sg F j else 0

theorem det_shiftMat : (shiftMat F n).det = 1 := by
  have h : shiftMat F n = ((finRotate (n + 2))⁻¹ : Equiv.Perm _).permMatrix F * diagonal (sg F) := by
    ext i j
    rw [Matrix.mul_diagonal, Equiv.Perm.permMatrix, PEquiv.toMatrix_apply]
    simp only [shiftMat, Equiv.toPEquiv_apply, Option.mem_def, Option.some.injEq, Equiv.Perm.inv_eq_iff_eq, finRotate_succ_apply]
    split_ifs <;> simp
  rw [h, det_mul, det_permutation, det_diagonal, prod_sg, Equiv.Perm.sign_inv, sign_finRotate]
  push_cast
  rw [← mul_pow]
  simp

/-- The shift matrix in the special linear group. -/
def shiftSL (F : Type) [Field F] (n : ℕ) : SpecialLinearGroup (Fin (n + 2)) F := ⟨shiftMat F n, det_shiftMat⟩

theorem shift_single (i j : Fin (n + 2)) (c : F) :
    shiftMat F n * single i j c = single (i + 1) (j + 1) (sg F i * sg F j * c) * shiftMat F n := by
  ext k l
  rw [Matrix.mul_apply, Matrix.mul_apply, Finset.sum_eq_single i, Finset.sum_eq_single (j + 1)]
  · simp only [shiftMat, Matrix.single, Matrix.of_apply, add_left_inj]
    by_cases h1 : j = l <;> by_cases h2 : i + 1 = k
    · subst h1; subst h2
      simp only [and_self, if_true]
      linear_combination (-(sg F i * c)) * sg_mul_self (F := F) j
    · simp [h2, Ne.symm h2]
    · simp [h1]
    · simp [h1]
  · intro b _ hb
    simp [Matrix.single, hb.symm]
  · simp
  · intro b _ hb
    simp [Matrix.single, hb.symm]
  · simp

theorem succ_ne {i j : Fin (n + 2)} (h : i ≠ j) : i + 1 ≠ j + 1 := fun e => h (add_right_cancel e)

theorem shift_transvection {i j : Fin (n + 2)} (hij : i ≠ j) (c : F) :
    shiftSL F n * SpecialLinearGroup.transvection hij c =
      SpecialLinearGroup.transvection (succ_ne hij) (sg F i * sg F j * c) * shiftSL F n := by
  apply Subtype.ext
  rw [coe_mul, coe_mul, transvection_coe, transvection_coe, mul_add, add_mul, mul_one, one_mul]
  exact congrArg (shiftMat F n + ·) (shift_single i j c)

theorem mem_of_shift {G : Subgroup (SpecialLinearGroup (Fin (n + 2)) F)} (hS : shiftSL F n ∈ G) {i j : Fin (n + 2)}
    (hij : i ≠ j) (h : ∀ c : F, SpecialLinearGroup.transvection hij c ∈ G) (c : F) :
    SpecialLinearGroup.transvection (succ_ne hij) c ∈ G := by
  have e := shift_transvection hij (sg F i * sg F j * c)
  have e2 : sg F i * sg F j * (sg F i * sg F j * c) = c := by
    linear_combination c * sg F j * sg F j * sg_mul_self (F := F) i + c * sg_mul_self (F := F) j
  rw [e2] at e
  rw [← mul_inv_eq_iff_eq_mul.2 e]
  exact G.mul_mem (G.mul_mem hS (h _)) (G.inv_mem hS)

theorem cast_ne_zero {k : ℕ} (h0 : 0 < k) (hk : k < n + 2) : ((k : ℕ) : Fin (n + 2)) ≠ 0 := by
  intro h
  have := congrArg Fin.val h
  rw [Fin.val_natCast, Nat.mod_eq_of_lt hk] at this
  simp at this
  omega

/-- A group that contains the shift and the transvections in positions `0, 1` is everything. -/
theorem eq_top_of_shift {G : Subgroup (SpecialLinearGroup (Fin (n + 2)) F)} (hS : shiftSL F n ∈ G)
    (h01 : ∀ (h : (0 : Fin (n + 2)) ≠ 1) (c : F), SpecialLinearGroup.transvection h c ∈ G) : G = ⊤ := by
  have A : ∀ m : ℕ, ∀ (i j : Fin (n + 2)) (hij : i ≠ j) (c : F), i = (m : Fin (n + 2)) → j = i + 1 →
      SpecialLinearGroup.transvection hij c ∈ G := by
    intro m
    induction m with
    | zero => intro i j hij c hi hj; subst hj; subst hi; simpa using h01 (by simp) c
    | succ m ih =>
      intro i j hij c hi hj
      subst hj; subst hi
      have hne : ((m : ℕ) : Fin (n + 2)) ≠ (m : ℕ) + 1 := by simp
      have := mem_of_shift hS hne (fun c => ih _ _ hne c rfl rfl) c
      simpa using this
  have B : ∀ k : ℕ, k ≤ n → ∀ (i j : Fin (n + 2)) (hij : i ≠ j) (c : F), j = i + ((k + 1 : ℕ) : Fin (n + 2)) →
      SpecialLinearGroup.transvection hij c ∈ G := by
    intro k
    induction k with
    | zero =>
      intro _ i j hij c hj
      exact A i.1 i j hij c (by simp) (by simpa using hj)
    | succ k ih =>
      intro hk i j hij c hj
      have hik : i ≠ i + ((k + 1 : ℕ) : Fin (n + 2)) := by
        intro e
        exact cast_ne_zero (n := n) (k := k + 1) (by omega) (by omega) (left_eq_add.1 e)
      have hkj : i + ((k + 1 : ℕ) : Fin (n + 2)) ≠ j := by
        rw [hj]
        intro e
        have := add_left_cancel e
        push_cast at this
        simp at this
      have e := transvection_commutator hik hkj hij c 1
      rw [mul_one] at e
      rw [← e]
      have h1 : ∀ c, SpecialLinearGroup.transvection hkj c ∈ G := fun c =>
        A _ _ _ hkj c (Fin.cast_val_eq_self _).symm (by rw [hj]; push_cast; ring)
      have h2 := fun c => ih (by omega) i _ hik c rfl
      exact G.mul_mem (G.mul_mem (G.mul_mem (h2 _) (h1 _)) (h2 _)) (h1 _)
  refine closure_eq_top_of_transvections G fun i j hij c => ?_
  have hd : j - i ≠ 0 := sub_ne_zero.2 hij.symm
  have hp : 0 < (j - i).1 := Nat.pos_of_ne_zero fun h => hd (Fin.ext (by simpa using h))
  have hlt := (j - i).2
  refine B ((j - i).1 - 1) (by omega) i j hij c ?_
  rw [Nat.sub_add_cancel hp, Fin.cast_val_eq_self]
  ring

/-- Case `q ≤ 3`. -/
theorem eq_top_of_small [Fintype F] (hq : Fintype.card F ≤ 3) {G : Subgroup (SpecialLinearGroup (Fin (n + 2)) F)}
    (hS : shiftSL F n ∈ G) (h01 : (0 : Fin (n + 2)) ≠ 1) (h1 : SpecialLinearGroup.transvection h01 (1 : F) ∈ G) : G = ⊤ := by
  refine eq_top_of_shift hS fun _ c => ?_
  by_cases hc : c = 0
  · subst hc; rw [transvection_coeff_zero]; exact G.one_mem
  · have h := FiniteField.pow_card_sub_one_eq_one c hc
    have h2 : 2 ≤ Fintype.card F := Fintype.one_lt_card
    have hcc : c ^ 2 = 1 := by
      have : Fintype.card F = 2 ∨ Fintype.card F = 3 := by omega
      rcases this with e | e <;> rw [e] at h
      · simp only [Nat.add_one_sub_one, pow_one] at h; simp [h]
      · simpa using h
    rcases mul_self_eq_one_iff.1 (show c * c = 1 by rw [← sq]; exact hcc) with e | e
    · rw [e]; exact h1
    · rw [e, ← transvection_inv]; exact G.inv_mem h1

/-- A diagonal matrix in the special linear group. -/
def diagSL (D : Fin (n + 2) → F) (hD : ∏ i, D i = 1) : SpecialLinearGroup (Fin (n + 2)) F :=
  ⟨diagonal D, by rw [det_diagonal, hD]⟩

theorem diagSL_ne_zero {D : Fin (n + 2) → F} (hD : ∏ i, D i = 1) (i : Fin (n + 2)) : D i ≠ 0 := by
  intro h
  rw [Finset.prod_eq_zero (Finset.mem_univ i) h] at hD
  exact zero_ne_one hD

theorem diag_transvection {D : Fin (n + 2) → F} (hD : ∏ i, D i = 1) {i j : Fin (n + 2)} (hij : i ≠ j) (c : F) :
    diagSL D hD * SpecialLinearGroup.transvection hij c =
      SpecialLinearGroup.transvection hij (D i * (D j)⁻¹ * c) * diagSL D hD := by
  have hj := diagSL_ne_zero hD j
  apply Subtype.ext
  rw [coe_mul, coe_mul, transvection_coe, transvection_coe, mul_add, add_mul, mul_one, one_mul]
  refine congrArg (diagonal D + ·) ?_
  change diagonal D * single i j c = single i j _ * diagonal D
  ext k l
  rw [diagonal_mul, mul_diagonal]
  simp only [Matrix.single, Matrix.of_apply]
  split_ifs with h
  · rw [← h.1, ← h.2]; field_simp
  · simp

theorem prod_shift {D : Fin (n + 2) → F} (hD : ∏ i, D i = 1) : ∏ i, D (i - 1) = 1 := by
  rw [← hD]
  exact Fintype.prod_equiv (Equiv.subRight 1) _ _ fun i => rfl

theorem shift_diag {D : Fin (n + 2) → F} (hD : ∏ i, D i = 1) :
    shiftSL F n * diagSL D hD = diagSL (fun i => D (i - 1)) (prod_shift hD) * shiftSL F n := by
  apply Subtype.ext
  rw [coe_mul, coe_mul]
  change shiftMat F n * diagonal D = diagonal _ * shiftMat F n
  ext k l
  rw [mul_diagonal, diagonal_mul]
  simp only [shiftMat]
  split_ifs with h
  · subst h; rw [add_sub_cancel_right]; ring
  · simp

/-- Case `q > 3`. -/
theorem eq_top_of_large [Fintype F] (a : F) (ha : ∀ x : F, x ≠ 0 → ∃ k : ℕ, x = a ^ k) (ha2 : a ^ 2 ≠ 1)
    {G : Subgroup (SpecialLinearGroup (Fin (n + 2)) F)} {D : Fin (n + 2) → F} (hD : ∏ i, D i = 1)
    (hD0 : D 0 = a) (hD1 : D 1 = a⁻¹) (hD2 : ∀ i, i ≠ 0 → i ≠ 1 → D i = 1)
    (hh : diagSL D hD ∈ G) (h01 : (0 : Fin (n + 2)) ≠ 1)
    (hw : SpecialLinearGroup.transvection h01 (1 : F) * shiftSL F n ∈ G) : G = ⊤ := by
  have ha0 : a ≠ 0 := hD0 ▸ diagSL_ne_zero hD 0
  have ha1 : a ≠ 1 := by rintro rfl; simp at ha2
  set X : F → SpecialLinearGroup (Fin (n + 2)) F := fun c => SpecialLinearGroup.transvection h01 c with hX
  have Xadd : ∀ b c, X (b + c) = X b * X c := fun b c => transvection_add h01 b c
  have Xinv : ∀ c, (X c)⁻¹ = X (-c) := fun c => transvection_inv h01 c
  set h := diagSL D hD with hhdef
  set t := diagSL (fun i => D (i - 1)) (prod_shift hD) with ht
  have hXh : ∀ c, h * X c = X (a ^ 2 * c) * h := by
    intro c
    have := diag_transvection hD h01 c
    rw [hD0, hD1, inv_inv, ← sq] at this
    exact this
  obtain ⟨τ, hτ, htX⟩ : ∃ τ : F, τ ≠ 1 ∧ ∀ c, t * X c = X (τ * c) * t := by
    refine ⟨D (0 - 1) * (D (1 - 1))⁻¹, ?_, fun c => diag_transvection (prod_shift hD) h01 c⟩
    rw [sub_self, hD0]
    by_cases e : (0 - 1 : Fin (n + 2)) = 1
    · rw [e, hD1]
      intro e2
      apply ha2
      field_simp at e2
      rw [← e2]
    · rw [hD2 _ (by simp) e]
      intro e2
      field_simp at e2
      exact ha1 e2.symm
  have hcomm : h * t = t * h := by
    apply Subtype.ext
    change diagonal _ * diagonal _ = diagonal _ * diagonal _
    rw [diagonal_mul_diagonal, diagonal_mul_diagonal]
    congr 1
    funext i
    exact mul_comm _ _
  set W := X 1 * shiftSL F n with hW
  have hT : W * h * W⁻¹ ∈ G := G.mul_mem (G.mul_mem hw hh) (G.inv_mem hw)
  have hTe : W * h * W⁻¹ = X (1 - τ) * t := by
    rw [mul_inv_eq_iff_eq_mul, hW]
    calc X 1 * shiftSL F n * h = X 1 * (shiftSL F n * h) := mul_assoc _ _ _
      _ = X 1 * (t * shiftSL F n) := by rw [hhdef, shift_diag hD]
      _ = X (1 - τ) * (X (τ * 1) * t) * shiftSL F n := by
          rw [← mul_assoc, ← mul_assoc, ← Xadd]; congr 3; ring
      _ = _ := by rw [← htX]; simp only [mul_assoc]
  have hy : X ((a ^ 2 - 1) * (1 - τ)) ∈ G := by
    have e : h * (X (1 - τ) * t) * h⁻¹ * (X (1 - τ) * t)⁻¹ = X ((a ^ 2 - 1) * (1 - τ)) := by
      rw [mul_inv_eq_iff_eq_mul, mul_inv_eq_iff_eq_mul, ← mul_assoc, hXh, mul_assoc, hcomm]
      rw [← mul_assoc, ← mul_assoc, ← Xadd]
      congr 3; ring
    rw [← e]
    rw [hTe] at hT
    exact G.mul_mem (G.mul_mem (G.mul_mem hh hT) (G.inv_mem hh)) (G.inv_mem hT)
  set c0 := (a ^ 2 - 1) * (1 - τ) with hc0
  have hc0' : c0 ≠ 0 := mul_ne_zero (sub_ne_zero.2 ha2) (sub_ne_zero.2 hτ.symm)
  have hpow : ∀ k : ℕ, X ((a ^ k) ^ 2 * c0) ∈ G := by
    intro k
    induction k with
    | zero => simpa using hy
    | succ k ih =>
      have e := hXh ((a ^ k) ^ 2 * c0)
      have e2 : a ^ 2 * ((a ^ k) ^ 2 * c0) = (a ^ (k + 1)) ^ 2 * c0 := by ring
      rw [e2] at e
      rw [← mul_inv_eq_iff_eq_mul.2 e]
      exact G.mul_mem (G.mul_mem hh ih) (G.inv_mem hh)
  have hsq : ∀ u : F, X (u ^ 2 * c0) ∈ G := by
    intro u
    by_cases hu : u = 0
    · subst hu
      have : X (0 ^ 2 * c0) = 1 := by rw [hX]; simp
      rw [this]; exact G.one_mem
    · obtain ⟨k, rfl⟩ := ha u hu
      exact hpow k
  have hall : ∀ c, X c ∈ G := by
    intro c
    obtain ⟨u, v, huv⟩ := sum_two_squares (c / c0)
    have : c = u ^ 2 * c0 + v ^ 2 * c0 := by rw [← add_mul, huv, div_mul_cancel₀ _ hc0']
    rw [this, Xadd]
    exact G.mul_mem (hsq u) (hsq v)
  refine eq_top_of_shift ?_ fun _ c => hall c
  have e : shiftSL F n = (X 1)⁻¹ * W := by rw [hW, inv_mul_cancel_left]
  rw [e]
  exact G.mul_mem (G.inv_mem (hall 1)) hw

end Shift

end QLDPC.SLin
