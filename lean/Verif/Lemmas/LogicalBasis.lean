import Verif.Lemmas.StdStabilizer

/-!
# Consequences of the relations between logical operators
-/

namespace QLDPC

open Spec

set_option linter.unusedSectionVars false

variable {F : Type} [Field F] [DecidableEq F] {n : ℕ}

theorem sform_sum_left {ι : Type} (s : Finset ι) (f : ι → Fin (n + n) → F) (q : Fin (n + n) → F) :
    sform (∑ i ∈ s, f i) q = ∑ i ∈ s, sform (f i) q := by
  classical
  induction s using Finset.induction_on with
  | empty => simp [sform_zero_left]
  | insert a s ha ih => rw [Finset.sum_insert ha, Finset.sum_insert ha, sform_add_left, ih]

theorem sform_add_right (p q q' : Fin (n + n) → F) : sform p (q + q') = sform p q + sform p q' := by
  rw [sform_comm, sform_add_left, sform_comm q p, sform_comm q' p]; ring

theorem sform_smul_right (c : F) (p q : Fin (n + n) → F) : sform p (c • q) = c * sform p q := by
  rw [sform_comm, sform_smul_left, sform_comm q p]; ring

theorem sform_sum_right {ι : Type} (s : Finset ι) (f : ι → Fin (n + n) → F) (q : Fin (n + n) → F) :
    sform q (∑ i ∈ s, f i) = ∑ i ∈ s, sform q (f i) := by
  rw [sform_comm, sform_sum_left, ← Finset.sum_neg_distrib]
  exact Finset.sum_congr rfl fun i _ => by rw [sform_comm q]

/-- `symplectic_conjugate` as a linear equivalence. -/
def conjLin (F : Type) [Field F] [DecidableEq F] (n : ℕ) :
    (Fin (n + n) → F) ≃ₗ[F] (Fin (n + n) → F) where
  toFun := symplecticConjugate
  map_add' a b := by
    funext i
    refine Fin.addCases (fun i => ?_) (fun i => ?_) i <;>
      simp [symplecticConjugate, -Fin.natAdd_eq_addNat, add_comm]
  map_smul' c a := by
    funext i
    refine Fin.addCases (fun i => ?_) (fun i => ?_) i <;>
      simp [symplecticConjugate, -Fin.natAdd_eq_addNat]
  invFun v := - symplecticConjugate v
  left_inv v := by
    funext i
    refine Fin.addCases (fun i => ?_) (fun i => ?_) i <;>
      simp [symplecticConjugate, -Fin.natAdd_eq_addNat]
  right_inv v := by
    funext i
    refine Fin.addCases (fun i => ?_) (fun i => ?_) i <;>
      simp [symplecticConjugate, -Fin.natAdd_eq_addNat]

theorem rank_conj (M : Rows F (n + n)) : rank (M.map symplecticConjugate) = rank M := by
  rw [← finrank_rowSpan, ← finrank_rowSpan]
  have : M.map symplecticConjugate = M.map (conjLin F n).toLinearMap := rfl
  rw [this, rowSpan_map]
  exact LinearEquiv.finrank_map_eq (conjLin F n) _

theorem mem_kernel_conj {M : Rows F (n + n)} {p : Fin (n + n) → F} :
    p ∈ kernel (M.map symplecticConjugate) ↔ ∀ r ∈ M, sform r p = 0 := by
  constructor
  · intro h r hr
    rw [← dot_symplecticConjugate]
    exact h _ (List.mem_map.2 ⟨r, hr, rfl⟩)
  · intro h r hr
    obtain ⟨q, hq, rfl⟩ := List.mem_map.1 hr
    rw [dot_symplecticConjugate]; exact h q hq

section
variable {M LX LZ : Rows F (n + n)} (h : IsLogicalBasis M LX LZ)
include h

/-- The exponents of a product of logical operators are its symplectic products. -/
theorem Spec.IsLogicalBasis.sform_product (a b : ℕ → F) (j : ℕ) (hj : j < LX.length) :
    sform (logicalProduct LX LZ a b) (LZ[j]'(h.len ▸ hj)) = a j ∧
      sform LX[j] (logicalProduct LX LZ a b) = b j := by
  unfold logicalProduct
  constructor
  · rw [sform_add_left, sform_sum_left, sform_sum_left]
    rw [Finset.sum_eq_single ⟨j, hj⟩, Finset.sum_eq_zero, add_zero]
    · rw [sform_smul_left]
      simp only [Fin.getElem_fin]
      rw [h.pair j j hj, if_pos rfl, mul_one]
    · intro i _
      simp only [sform_smul_left, Fin.getElem_fin]
      rw [h.zz _ (List.getElem_mem _) _ (List.getElem_mem _), mul_zero]
    · intro i _ hi
      rw [sform_smul_left]
      simp only [Fin.getElem_fin]
      rw [h.pair i.val j i.isLt, if_neg fun he => hi (Fin.ext he), mul_zero]
    · intro hh; exact absurd (Finset.mem_univ _) hh
  · rw [sform_add_right, sform_sum_right, sform_sum_right]
    have hj' : j < LZ.length := h.len ▸ hj
    rw [Finset.sum_eq_zero, zero_add, Finset.sum_eq_single ⟨j, hj'⟩]
    · rw [sform_smul_right]
      simp only [Fin.getElem_fin]
      rw [h.pair j j hj hj', if_pos rfl, mul_one]
    · intro i _ hi
      rw [sform_smul_right]
      simp only [Fin.getElem_fin]
      rw [h.pair j i.val hj i.isLt, if_neg fun he => hi (Fin.ext he.symm), mul_zero]
    · intro hh; exact absurd (Finset.mem_univ _) hh
    · intro i _
      simp only [sform_smul_right, Fin.getElem_fin]
      rw [h.xx _ (List.getElem_mem _) _ (List.getElem_mem _), mul_zero]

/-- No nontrivial product of logical operators is a product of checks. -/
theorem Spec.IsLogicalBasis.independent (a b : ℕ → F) (hc : logicalProduct LX LZ a b ∈ rowSpan M) :
    ∀ j < LX.length, a j = 0 ∧ b j = 0 := by
  intro j hj
  obtain ⟨h1, h2⟩ := h.sform_product a b j hj
  rw [← h1, ← h2]
  constructor
  · exact sform_span_left (fun r hr => h.commZ r hr _ (List.getElem_mem _)) hc
  · apply sform_span_right _ hc
    intro r hr
    rw [sform_comm, h.commX r hr _ (List.getElem_mem _), neg_zero]

theorem Spec.IsLogicalBasis.product_mem (a b : ℕ → F) :
    logicalProduct LX LZ a b ∈ rowSpan (M ++ LX ++ LZ) := by
  unfold logicalProduct
  apply Submodule.add_mem <;> apply Submodule.sum_mem <;> intro i _ <;> apply Submodule.smul_mem <;>
    apply subset_rowSpan
  · exact List.mem_append_left _ (List.mem_append_right _ (List.getElem_mem _))
  · exact List.mem_append_right _ (List.getElem_mem _)

/-- The span of checks and logical operators has dimension at least `rank M + 2 k`. -/
theorem Spec.IsLogicalBasis.finrank_ge :
    rank M + 2 * LX.length ≤ Module.finrank F (rowSpan (M ++ LX ++ LZ)) := by
  have hmemX : ∀ j : Fin LX.length, j.val < LZ.length := fun j => h.len ▸ j.isLt
  let φ : rowSpan (M ++ LX ++ LZ) →ₗ[F] (Fin LX.length → F) × (Fin LX.length → F) :=
    { toFun := fun p => (fun j => sform p.1 (LZ[j.val]'(hmemX j)), fun j => sform LX[j] p.1)
      map_add' := by
        intro p q
        refine Prod.ext (funext fun j => ?_) (funext fun j => ?_)
        · exact sform_add_left _ _ _
        · exact sform_add_right _ _ _
      map_smul' := by
        intro c p
        refine Prod.ext (funext fun j => ?_) (funext fun j => ?_)
        · exact sform_smul_left _ _ _
        · exact sform_smul_right _ _ _ }
  have hsurj : Function.Surjective φ := by
    rintro ⟨a, b⟩
    let a' : ℕ → F := fun i => if hi : i < LX.length then a ⟨i, hi⟩ else 0
    let b' : ℕ → F := fun i => if hi : i < LX.length then b ⟨i, hi⟩ else 0
    refine ⟨⟨logicalProduct LX LZ a' b', h.product_mem a' b'⟩, ?_⟩
    refine Prod.ext (funext fun j => ?_) (funext fun j => ?_)
    · have := (h.sform_product a' b' j.val j.isLt).1
      simp only [a', j.isLt, dif_pos] at this
      exact this
    · have := (h.sform_product a' b' j.val j.isLt).2
      simp only [b', j.isLt, dif_pos] at this
      exact this
  have hle : rowSpan M ≤ rowSpan (M ++ LX ++ LZ) :=
    rowSpan_mono fun r hr => List.mem_append_left _ (List.mem_append_left _ hr)
  have hker : (rowSpan M).comap (rowSpan (M ++ LX ++ LZ)).subtype ≤ LinearMap.ker φ := by
    intro p hp
    rw [LinearMap.mem_ker]
    refine Prod.ext (funext fun j => ?_) (funext fun j => ?_)
    · exact sform_span_left (fun r hr => h.commZ r hr _ (List.getElem_mem _)) hp
    · refine sform_span_right (fun r hr => ?_) hp
      simp only [Fin.getElem_fin]
      rw [sform_comm, h.commX r hr _ (List.getElem_mem _), neg_zero]
  have h1 := LinearMap.finrank_range_add_finrank_ker φ
  have h2 : Module.finrank F (LinearMap.range φ) = LX.length + LX.length := by
    rw [LinearMap.range_eq_top.2 hsurj, finrank_top]; simp
  have h3 := Submodule.finrank_mono hker
  have h4 : Module.finrank F ((rowSpan M).comap (rowSpan (M ++ LX ++ LZ)).subtype) = rank M := by
    rw [← finrank_rowSpan]
    exact (Submodule.comapSubtypeEquivOfLe hle).finrank_eq
  omega

/-- If there are `n - rank` pairs of logical operators, every operator that commutes with the checks
is a product of checks and logical operators. -/
theorem Spec.IsLogicalBasis.complete (hM : AllCommute M) (hk : rank M + LX.length = n)
    {p : Fin (n + n) → F} (hp : ∀ r ∈ M, sform r p = 0) : p ∈ rowSpan (M ++ LX ++ LZ) := by
  have hle : rowSpan (M ++ LX ++ LZ) ≤ kernel (M.map symplecticConjugate) := by
    rw [rowSpan_le]
    intro l hl
    rw [mem_kernel_conj]
    intro r hr
    rcases List.mem_append.1 hl with hl | hl
    · rcases List.mem_append.1 hl with hl | hl
      · exact hM r hr l hl
      · exact h.commX r hr l hl
    · exact h.commZ r hr l hl
  have h1 := h.finrank_ge
  have h2 := finrank_kernel (M.map symplecticConjugate)
  rw [rank_conj] at h2
  have heq : rowSpan (M ++ LX ++ LZ) = kernel (M.map symplecticConjugate) :=
    Submodule.eq_of_le_of_finrank_le hle (by omega)
  rw [heq, mem_kernel_conj]
  exact hp

end

end QLDPC
