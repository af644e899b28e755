import Verif.Lemmas.Simplex
import Mathlib.Algebra.Field.ZMod

/-! # Property C75: classical simplex codes -/

namespace QLDPC.Props

open QLDPC QLDPC.Spec

set_option linter.unusedSectionVars false

variable {F : Type} [Field F] [DecidableEq F]

/-- **C75**: `SimplexCode(k)` exists exactly for `2 ≤ k ≤ 7`. -/
theorem C75_exists (k : ℕ) : (∃ c, simplexCode F k = some c) ↔ 2 ≤ k ∧ k ≤ 7 := by
  unfold simplexCode
  constructor
  · rintro ⟨c, hc⟩
    rw [Option.map_eq_some_iff] at hc
    obtain ⟨s, hs, _⟩ := hc
    unfold simplexExponents at hs
    split at hs <;> simp_all
  · rintro ⟨h1, h2⟩
    interval_cases k <;> exact ⟨_, rfl⟩

/-- **C75**: over the field with two elements it has `2^k - 1` bits, dimension `k` as advertised, and every
nonzero word has weight `2^(k-1)`, the advertised distance. -/
theorem C75_parameters (hb : ∀ x : F, x = 0 ∨ x = 1) (k : ℕ) (c) (hc : simplexCode F k = some c) :
    codeDim c.matrix = k ∧ c.dimension = k ∧
    (∀ w, IsWord c.matrix w → w ≠ 0 → hammingNorm w = 2 ^ (k - 1)) ∧
    IsMinDistance c.matrix (2 ^ (k - 1)) ∧ c.dist? = some (some (2 ^ (k - 1))) := by
  have hk := (C75_exists k).1 ⟨c, hc⟩
  unfold simplexCode at hc
  rw [Option.map_eq_some_iff] at hc
  obtain ⟨s, hs, rfl⟩ := hc
  have main : codeDim ((List.range (2 ^ k - 1)).map fun row => simplexRow F (2 ^ k - 1) s row) = k ∧
      ∀ w, IsWord ((List.range (2 ^ k - 1)).map fun row => simplexRow F (2 ^ k - 1) s row) w → w ≠ 0 →
        hammingNorm w = 2 ^ (k - 1) := by
    obtain ⟨h1, h2⟩ := hk
    interval_cases k <;> (simp only [simplexExponents, Option.some.injEq] at hs; subst hs)
    · exact simplex_of_seeds hb (by norm_num) (by norm_num) (by norm_num) seeds2
    · exact simplex_of_seeds hb (by norm_num) (by norm_num) (by norm_num) seeds3
    · exact simplex_of_seeds hb (by norm_num) (by norm_num) (by norm_num) seeds4
    · exact simplex_of_seeds hb (by norm_num) (by norm_num) (by norm_num) seeds5
    · exact simplex_of_seeds hb (by norm_num) (by norm_num) (by norm_num) seeds6
    · exact simplex_of_seeds hb (by norm_num) (by norm_num) (by norm_num) seeds7
  refine ⟨main.1, rfl, main.2, ⟨?_, ?_⟩, rfl⟩
  · have hne : codeSpace ((List.range (2 ^ k - 1)).map fun row => simplexRow F (2 ^ k - 1) s row) ≠ ⊥ := by
      intro h
      have := main.1
      unfold codeDim at this
      rw [h, finrank_bot] at this
      omega
    obtain ⟨w, hw, hw0⟩ := Submodule.exists_mem_ne_zero_of_ne_bot hne
    exact ⟨w, hw, hw0, (main.2 w hw hw0).symm⟩
  · rintro d ⟨w, hw, hw0, rfl⟩
    exact (main.2 w hw hw0).ge

example : ∀ x : ZMod 2, x = 0 ∨ x = 1 := by decide +kernel
example : (simplexCode (ZMod 2) 2).map (fun c => c.matrix.map List.ofFn) =
    some [[1, 1, 1], [1, 1, 1], [1, 1, 1]] := by decide +kernel
example : ∃ c, simplexCode (ZMod 2) 7 = some c ∧ IsMinDistance c.matrix 64 :=
  let ⟨c, h⟩ := (C75_exists (F := ZMod 2) 7).2 (by norm_num)
  ⟨c, h, (C75_parameters (by decide +kernel) 7 c h).2.2.2.1⟩

#print axioms C75_exists
#print axioms C75_parameters

end QLDPC.Props
