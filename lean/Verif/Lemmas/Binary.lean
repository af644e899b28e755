import Verif.Lemmas.Classical
import Verif.Lemmas.DistancePack

/-! Codes over a field with two elements, as bit strings. -/

set_option linter.unusedSectionVars false

namespace QLDPC

variable {F : Type} [Field F] [DecidableEq F] {n m : ℕ}

/-- `F` has only the elements 0 and 1. -/
def IsBinary (F : Type) [Field F] : Prop := ∀ x : F, x = 0 ∨ x = 1

theorem isBinary_of_list {els : List F} (hnd : els.Nodup) (hall : ∀ x, x ∈ els)
    (h2 : els.length = 2) : IsBinary F := by
  intro x
  by_contra h
  rw [not_or] at h
  have hsub : [x, 0, 1].Subperm els := by
    apply List.Nodup.subperm
    · simp [h.1, h.2]
    · intro y _; exact hall y
  have := hsub.length_le
  simp at this; omega

theorem IsBinary.one_add_one (h : IsBinary F) : (1 : F) + 1 = 0 := by
  rcases h (1 + 1) with h | h
  · exact h
  · have : (1 : F) = 0 := by simpa using h
    exact absurd this one_ne_zero

/-- the vector over `ZMod 2` with the same support -/
def toZ2 (v : Fin n → F) : Fin n → ZMod 2 := fun i => if v i ≠ 0 then 1 else 0

theorem bitsOf_toZ2 (v : Fin n → F) : bitsOf (toZ2 v) = List.ofFn fun i => decide (v i ≠ 0) := by
  unfold bitsOf toZ2
  congr 1
  funext i
  by_cases h : v i = 0 <;> simp [h]

theorem toZ2_zero : toZ2 (0 : Fin n → F) = 0 := by funext i; simp [toZ2]

theorem toZ2_add (hF : IsBinary F) (v w : Fin n → F) : toZ2 (v + w) = toZ2 v + toZ2 w := by
  funext i
  rcases hF (v i) with h | h <;> rcases hF (w i) with h' | h' <;>
    simp [toZ2, h, h', hF.one_add_one] <;> decide

theorem toZ2_sum (hF : IsBinary F) (l : List (Fin n → F)) : toZ2 l.sum = (l.map toZ2).sum := by
  induction l with
  | nil => simp [toZ2_zero]
  | cons a l ih => rw [List.sum_cons, toZ2_add hF, ih, List.map_cons, List.sum_cons]

theorem hammingNorm_toZ2 (v : Fin n → F) : hammingNorm (toZ2 v) = hammingNorm v := by
  unfold hammingNorm toZ2
  congr 1
  ext i
  simp

theorem sublist_sum_vecMat {G t : Rows F n} (h : t.Sublist G) :
    ∃ c : List F, c.length = G.length ∧ t.sum = vecMat c G ∧ (t ≠ [] → c ≠ List.replicate G.length 0) := by
  induction h with
  | slnil => exact ⟨[], rfl, by simp [vecMat_nil], by simp⟩
  | @cons t G g h ih =>
    obtain ⟨c, hc, hs, hne⟩ := ih
    refine ⟨0 :: c, by simp [hc], by rw [vecMat_cons, hs]; simp, fun ht h0 => hne ht ?_⟩
    rw [List.length_cons, List.replicate_succ] at h0
    exact (List.cons.inj h0).2
  | @cons_cons t G g h ih =>
    obtain ⟨c, hc, hs, hne⟩ := ih
    refine ⟨1 :: c, by simp [hc], by rw [vecMat_cons, List.sum_cons, hs]; simp, fun _ h0 => ?_⟩
    rw [List.length_cons, List.replicate_succ] at h0
    exact one_ne_zero (List.cons.inj h0).1

theorem vecMat_sublist_sum (hF : IsBinary F) (G : Rows F n) (c : List F) (hc : c.length = G.length) :
    ∃ t : Rows F n, t.Sublist G ∧ t.sum = vecMat c G := by
  induction G generalizing c with
  | nil =>
    simp at hc; subst hc
    exact ⟨[], by simp, by simp [vecMat_nil]⟩
  | cons g G ih =>
    cases c with
    | nil => simp at hc
    | cons a c =>
      obtain ⟨t, ht, hs⟩ := ih c (by simpa using hc)
      rw [vecMat_cons]
      rcases hF a with rfl | rfl
      · exact ⟨t, ht.cons g, by rw [hs]; simp⟩
      · exact ⟨g :: t, ht.cons_cons g, by rw [List.sum_cons, hs]; simp⟩

/-- The nonempty sums of independent rows are the nonzero combinations. -/
theorem sublist_sum_iff (hF : IsBinary F) {G : Rows F n}
    (hind : LinearIndependent F (fun i => G.get i)) (v : Fin n → F) :
    (∃ t : Rows F n, t.Sublist G ∧ t ≠ [] ∧ v = t.sum) ↔ v ∈ rowSpan G ∧ v ≠ 0 := by
  constructor
  · rintro ⟨t, ht, hne, rfl⟩
    obtain ⟨c, hc, hs, h0⟩ := sublist_sum_vecMat ht
    refine ⟨(mem_rowSpan_iff_vecMat G _).2 ⟨c, hc, hs⟩, fun hz => h0 hne ?_⟩
    apply vecMat_injective hind hc (by simp)
    rw [← hs, hz, vecMat_replicate_zero]
  · rintro ⟨hv, h0⟩
    obtain ⟨c, hc, rfl⟩ := (mem_rowSpan_iff_vecMat G v).1 hv
    obtain ⟨t, ht, hs⟩ := vecMat_sublist_sum hF G c hc
    refine ⟨t, ht, ?_, hs.symm⟩
    rintro rfl
    exact h0 (by rw [← hs]; rfl)

end QLDPC
