import Verif.Lemmas.Families
import Mathlib.LinearAlgebra.Dimension.Constructions
import Mathlib.Algebra.BigOperators.Fin

/-! Extended Hamming codes. -/

set_option linter.unusedSectionVars false

namespace QLDPC

open Spec

variable {F : Type} [Field F] [DecidableEq F] {n m : ℕ}

theorem isWord_extended {r : ℕ} {c : CCode F ((bitColumns F r).length + 1)}
    (hc : extendedHammingCode F r = some c) (w : Fin ((bitColumns F r).length + 1) → F) :
    IsWord c.matrix w ↔ ∑ j, w j = 0 ∧ IsWord (fromColumns r (bitColumns F r)) (Fin.tail w) := by
  have hpad : ∀ H : Rows F (bitColumns F r).length,
      IsWord (H.map fun v => (Fin.cons 0 v : Fin (_ + 1) → F)) w ↔ IsWord H (Fin.tail w) := by
    intro H
    simp only [IsWord, List.mem_map, forall_exists_index, and_imp, forall_apply_eq_imp_iff₂,
      Fin.sum_univ_succ, Fin.cons_zero, Fin.cons_succ, zero_mul, zero_add]
    rfl
  rw [← hpad]
  unfold extendedHammingCode at hc
  dsimp only at hc
  generalize List.map _ _ = P at hc ⊢
  cases P with
  | nil => simp at hc
  | cons first rest =>
    simp only [Option.some.injEq] at hc
    subst hc
    simp only [IsWord, List.mem_cons, forall_eq_or_imp, Pi.add_apply, Pi.one_apply, add_mul, one_mul,
      Finset.sum_add_distrib]
    constructor
    · rintro ⟨h1, h2, h3⟩
      exact ⟨by simpa [h2] using h1, h2, h3⟩
    · rintro ⟨h1, h2, h3⟩
      exact ⟨by simp [h1, h2], h2, h3⟩

theorem length_extended {r : ℕ} {c : CCode F ((bitColumns F r).length + 1)}
    (hc : extendedHammingCode F r = some c) : c.matrix.length = r + 1 ∧
      c.dim? = some ((bitColumns F r).length + 1 - (r + 1)) ∧ c.dist? = some (some 4) ∧ 1 ≤ r := by
  have hl : ((fromColumns r (bitColumns F r)).map fun v => (Fin.cons 0 v : Fin (_ + 1) → F)).length = r := by
    simp [length_fromColumns]
  unfold extendedHammingCode at hc
  dsimp only at hc
  generalize List.map _ _ = P at hc hl
  cases P with
  | nil => simp at hc
  | cons first rest =>
    simp only [Option.some.injEq] at hc
    subst hc
    simp at hl
    simp only [List.length_cons, hl, true_and]
    omega

theorem extended_isSome {r : ℕ} (hr : 1 ≤ r) : (extendedHammingCode F r).isSome := by
  have hl : ((fromColumns r (bitColumns F r)).map fun v => (Fin.cons 0 v : Fin (_ + 1) → F)).length = r := by
    simp [length_fromColumns]
  unfold extendedHammingCode
  dsimp only
  generalize List.map _ _ = P at hl ⊢
  cases P with
  | nil => simp at hl; omega
  | cons first rest => rfl

theorem IsBinary.cast_eq_zero (hb : IsBinary F) {k : ℕ} : (k : F) = 0 ↔ Even k := by
  have h2 : (2 : F) = 0 := by rw [← one_add_one_eq_two]; exact hb.one_add_one
  constructor
  · intro h
    by_contra ho
    rw [Nat.not_even_iff_odd] at ho
    obtain ⟨l, rfl⟩ := ho
    simp [h2] at h
  · rintro ⟨l, rfl⟩
    rw [Nat.cast_add, ← two_mul, h2, zero_mul]

theorem IsBinary.sum_eq (hb : IsBinary F) (w : Fin n → F) : ∑ j, w j = (hammingNorm w : F) := by
  unfold hammingNorm
  rw [Finset.card_filter, Nat.cast_sum]
  refine Finset.sum_congr rfl fun j _ => ?_
  rcases hb (w j) with h | h <;> simp [h]

theorem hammingNorm_succ (w : Fin (n + 1) → F) :
    hammingNorm w = (if w 0 = 0 then 0 else 1) + hammingNorm (Fin.tail w) := by
  unfold hammingNorm
  rw [Finset.card_filter, Finset.card_filter, Fin.sum_univ_succ]
  simp only [ne_eq, Fin.tail, ite_not]
  congr 1
  refine Finset.sum_congr rfl fun i _ => ?_
  by_cases h : w i.succ = 0 <;> simp [h]

theorem projective_bits (hb : IsBinary F) (r : ℕ) : Projective r (fromColumns r (bitColumns F r)) :=
  projective_fromColumns (nodup_bitColumns r) fun _ => mem_bitColumns hb

theorem codeDim_extended {r : ℕ} (hb : IsBinary F) {c : CCode F ((bitColumns F r).length + 1)}
    (hc : extendedHammingCode F r = some c) : codeDim c.matrix + r + 1 = 2 ^ r := by
  let e : codeSpace c.matrix ≃ₗ[F] codeSpace (fromColumns r (bitColumns F r)) :=
    { toFun := fun w => ⟨Fin.tail w.1, ((isWord_extended hc _).1 w.2).2⟩
      map_add' := fun _ _ => rfl
      map_smul' := fun _ _ => rfl
      invFun := fun w => ⟨Fin.cons (-∑ j, w.1 j) w.1, (isWord_extended hc _).2
        ⟨by simp [Fin.sum_univ_succ], by rw [Fin.tail_cons]; exact w.2⟩⟩
      left_inv := by
        intro w
        have := ((isWord_extended hc _).1 w.2).1
        rw [Fin.sum_univ_succ] at this
        apply Subtype.ext
        refine Fin.cons_self_tail w.1 ▸ ?_
        dsimp only
        congr 1
        exact (eq_neg_of_add_eq_zero_left this).symm
      right_inv := by intro w; apply Subtype.ext; simp }
  have := (projective_bits hb r).codeDim
  unfold Spec.codeDim at this ⊢
  rw [e.finrank_eq]
  have hl := length_bitColumns (F := F) r
  have h1 := Nat.one_le_two_pow (n := r)
  omega

theorem min_extended {r : ℕ} (hb : IsBinary F) {c : CCode F ((bitColumns F r).length + 1)}
    (hc : extendedHammingCode F r = some c) {w} (hw : IsWord c.matrix w) :
    Even (hammingNorm w) ∧ (w ≠ 0 → 4 ≤ hammingNorm w) := by
  obtain ⟨hsum, ht⟩ := (isWord_extended hc w).1 hw
  have hev : Even (hammingNorm w) := by
    rw [← hb.cast_eq_zero, ← hb.sum_eq]; exact hsum
  refine ⟨hev, fun hne => ?_⟩
  have htn : Fin.tail w ≠ 0 := by
    intro h0
    apply hne
    rw [Fin.sum_univ_succ] at hsum
    have h0' : ∀ j, w (Fin.succ j) = 0 := fun j => congrFun h0 j
    simp only [h0', Finset.sum_const_zero, add_zero] at hsum
    funext j
    refine Fin.cases hsum h0' j
  have := (projective_bits hb r).min_weight ht htn
  have h2 := hammingNorm_succ w
  obtain ⟨l, hl⟩ := hev
  split at h2 <;> omega

theorem exists_extended {r : ℕ} (hb : IsBinary F) (hr : 2 ≤ r) {c : CCode F ((bitColumns F r).length + 1)}
    (hc : extendedHammingCode F r = some c) : ∃ w, IsWord c.matrix w ∧ hammingNorm w = 4 := by
  obtain ⟨v, hv, h3⟩ := (projective_bits hb r).exists_three hr
  have hs : ∑ j, v j = 1 := by
    rcases hb (∑ j, v j) with h | h
    · rw [hb.sum_eq, hb.cast_eq_zero, h3] at h
      exact absurd h (by decide)
    · exact h
  refine ⟨Fin.cons 1 v, (isWord_extended hc _).2 ⟨?_, by simpa using hv⟩, ?_⟩
  · rw [Fin.sum_univ_succ]
    simp only [Fin.cons_zero, Fin.cons_succ, hs]
    exact hb.one_add_one
  · rw [hammingNorm_succ]
    simp [h3]

end QLDPC
