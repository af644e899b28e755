import Verif.Model.Surface
import Verif.Lemmas.ToricTiles
import Verif.Lemmas.CssParams
import Verif.Lemmas.Classical

/-!
# Lemmas about the rotated surface and toric codes
-/

namespace QLDPC

variable {F : Type} [Field F] {R C : ℕ}

/-- a function on the lattice as a vector -/
def flatG (a : Fin R × Fin C → F) : Fin (R * C) → F := fun k => a (k.divNat, k.modNat)

theorem flatG_flat (a : Fin R × Fin C → F) (i : Fin R) (j : Fin C) : flatG a (flat i j) = a (i, j) := by
  unfold flatG; rw [divNat_flat, modNat_flat]

theorem flatG_surj (x : Fin (R * C) → F) : flatG (fun k : Fin R × Fin C => x (flat k.1 k.2)) = x := by
  funext k; unfold flatG; beta_reduce; rw [flat_div_mod]

theorem sum_flatG (f : Fin (R * C) → F) : ∑ k, f k = ∑ p : Fin R × Fin C, f (flat p.1 p.2) := by
  rw [← Equiv.sum_comp finProdFinEquiv f]; rfl

theorem dot_flatG (a b : Fin R × Fin C → F) : dot (flatG a) (flatG b) = gdot a b := by
  unfold dot gdot
  rw [sum_flatG]
  refine Finset.sum_congr rfl fun p _ => ?_
  rw [flatG_flat, flatG_flat]

/-- `flatG` as a linear map -/
def flatL (F : Type) [Field F] (R C : ℕ) : (Fin R × Fin C → F) →ₗ[F] (Fin (R * C) → F) where
  toFun := flatG
  map_add' := fun _ _ => rfl
  map_smul' := fun _ _ => rfl

theorem mem_rowSpan_flatG [DecidableEq F] {H : Rows F (R * C)} {P : Set (Fin R × Fin C → F)}
    (h : ∀ a ∈ P, flatG a ∈ H) {x : Fin R × Fin C → F} (hx : x ∈ Submodule.span F P) :
    flatG x ∈ rowSpan H := by
  have : (Submodule.span F P).map (flatL F R C) ≤ rowSpan H := by
    rw [Submodule.map_span_le]
    intro a ha; exact subset_rowSpan (h a ha)
  exact this ⟨x, hx, rfl⟩

theorem sgn_add_nat (i j : ℕ) : sgn F ((i : ℤ) + j) = (-1) ^ (i + j) := by
  unfold sgn
  rcases Nat.even_or_odd (i + j) with h | h
  · rw [h.neg_one_pow, if_pos]; have := Nat.even_iff.1 h; omega
  · rw [h.neg_one_pow, if_neg]; have := Nat.odd_iff.1 h; omega

theorem gdot_row_col (i : Fin R) (j : Fin C) :
    gdot (rowOnes F i) (signed (colOnes F j)) = sgn F ((i : ℤ) + j) := by
  rw [gdot_rowOnes, Finset.sum_eq_single j]
  · simp [signed, colOnes]
  · intro b _ hb; simp [signed, colOnes, hb]
  · intro hh; exact absurd (Finset.mem_univ _) hh

theorem sum_sgn_even (n : ℕ) (hn : n % 2 = 0) (a : ℤ) : ∑ j : Fin n, sgn F (a + j) = 0 := by
  rw [Fin.sum_univ_eq_sum_range (fun j : ℕ => sgn F (a + j))]
  have key : ∀ m : ℕ, ∑ j ∈ Finset.range (2 * m), sgn F (a + (j : ℕ)) = 0 := by
    intro m
    induction m with
    | zero => simp
    | succ m ih =>
      rw [show 2 * (m + 1) = 2 * m + 1 + 1 by ring, Finset.sum_range_succ, Finset.sum_range_succ, ih]
      have : sgn F (a + ((2 * m + 1 : ℕ) : ℤ)) = -sgn F (a + ((2 * m : ℕ) : ℤ)) := by
        rw [← sgn_succ]; congr 1; push_cast; ring
      rw [this]; ring
  have : n = 2 * (n / 2) := by omega
  rw [this]; exact key _

theorem gdot_row_row (hC : C % 2 = 0) (i i' : Fin R) :
    gdot (rowOnes F i) (signed (rowOnes F i') : Fin R × Fin C → F) = 0 := by
  rw [gdot_rowOnes]
  by_cases h : i = i'
  · subst h
    simp only [signed, rowOnes, if_true, mul_one]
    exact sum_sgn_even C hC _
  · simp [signed, rowOnes, h]

theorem gdot_col_col (hR : R % 2 = 0) (j j' : Fin C) :
    gdot (colOnes F j) (signed (colOnes F j') : Fin R × Fin C → F) = 0 := by
  rw [gdot_colOnes]
  by_cases h : j = j'
  · subst h
    simp only [signed, colOnes, if_true, mul_one]
    simp only [add_comm _ (j : ℤ)]
    exact sum_sgn_even R hR _
  · simp [signed, colOnes, h]

theorem gdot_col_row (i : Fin R) (j : Fin C) :
    gdot (colOnes F j) (signed (rowOnes F i)) = sgn F ((i : ℤ) + j) := by
  rw [gdot_colOnes, Finset.sum_eq_single i]
  · simp [signed, rowOnes]
  · intro b _ hb; simp [signed, rowOnes, hb]
  · intro hh; exact absurd (Finset.mem_univ _) hh

section
variable [DecidableEq F]

theorem surface_logicals {hx hz : Rows F (R * C)} (hR : 0 < R) (hC : 0 < C)
    (mx : ∀ v, v ∈ hx ↔ ∃ r c, IsA R C r c ∧ v = flatG (tile F R C r c))
    (mz : ∀ v, v ∈ hz ↔ ∃ r c, IsB R C r c ∧ v = flatG (signed (tile F R C r c))) :
    CompleteLogicals hx hz [flatG (rowOnes F ⟨0, hR⟩)] [flatG (signed (colOnes F ⟨0, hC⟩))] where
  comm := by
    intro x hx' z hz'
    obtain ⟨r, c, hA, rfl⟩ := (mx x).1 hx'
    obtain ⟨r', c', hB, rfl⟩ := (mz z).1 hz'
    rw [dot_flatG, gdot_comm]; exact tiles_commute hA hB
  len := rfl
  commX := by
    intro l hl z hz'
    rw [List.mem_singleton.1 hl]
    obtain ⟨r', c', hB, rfl⟩ := (mz z).1 hz'
    rw [dot_flatG]; exact row_commutes hB _
  commZ := by
    intro l hl x hx'
    rw [List.mem_singleton.1 hl]
    obtain ⟨r, c, hA, rfl⟩ := (mx x).1 hx'
    rw [dot_flatG]; exact col_commutes hA _
  pair := by
    intro i j hi hj
    have hi' : i = 0 := by simpa using hi
    have hj' : j = 0 := by simpa using hj
    subst hi' hj'
    rw [List.getElem_cons_zero, List.getElem_cons_zero, dot_flatG, gdot_row_col]; simp [sgn]
  complete := by
    intro x hx' hL
    rw [← flatG_surj x] at hx' hL ⊢
    refine mem_rowSpan_flatG (P := {a | ∃ r c, IsA R C r c ∧ a = tile F R C r c}) ?_
      (surface_complete hC ⟨fun r c hB => ?_, ?_⟩)
    · rintro _ ⟨r, c, hA, rfl⟩; exact (mx _).2 ⟨r, c, hA, rfl⟩
    · rw [← dot_flatG]; exact hx' _ ((mz _).2 ⟨r, c, hB, rfl⟩)
    · rw [← dot_flatG, dot_comm']; exact hL _ (List.mem_singleton_self _)

theorem toric_logicals {hx hz : Rows F (R * C)} (hR0 : 0 < R) (hC0 : 0 < C) (hR : R % 2 = 0) (hC : C % 2 = 0)
    (mx : ∀ v, v ∈ hx ↔ ∃ t : Fin R × Fin C, (t.1.val + t.2.val) % 2 = 0 ∧ v = flatG (ttile F t))
    (mz : ∀ v, v ∈ hz ↔ ∃ t : Fin R × Fin C, (t.1.val + t.2.val) % 2 = 1 ∧ v = flatG (signed (ttile F t))) :
    CompleteLogicals hx hz [flatG (rowOnes F ⟨0, hR0⟩), flatG (colOnes F ⟨0, hC0⟩)]
      [flatG (signed (colOnes F ⟨0, hC0⟩)), flatG (signed (rowOnes F ⟨0, hR0⟩))] where
  comm := by
    intro x hx' z hz'
    obtain ⟨t, hA, rfl⟩ := (mx x).1 hx'
    obtain ⟨t', hB, rfl⟩ := (mz z).1 hz'
    rw [dot_flatG, gdot_comm]; exact ttiles_commute hR hC hA hB
  len := rfl
  commX := by
    intro l hl z hz'
    obtain ⟨t', hB, rfl⟩ := (mz z).1 hz'
    simp only [List.mem_cons, List.not_mem_nil, or_false] at hl
    rcases hl with rfl | rfl
    · rw [dot_flatG]; exact trow_commutes hR hC _ _
    · rw [dot_flatG]; exact tcol_commutes hR hC _ _
  commZ := by
    intro l hl x hx'
    obtain ⟨t, hA, rfl⟩ := (mx x).1 hx'
    simp only [List.mem_cons, List.not_mem_nil, or_false] at hl
    rcases hl with rfl | rfl
    · rw [dot_flatG, ← gdot_signed]; exact tcol_commutes hR hC _ _
    · rw [dot_flatG, ← gdot_signed]; exact trow_commutes hR hC _ _
  pair := by
    intro i j hi hj
    have hi' : i = 0 ∨ i = 1 := by simp at hi; omega
    have hj' : j = 0 ∨ j = 1 := by simp at hj; omega
    rcases hi' with rfl | rfl <;> rcases hj' with rfl | rfl <;>
      simp only [List.getElem_cons_zero, List.getElem_cons_succ, dot_flatG]
    · rw [gdot_row_col]; simp [sgn]
    · rw [gdot_row_row hC]; simp
    · rw [gdot_col_col hR]; simp
    · rw [gdot_col_row]; simp [sgn]
  complete := by
    intro x hx' hL
    rw [← flatG_surj x] at hx' hL ⊢
    refine mem_rowSpan_flatG (P := {a | ∃ t : Fin R × Fin C, (t.1.val + t.2.val) % 2 = 0 ∧ a = ttile F t}) ?_
      (toric_complete hR hC hR0 hC0 ⟨fun t hB => ?_, ?_, ?_⟩)
    · rintro _ ⟨t, hA, rfl⟩; exact (mx _).2 ⟨t, hA, rfl⟩
    · rw [← dot_flatG]; exact hx' _ ((mz _).2 ⟨t, hB, rfl⟩)
    · rw [← dot_flatG, dot_comm']; exact hL _ (by simp)
    · rw [← dot_flatG, dot_comm']; exact hL _ (by simp)

end

/-! ## The loops -/

theorem mem_tileCells {r c : ℤ} (p : ℤ × ℤ) :
    p ∈ tileCells r c ↔ (p.1 = r ∨ p.1 = r + 1) ∧ (p.2 = c ∨ p.2 = c + 1) := by
  obtain ⟨a, b⟩ := p
  simp only [tileCells, List.zip_cons_cons, List.zip_nil_right, List.mem_cons, Prod.mk.injEq,
    List.not_mem_nil, or_false]
  tauto

theorem viewField_surfaceCheck (r c : ℤ) :
    viewField F (surfaceCheck R C r c) = flatG (tile F R C r c) := by
  funext k
  unfold viewField surfaceCheck onesAt flatG tile
  simp only [List.mem_filter, mem_tileCells, decide_eq_true_eq]
  have h1 := k.divNat.isLt
  have h2 := k.modNat.isLt
  by_cases h : ((k.divNat : ℤ) = r ∨ (k.divNat : ℤ) = r + 1) ∧ ((k.modNat : ℤ) = c ∨ (k.modNat : ℤ) = c + 1)
  · rw [if_pos h, if_pos ⟨h, by omega, by omega, by omega, by omega⟩]; simp
  · rw [if_neg h, if_neg fun hh => h hh.1]; simp

theorem checkWeight_ne_one {n : ℕ} {v : Fin n → ℕ} {a b : Fin n} (hab : a ≠ b) (ha : v a ≠ 0) (hb : v b ≠ 0) :
    checkWeight v ≠ 1 := by
  unfold checkWeight
  rw [List.countP_eq_length_filter]
  intro h
  obtain ⟨c, hc⟩ := List.length_eq_one_iff.1 h
  have h1 : a ∈ (List.finRange n).filter fun k => v k ≠ 0 :=
    List.mem_filter.2 ⟨List.mem_finRange a, by simpa using ha⟩
  have h2 : b ∈ (List.finRange n).filter fun k => v k ≠ 0 :=
    List.mem_filter.2 ⟨List.mem_finRange b, by simpa using hb⟩
  rw [hc, List.mem_singleton] at h1 h2
  exact hab (h1.trans h2.symm)

theorem surfaceCheck_ne_zero {r c : ℤ} {i : Fin R} {j : Fin C}
    (h : ((i : ℤ) = r ∨ (i : ℤ) = r + 1) ∧ ((j : ℤ) = c ∨ (j : ℤ) = c + 1)) :
    surfaceCheck R C r c (flat i j) ≠ 0 := by
  unfold surfaceCheck onesAt
  rw [divNat_flat, modNat_flat, if_pos]
  · simp
  · rw [List.mem_filter, mem_tileCells]
    refine ⟨h, ?_⟩
    have := i.isLt; have := j.isLt
    rw [decide_eq_true_eq]
    simp only; omega

theorem flat_inj' {i i' : Fin R} {j j' : Fin C} (h : flat i j = flat i' j') : i = i' ∧ j = j' := by
  have h1 := congrArg Fin.divNat h
  have h2 := congrArg Fin.modNat h
  rw [divNat_flat, divNat_flat] at h1
  rw [modNat_flat, modNat_flat] at h2
  exact ⟨h1, h2⟩

theorem count_A {r c : ℤ} (hC : 0 < C) (h : IsA R C r c) : checkWeight (surfaceCheck R C r c) ≠ 1 := by
  obtain ⟨h1, h2, h3, h4, h5⟩ := h
  obtain ⟨j, hj⟩ : ∃ j : Fin C, (j : ℤ) = c ∨ (j : ℤ) = c + 1 := by
    by_cases hc : c = -1
    · exact ⟨⟨0, hC⟩, Or.inr (by simp [hc])⟩
    · exact ⟨⟨c.toNat, by omega⟩, Or.inl (by simp only; omega)⟩
  refine checkWeight_ne_one (a := flat ⟨r.toNat, by omega⟩ j) (b := flat ⟨r.toNat + 1, by omega⟩ j) ?_ ?_ ?_
  · intro h; have := congrArg Fin.val (flat_inj' h).1; simp at this
  · refine surfaceCheck_ne_zero ⟨Or.inl ?_, hj⟩; simp only; omega
  · refine surfaceCheck_ne_zero ⟨Or.inr ?_, hj⟩; simp only; omega

theorem count_B {r c : ℤ} (hR : 0 < R) (h : IsB R C r c) : checkWeight (surfaceCheck R C r c) ≠ 1 := by
  obtain ⟨h1, h2, h3, h4, h5⟩ := h
  obtain ⟨i, hi⟩ : ∃ i : Fin R, (i : ℤ) = r ∨ (i : ℤ) = r + 1 := by
    by_cases hc : r = -1
    · exact ⟨⟨0, hR⟩, Or.inr (by simp [hc])⟩
    · exact ⟨⟨r.toNat, by omega⟩, Or.inl (by simp only; omega)⟩
  refine checkWeight_ne_one (a := flat i ⟨c.toNat, by omega⟩) (b := flat i ⟨c.toNat + 1, by omega⟩) ?_ ?_ ?_
  · intro h; have := congrArg Fin.val (flat_inj' h).2; simp at this
  · refine surfaceCheck_ne_zero ⟨hi, Or.inl ?_⟩; simp only; omega
  · refine surfaceCheck_ne_zero ⟨hi, Or.inr ?_⟩; simp only; omega

theorem mem_rangeFromMinusOne (n : ℕ) (r : ℤ) : r ∈ rangeFromMinusOne n ↔ -1 ≤ r ∧ r < n := by
  unfold rangeFromMinusOne
  rw [List.mem_map]
  constructor
  · rintro ⟨i, hi, rfl⟩; have := List.mem_range.1 hi; omega
  · intro h; exact ⟨(r + 1).toNat, List.mem_range.2 (by omega), by omega⟩

theorem mem_surfaceChecks_x_only {v : Fin (R * C) → ℕ} (h : v ∈ (surfaceChecks R C).1) :
    ∃ r c, IsA R C r c ∧ v = surfaceCheck R C r c := by
  simp only [surfaceChecks, List.mem_map, List.mem_filter, List.mem_flatMap, List.mem_filterMap,
    mem_rangeFromMinusOne] at h
  obtain ⟨⟨b, v'⟩, ⟨⟨r, hr, c, hc, ht⟩, hb⟩, rfl⟩ := h
  simp only at hb
  subst hb
  unfold surfaceTile at ht
  simp only at ht
  split_ifs at ht with h1 h2 h3
  all_goals simp at ht
  exact ⟨r, c, ⟨by omega, by omega, by omega, by omega, by omega⟩, ht.symm⟩

theorem mem_surfaceChecks_x (hC : 0 < C) (v : Fin (R * C) → ℕ) :
    v ∈ (surfaceChecks R C).1 ↔ ∃ r c, IsA R C r c ∧ v = surfaceCheck R C r c := by
  refine ⟨mem_surfaceChecks_x_only, ?_⟩
  simp only [surfaceChecks, List.mem_map, List.mem_filter, List.mem_flatMap, List.mem_filterMap,
    mem_rangeFromMinusOne]
  · rintro ⟨r, c, hA, rfl⟩
    have h := hA
    obtain ⟨h1, h2, h3, h4, h5⟩ := h
    refine ⟨(true, surfaceCheck R C r c), ⟨⟨r, ⟨by omega, by omega⟩, c, ⟨by omega, by omega⟩, ?_⟩, rfl⟩, rfl⟩
    unfold surfaceTile
    simp only
    rw [if_neg (count_A hC hA), if_pos (by omega), if_pos ⟨by omega, by omega⟩]

theorem mem_surfaceChecks_z_only {v : Fin (R * C) → ℕ} (h : v ∈ (surfaceChecks R C).2) :
    ∃ r c, IsB R C r c ∧ v = surfaceCheck R C r c := by
  simp only [surfaceChecks, List.mem_map, List.mem_filter, List.mem_flatMap, List.mem_filterMap,
    mem_rangeFromMinusOne] at h
  obtain ⟨⟨b, v'⟩, ⟨⟨r, hr, c, hc, ht⟩, hb⟩, rfl⟩ := h
  simp only [Bool.not_eq_true'] at hb
  subst hb
  unfold surfaceTile at ht
  simp only at ht
  split_ifs at ht with h1 h2 h3 h4
  all_goals simp at ht
  exact ⟨r, c, ⟨by omega, by omega, by omega, by omega, by omega⟩, ht.symm⟩

theorem mem_surfaceChecks_z (hR : 0 < R) (v : Fin (R * C) → ℕ) :
    v ∈ (surfaceChecks R C).2 ↔ ∃ r c, IsB R C r c ∧ v = surfaceCheck R C r c := by
  refine ⟨mem_surfaceChecks_z_only, ?_⟩
  simp only [surfaceChecks, List.mem_map, List.mem_filter, List.mem_flatMap, List.mem_filterMap,
    mem_rangeFromMinusOne]
  · rintro ⟨r, c, hB, rfl⟩
    have h := hB
    obtain ⟨h1, h2, h3, h4, h5⟩ := h
    refine ⟨(false, surfaceCheck R C r c), ⟨⟨r, ⟨by omega, by omega⟩, c, ⟨by omega, by omega⟩, ?_⟩, rfl⟩, rfl⟩
    unfold surfaceTile
    simp only
    rw [if_neg (count_B hR hB), if_neg (by omega), if_pos ⟨by omega, by omega⟩]

theorem viewField_toricCheck (hR : R % 2 = 0) (hC : C % 2 = 0) (t : Fin R × Fin C) :
    viewField F (toricCheck R C (t.1 : ℕ) (t.2 : ℕ)) = flatG (ttile F t) := by
  have hn : ∀ (m : ℕ) (a b : Fin m), ((a : ℤ) = ((b : ℕ) : ℤ) % m ↔ a = b) ∧
      ((a : ℤ) = (((b : ℕ) : ℤ) + 1) % m ↔ a = next b) := by
    intro m a b
    have hb := b.isLt
    have h1 : ((b : ℕ) : ℤ) % m = b := Int.emod_eq_of_lt (by omega) (by omega)
    have h2 := next_val b
    have h3 : (((b : ℕ) : ℤ) + 1) % m = (next b).val := by
      rcases h2 with ⟨h2, h4⟩ | ⟨h2, h4⟩
      · rw [h4]
        have : ((b : ℕ) : ℤ) + 1 = m := by omega
        rw [this, Int.emod_self]; rfl
      · rw [Int.emod_eq_of_lt (by omega) (by omega)]; omega
    rw [h1, h3, Fin.ext_iff, Fin.ext_iff]
    constructor <;> omega
  funext k
  unfold viewField toricCheck onesAt flatG ttile
  have hm : ((k.divNat : ℤ), (k.modNat : ℤ)) ∈ (tileCells (t.1 : ℕ) (t.2 : ℕ)).map
      (fun p => (p.1 % (R : ℤ), p.2 % (C : ℤ))) ↔
      (k.divNat = t.1 ∨ k.divNat = next t.1) ∧ (k.modNat = t.2 ∨ k.modNat = next t.2) := by
    rw [← (hn R k.divNat t.1).1, ← (hn R k.divNat t.1).2, ← (hn C k.modNat t.2).1, ← (hn C k.modNat t.2).2]
    simp only [tileCells, List.zip_cons_cons, List.zip_nil_right, List.map_cons, List.map_nil,
      List.mem_cons, Prod.mk.injEq, List.not_mem_nil, or_false]
    tauto
  by_cases h : (k.divNat = t.1 ∨ k.divNat = next t.1) ∧ (k.modNat = t.2 ∨ k.modNat = next t.2)
  · rw [if_pos (hm.2 h), if_pos h]; simp
  · rw [if_neg fun hh => h (hm.1 hh), if_neg h]; simp

theorem mem_toricChecks (b : Bool) (v : Fin (R * C) → ℕ) :
    v ∈ (if b then (toricChecks R C).1 else (toricChecks R C).2) ↔
      ∃ t : Fin R × Fin C, (t.1.val + t.2.val) % 2 = (if b then 0 else 1) ∧
        v = toricCheck R C (t.1 : ℕ) (t.2 : ℕ) := by
  cases b
  all_goals
    simp only [toricChecks, List.mem_map, List.mem_filter, List.mem_flatMap, List.mem_range, if_true,
      Bool.false_eq_true, if_false, Bool.not_eq_true']
    constructor
    · rintro ⟨⟨b', v'⟩, ⟨⟨r, hr, c, hc, ht⟩, hb⟩, rfl⟩
      simp only [Prod.mk.injEq] at ht hb
      obtain ⟨h1, rfl⟩ := ht
      rw [← h1] at hb
      simp only [decide_eq_false_iff_not, decide_eq_true_eq] at hb
      exact ⟨(⟨r, hr⟩, ⟨c, hc⟩), by simp only; omega, rfl⟩
    · rintro ⟨t, ht, rfl⟩
      refine ⟨(_, toricCheck R C (t.1 : ℕ) (t.2 : ℕ)), ⟨⟨t.1, t.1.isLt, t.2, t.2.isLt, rfl⟩, ?_⟩, rfl⟩
      simp only [decide_eq_false_iff_not, decide_eq_true_eq]
      omega

theorem conjugateZ_flatG [Fintype F] (a : Fin R × Fin C → F) :
    conjugateZ R C (flatG a) = flatG (signed a) := by
  funext k
  unfold conjugateZ flatG signed sgn
  simp only
  by_cases hp : (k.divNat.val + k.modNat.val) % 2 = 0
  · rw [if_neg fun h => h.2 hp, if_pos (by omega), one_mul]
  · have hp' : ¬ ((k.divNat.val : ℤ) + k.modNat.val) % 2 = 0 := by omega
    rw [if_neg hp']
    by_cases hc : 2 < Fintype.card F
    · rw [if_pos ⟨hc, hp⟩, neg_one_mul]
    · rw [if_neg fun h => hc h.1]
      have h1 : (-1 : F) = 1 := by
        by_contra hne
        classical
        have h3 : ({0, 1, -1} : Finset F).card = 3 := by
          rw [Finset.card_insert_of_notMem, Finset.card_insert_of_notMem, Finset.card_singleton]
          · simp only [Finset.mem_singleton]; exact fun h => hne h.symm
          · simp
        have := Finset.card_le_univ ({0, 1, -1} : Finset F)
        omega
      rw [h1, one_mul]

end QLDPC
