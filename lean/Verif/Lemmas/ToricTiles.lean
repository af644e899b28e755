import Verif.Lemmas.SurfaceTiles

/-!
# Tiles of the rotated toric code
-/

namespace QLDPC

variable {F : Type} [Field F] {R C : ℕ}

/-- the index after `r`, around a circle of length `R` -/
def next (r : Fin R) : Fin R := ⟨if r.val + 1 = R then 0 else r.val + 1, by have := r.isLt; split <;> omega⟩

theorem next_val (r : Fin R) :
    (r.val + 1 = R ∧ (next r).val = 0) ∨ (r.val + 1 < R ∧ (next r).val = r.val + 1) := by
  have := r.isLt
  unfold next
  by_cases h : r.val + 1 = R
  · left; exact ⟨h, by simp [h]⟩
  · right; exact ⟨by omega, by simp [h]⟩

/-- Ones on the cells of the tile with upper left corner `(r, c)`, around a torus. -/
def ttile (F : Type) [Field F] (t : Fin R × Fin C) : Fin R × Fin C → F :=
  fun k => if (k.1 = t.1 ∨ k.1 = next t.1) ∧ (k.2 = t.2 ∨ k.2 = next t.2) then 1 else 0

theorem next_ne (hR : R % 2 = 0) (r : Fin R) : next r ≠ r := by
  intro h
  have h1 := congrArg Fin.val h
  have := next_val r
  have := r.isLt
  omega

theorem next_parity (hR : R % 2 = 0) (r : Fin R) : ((next r).val + r.val) % 2 = 1 := by
  have := next_val r
  have := r.isLt
  omega

/-- The alternating sum over a tile. -/
theorem gdot_ttile (hR : R % 2 = 0) (hC : C % 2 = 0) (x : Fin R × Fin C → F) (t : Fin R × Fin C) :
    gdot (signed (ttile F t)) x = sgn F ((t.1 : ℤ) + t.2) *
      (x (t.1, t.2) - x (next t.1, t.2) - x (t.1, next t.2) + x (next t.1, next t.2)) := by
  have h1 : ∀ k : Fin R × Fin C, signed (ttile F t) k * x k =
      (if k = (t.1, t.2) then sgn F ((k.1 : ℤ) + k.2) * x k else 0) +
      (if k = (next t.1, t.2) then sgn F ((k.1 : ℤ) + k.2) * x k else 0) +
      (if k = (t.1, next t.2) then sgn F ((k.1 : ℤ) + k.2) * x k else 0) +
      (if k = (next t.1, next t.2) then sgn F ((k.1 : ℤ) + k.2) * x k else 0) := by
    rintro ⟨i, j⟩
    have n1 := next_ne hR t.1
    have n2 := next_ne hC t.2
    unfold signed ttile
    simp only [Prod.mk.injEq]
    by_cases a1 : i = t.1 <;> by_cases b1 : j = t.2 <;>
      by_cases a2 : i = next t.1 <;> by_cases b2 : j = next t.2 <;>
      first
      | (exfalso; exact n1 (a2.symm.trans a1))
      | (exfalso; exact n2 (b2.symm.trans b1))
      | simp [a1, a2, b1, b2, n1, n2, n1.symm, n2.symm]
  unfold gdot
  simp only [h1, Finset.sum_add_distrib, Finset.sum_ite_eq', Finset.mem_univ, if_true]
  have p1 := next_parity hR t.1
  have p2 := next_parity hC t.2
  have e1 : sgn F (((next t.1 : Fin R) : ℤ) + t.2) = -sgn F ((t.1 : ℤ) + t.2) := by
    rw [← sgn_succ]; exact sgn_congr (by omega)
  have e2 : sgn F ((t.1 : ℤ) + (next t.2 : Fin C)) = -sgn F ((t.1 : ℤ) + t.2) := by
    rw [← sgn_succ]; exact sgn_congr (by omega)
  have e3 : sgn F (((next t.1 : Fin R) : ℤ) + (next t.2 : Fin C)) = sgn F ((t.1 : ℤ) + t.2) :=
    sgn_congr (by omega)
  rw [e1, e2, e3]
  ring

theorem pair_same_parity (hR : R % 2 = 0) (r r' : Fin R) (h : (r.val + r'.val) % 2 = 0) :
    (r' = r ∨ r' = next r) ↔ (next r' = r ∨ next r' = next r) := by
  simp only [Fin.ext_iff]
  have := next_val r
  have := next_val r'
  have := r.isLt
  have := r'.isLt
  omega

theorem ttiles_commute (hR : R % 2 = 0) (hC : C % 2 = 0) {t t' : Fin R × Fin C}
    (h : (t.1.val + t.2.val) % 2 = 0) (h' : (t'.1.val + t'.2.val) % 2 = 1) :
    gdot (signed (ttile F t')) (ttile F t) = 0 := by
  rw [gdot_ttile hR hC]
  unfold ttile
  simp only
  by_cases hp : (t.1.val + t'.1.val) % 2 = 0
  · simp only [← pair_same_parity hR t.1 t'.1 hp]; ring
  · have hp' : (t.2.val + t'.2.val) % 2 = 0 := by omega
    simp only [← pair_same_parity hC t.2 t'.2 hp']; ring

theorem trow_commutes (hR : R % 2 = 0) (hC : C % 2 = 0) (t : Fin R × Fin C) (i : Fin R) :
    gdot (signed (ttile F t)) (rowOnes F i) = 0 := by
  rw [gdot_ttile hR hC]; unfold rowOnes; simp only; ring

theorem tcol_commutes (hR : R % 2 = 0) (hC : C % 2 = 0) (t : Fin R × Fin C) (j : Fin C) :
    gdot (signed (ttile F t)) (colOnes F j) = 0 := by
  rw [gdot_ttile hR hC]; unfold colOnes; simp only; ring

/-- Functions with vanishing Z-type checks, and vanishing pairing with the first column and row. -/
def torK (F : Type) [Field F] (o : Fin R × Fin C) : Submodule F (Fin R × Fin C → F) where
  carrier := {x | (∀ t : Fin R × Fin C, (t.1.val + t.2.val) % 2 = 1 → gdot (signed (ttile F t)) x = 0) ∧
    gdot (signed (colOnes F o.2)) x = 0 ∧ gdot (signed (rowOnes F o.1)) x = 0}
  zero_mem' := by refine ⟨?_, ?_, ?_⟩ <;> simp [gdot]
  add_mem' := by
    rintro a b ⟨h1, h2, h5⟩ ⟨h3, h4, h6⟩
    have : ∀ t : Fin R × Fin C → F, gdot t (a + b) = gdot t a + gdot t b := by
      intro t; simp [gdot, mul_add, Finset.sum_add_distrib]
    exact ⟨fun t h => by rw [this, h1 t h, h3 t h, add_zero], by rw [this, h2, h4, add_zero],
      by rw [this, h5, h6, add_zero]⟩
  smul_mem' := by
    rintro s a ⟨h1, h2, h3⟩
    have : ∀ t : Fin R × Fin C → F, gdot t (s • a) = s * gdot t a := by
      intro t; simp only [gdot, Pi.smul_apply, smul_eq_mul, Finset.mul_sum]
      exact Finset.sum_congr rfl fun _ _ => by ring
    exact ⟨fun t h => by rw [this, h1 t h, mul_zero], by rw [this, h2, mul_zero],
      by rw [this, h3, mul_zero]⟩

/-- Span of the X-type checks. -/
def torS (F : Type) [Field F] (R C : ℕ) : Submodule F (Fin R × Fin C → F) :=
  Submodule.span F {a | ∃ t : Fin R × Fin C, (t.1.val + t.2.val) % 2 = 0 ∧ a = ttile F t}

/-- position of row `i` in the order of column `j` -/
def shiftRow (R i j : ℕ) : ℕ := if j % 2 = 0 then i else if i = 0 then R - 1 else i - 1

theorem shiftRow_spec {R i : ℕ} (hi : i < R) (j : ℕ) :
    (j % 2 = 0 ∧ shiftRow R i j = i) ∨ (j % 2 = 1 ∧ i = 0 ∧ shiftRow R i j = R - 1) ∨
      (j % 2 = 1 ∧ 0 < i ∧ shiftRow R i j = i - 1) := by
  unfold shiftRow; split_ifs <;> omega

theorem shiftRow_lt {R i : ℕ} (hi : i < R) (j : ℕ) : shiftRow R i j < R := by
  have := shiftRow_spec hi j; omega

theorem toric_complete (hR : R % 2 = 0) (hC : C % 2 = 0) (hR0 : 0 < R) (hC0 : 0 < C) :
    torK F ((⟨0, hR0⟩ : Fin R), (⟨0, hC0⟩ : Fin C)) ≤ torS F R C := by
  refine sweep (torS F R C) (torK F _) ?_ (fun k => k.2.val * R + shiftRow R k.1.val k.2.val) ?_ ?_
  · refine Submodule.span_le.2 ?_
    rintro _ ⟨t, ht, rfl⟩
    refine ⟨fun t' ht' => ttiles_commute hR hC ht ht', ?_, ?_⟩
    · rw [gdot_comm, ← gdot_signed]; exact tcol_commutes hR hC _ _
    · rw [gdot_comm, ← gdot_signed]; exact trow_commutes hR hC _ _
  · intro k k' h
    have a1 := k.1.isLt
    have a2 := k'.1.isLt
    obtain ⟨h1, h2⟩ := ord_inj (shiftRow_lt a2 _) (shiftRow_lt a1 _) h
    have s1 := shiftRow_spec a1 k.2.val
    have s2 := shiftRow_spec a2 k'.2.val
    exact Prod.ext (Fin.ext (by omega)) (Fin.ext h1)
  · rintro ⟨i, j⟩
    have hi := i.isLt
    have hj := j.isLt
    have si := shiftRow_spec hi j.val
    simp only [ord_lt (shiftRow_lt i.isLt _) (shiftRow_lt (Fin.isLt _) _)]
    by_cases hj0 : j.val = 0
    · by_cases hiR : i.val + 1 < R
      · left
        obtain ⟨c, hc⟩ : ∃ c : Fin C, (c.val = 0 ∧ i.val % 2 = 0) ∨ (c.val = C - 1 ∧ i.val % 2 = 1) := by
          by_cases h2 : i.val % 2 = 0
          · exact ⟨⟨0, hC0⟩, Or.inl ⟨rfl, h2⟩⟩
          · exact ⟨⟨C - 1, by omega⟩, Or.inr ⟨rfl, by omega⟩⟩
        refine ⟨ttile F (i, c), Submodule.subset_span ⟨(i, c), by simp only; omega, rfl⟩, ?_, ?_⟩
        · refine if_pos ⟨Or.inl rfl, ?_⟩
          have := next_val c
          simp only [Fin.ext_iff]; omega
        · rintro ⟨i', j'⟩ h
          refine if_neg ?_
          have s' := shiftRow_spec i'.isLt j'.val
          have := next_val i
          simp only [Fin.ext_iff] at h ⊢
          omega
      · right
        rintro x ⟨-, hcol, -⟩ hx
        have hj0' : j = ⟨0, hC0⟩ := Fin.ext hj0
        rw [gdot_signed, gdot_colOnes, Finset.sum_eq_single i] at hcol
        · unfold signed at hcol
          rw [hj0']
          exact (mul_eq_zero.1 hcol).resolve_left (sgn_ne_zero _)
        · intro b _ hb
          unfold signed
          have hb' : b.val ≠ i.val := fun h => hb (Fin.ext h)
          have := b.isLt
          have sb := shiftRow_spec this 0
          rw [hj0] at si hx
          rw [hx (b, ⟨0, hC0⟩) (Or.inr ⟨rfl, by simp only; omega⟩), mul_zero]
        · intro hh; exact absurd (Finset.mem_univ _) hh
    · by_cases hjC : j.val + 1 < C
      · by_cases hp : (i.val + j.val) % 2 = 0
        · left
          refine ⟨ttile F (i, j), Submodule.subset_span ⟨(i, j), hp, rfl⟩, if_pos ⟨Or.inl rfl, Or.inl rfl⟩, ?_⟩
          rintro ⟨i', j'⟩ h
          refine if_neg ?_
          have s' := shiftRow_spec i'.isLt j'.val
          have := next_val i
          have := next_val j
          have := i'.isLt
          simp only [Fin.ext_iff] at h ⊢
          rintro ⟨h1, h2⟩
          have hjj : j'.val = j.val := by omega
          rw [hjj] at s'
          rw [hjj] at h
          omega
        · right
          rintro x ⟨hB, -, -⟩ hx
          obtain ⟨i', hi'⟩ : ∃ i' : Fin R, next i' = i := by
            by_cases h0 : i.val = 0
            · refine ⟨⟨R - 1, by omega⟩, Fin.ext ?_⟩
              have := next_val (⟨R - 1, by omega⟩ : Fin R)
              simp only at this; omega
            · refine ⟨⟨i.val - 1, by omega⟩, Fin.ext ?_⟩
              have := next_val (⟨i.val - 1, by omega⟩ : Fin R)
              simp only at this; omega
          obtain ⟨j', hj'⟩ : ∃ j' : Fin C, next j' = j := by
            refine ⟨⟨j.val - 1, by omega⟩, Fin.ext ?_⟩
            have := next_val (⟨j.val - 1, by omega⟩ : Fin C)
            simp only at this; omega
          have n1 := next_val i'
          have n2 := next_val j'
          rw [hi'] at n1; rw [hj'] at n2
          have hi2 := i'.isLt
          have hj2 := j'.isLt
          have si' := shiftRow_spec hi2 j.val
          have h := hB (i', j') (by simp only; omega)
          rw [gdot_ttile hR hC] at h
          simp only [hi', hj'] at h
          rw [hx (i', j') (Or.inl (by simp only; omega)), hx (i, j') (Or.inl (by simp only; omega)),
            hx (i', j) (Or.inr ⟨rfl, by simp only; omega⟩)] at h
          have := (mul_eq_zero.1 h).resolve_left (sgn_ne_zero _)
          simpa using this
      · right
        rintro x ⟨hB, -, hrow⟩ hx
        have hcol : ∀ (a : Fin R) (b : Fin C), b ≠ j → x (a, b) = 0 := by
          intro a b hb
          refine hx (a, b) (Or.inl ?_)
          have : b.val ≠ j.val := fun h => hb (Fin.ext h)
          have := b.isLt
          simp only; omega
        have hstep : ∀ a : Fin R, x (a, j) = x (next a, j) := by
          intro a
          by_cases hp : (a.val + j.val) % 2 = 1
          · have h := hB (a, j) hp
            rw [gdot_ttile hR hC] at h
            simp only at h
            rw [hcol a _ (next_ne hC j), hcol (next a) _ (next_ne hC j)] at h
            have := (mul_eq_zero.1 h).resolve_left (sgn_ne_zero _)
            rw [sub_zero, add_zero, sub_eq_zero] at this
            exact this
          · have hj1 : j.val - 1 < C := by omega
            have hn : next (⟨j.val - 1, hj1⟩ : Fin C) = j := by
              refine Fin.ext ?_
              have := next_val (⟨j.val - 1, hj1⟩ : Fin C)
              simp only at this; omega
            have hne : (⟨j.val - 1, hj1⟩ : Fin C) ≠ j := by
              intro h; have := congrArg Fin.val h; simp only at this; omega
            have h := hB (a, ⟨j.val - 1, hj1⟩) (by simp only; omega)
            rw [gdot_ttile hR hC] at h
            simp only [hn] at h
            rw [hcol a _ hne, hcol (next a) _ hne] at h
            have := (mul_eq_zero.1 h).resolve_left (sgn_ne_zero _)
            have h3 : x (next a, j) - x (a, j) = 0 := by rw [← this]; ring
            exact (sub_eq_zero.1 h3).symm
        have hconst : ∀ (m : ℕ) (hm : m < R), x (⟨m, hm⟩, j) = x (⟨0, hR0⟩, j) := by
          intro m
          induction m with
          | zero => intro _; rfl
          | succ m ih =>
            intro hm
            rw [← ih (by omega), hstep ⟨m, by omega⟩]
            congr 2
            refine Fin.ext ?_
            have := next_val (⟨m, by omega⟩ : Fin R)
            simp only at this ⊢; omega
        rw [gdot_signed, gdot_rowOnes, Finset.sum_eq_single j] at hrow
        · unfold signed at hrow
          have := (mul_eq_zero.1 hrow).resolve_left (sgn_ne_zero _)
          rw [← this]; exact hconst i.val hi
        · intro b _ hb
          unfold signed
          rw [hcol _ b hb, mul_zero]
        · intro hh; exact absurd (Finset.mem_univ _) hh

end QLDPC
