import Verif.Lemmas.Lattice

/-!
# Tiles of the rotated surface code
-/

namespace QLDPC

variable {F : Type} [Field F] {R C : ℕ}

/-- A function on the lattice, extended by zero to the integers. -/
def extz (x : Fin R × Fin C → F) (i j : ℤ) : F :=
  if h : (0 ≤ i ∧ i < R) ∧ 0 ≤ j ∧ j < C then x (⟨i.toNat, by omega⟩, ⟨j.toNat, by omega⟩) else 0

/-- Ones on the cells of the tile with upper left corner `(r, c)`. -/
def tile (F : Type) [Field F] (R C : ℕ) (r c : ℤ) : Fin R × Fin C → F :=
  fun k => if ((k.1 : ℤ) = r ∨ (k.1 : ℤ) = r + 1) ∧ ((k.2 : ℤ) = c ∨ (k.2 : ℤ) = c + 1) then 1 else 0

theorem extz_cell (x : Fin R × Fin C → F) (k : Fin R × Fin C) : extz x k.1 k.2 = x k := by
  unfold extz
  rw [dif_pos ⟨⟨by omega, by have := k.1.isLt; omega⟩, by omega, by have := k.2.isLt; omega⟩]
  congr 1

theorem extz_out (x : Fin R × Fin C → F) (i j : ℤ) (h : ¬ ((0 ≤ i ∧ i < R) ∧ 0 ≤ j ∧ j < C)) :
    extz x i j = 0 := dif_neg h

theorem sum_delta (g : ℤ → ℤ → F) (x : Fin R × Fin C → F) (a b : ℤ) :
    ∑ k : Fin R × Fin C, (if (k.1 : ℤ) = a ∧ (k.2 : ℤ) = b then 1 else 0) * (g k.1 k.2 * x k) =
      g a b * extz x a b := by
  by_cases h : (0 ≤ a ∧ a < R) ∧ 0 ≤ b ∧ b < C
  · rw [Finset.sum_eq_single (⟨a.toNat, by omega⟩, ⟨b.toNat, by omega⟩)]
    · have h1 : ((a.toNat : ℕ) : ℤ) = a := by omega
      have h2 : ((b.toNat : ℕ) : ℤ) = b := by omega
      simp only [h1, h2, and_self, if_true, one_mul, extz, dif_pos h]
    · intro k _ hk
      rw [if_neg, zero_mul]
      rintro ⟨h1, h2⟩
      exact hk (Prod.ext (Fin.ext (by simp; omega)) (Fin.ext (by simp; omega)))
    · intro hh; exact absurd (Finset.mem_univ _) hh
  · rw [extz_out x a b h, mul_zero]
    refine Finset.sum_eq_zero fun k _ => ?_
    rw [if_neg, zero_mul]
    rintro ⟨h1, h2⟩
    have := k.1.isLt; have := k.2.isLt
    exact h ⟨⟨by omega, by omega⟩, by omega, by omega⟩

/-- The alternating sum over a tile. -/
theorem gdot_tile (x : Fin R × Fin C → F) (r c : ℤ) : gdot (signed (tile F R C r c)) x =
    sgn F (r + c) * (extz x r c - extz x (r + 1) c - extz x r (c + 1) + extz x (r + 1) (c + 1)) := by
  have h1 : ∀ k : Fin R × Fin C, signed (tile F R C r c) k * x k =
      (if (k.1 : ℤ) = r ∧ (k.2 : ℤ) = c then 1 else 0) * (sgn F ((k.1 : ℤ) + k.2) * x k) +
      (if (k.1 : ℤ) = r + 1 ∧ (k.2 : ℤ) = c then 1 else 0) * (sgn F ((k.1 : ℤ) + k.2) * x k) +
      (if (k.1 : ℤ) = r ∧ (k.2 : ℤ) = c + 1 then 1 else 0) * (sgn F ((k.1 : ℤ) + k.2) * x k) +
      (if (k.1 : ℤ) = r + 1 ∧ (k.2 : ℤ) = c + 1 then 1 else 0) * (sgn F ((k.1 : ℤ) + k.2) * x k) := by
    intro k
    unfold signed tile
    by_cases a1 : (k.1 : ℤ) = r <;> by_cases a2 : (k.1 : ℤ) = r + 1 <;>
      by_cases b1 : (k.2 : ℤ) = c <;> by_cases b2 : (k.2 : ℤ) = c + 1 <;>
      first | omega | simp [a1, a2, b1, b2]
  unfold gdot
  simp only [h1, Finset.sum_add_distrib]
  rw [sum_delta (fun i j => sgn F (i + j)), sum_delta (fun i j => sgn F (i + j)),
    sum_delta (fun i j => sgn F (i + j)), sum_delta (fun i j => sgn F (i + j))]
  have e1 : sgn F (r + 1 + c) = -sgn F (r + c) := by rw [← sgn_succ]; congr 1; ring
  have e2 : sgn F (r + (c + 1)) = -sgn F (r + c) := by rw [← sgn_succ]; congr 1; ring
  have e3 : sgn F (r + 1 + (c + 1)) = sgn F (r + c) := sgn_congr (by omega)
  rw [e1, e2, e3]
  ring

/-- Tiles of X-type checks. -/
def IsA (R C : ℕ) (r c : ℤ) : Prop := 0 ≤ r ∧ r < R - 1 ∧ -1 ≤ c ∧ c < C ∧ (r + c) % 2 = 0
/-- Tiles of Z-type checks. -/
def IsB (R C : ℕ) (r c : ℤ) : Prop := -1 ≤ r ∧ r < R ∧ 0 ≤ c ∧ c < C - 1 ∧ (r + c) % 2 = 1

theorem extz_of_if (P : ℤ → ℤ → Prop) [∀ i j, Decidable (P i j)] (i j : ℤ) :
    extz (fun k : Fin R × Fin C => if P k.1 k.2 then (1 : F) else 0) i j =
      if ((0 ≤ i ∧ i < R) ∧ 0 ≤ j ∧ j < C) ∧ P i j then 1 else 0 := by
  unfold extz
  by_cases h : (0 ≤ i ∧ i < R) ∧ 0 ≤ j ∧ j < C
  · have h1 : ((i.toNat : ℕ) : ℤ) = i := by omega
    have h2 : ((j.toNat : ℕ) : ℤ) = j := by omega
    rw [dif_pos h]
    simp only [h1, h2, h, and_self, true_and]
  · rw [dif_neg h, if_neg fun hh => h hh.1]

theorem tiles_commute {r c r' c' : ℤ} (hA : IsA R C r c) (hB : IsB R C r' c') :
    gdot (signed (tile F R C r' c')) (tile F R C r c) = 0 := by
  rw [gdot_tile]
  unfold tile
  simp only [extz_of_if fun i j => (i = r ∨ i = r + 1) ∧ (j = c ∨ j = c + 1)]
  obtain ⟨a1, a2, a3, a4, a5⟩ := hA
  obtain ⟨b1, b2, b3, b4, b5⟩ := hB
  split_ifs <;> first | omega | simp

theorem row_commutes {r c : ℤ} (hB : IsB R C r c) (i : Fin R) :
    gdot (signed (tile F R C r c)) (rowOnes F i) = 0 := by
  rw [gdot_tile]
  have : (rowOnes F i : Fin R × Fin C → F) = fun k => if (k.1 : ℤ) = i then 1 else 0 := by
    funext k; unfold rowOnes; congr 1; rw [Fin.ext_iff]; exact propext (by omega)
  rw [this]
  simp only [extz_of_if fun a _ => a = (i : ℤ)]
  obtain ⟨b1, b2, b3, b4, b5⟩ := hB
  split_ifs <;> first | omega | simp

theorem col_commutes {r c : ℤ} (hA : IsA R C r c) (j : Fin C) :
    gdot (tile F R C r c) (signed (colOnes F j)) = 0 := by
  rw [← gdot_signed, gdot_tile]
  have : (colOnes F j : Fin R × Fin C → F) = fun k => if (k.2 : ℤ) = j then 1 else 0 := by
    funext k; unfold colOnes; congr 1; rw [Fin.ext_iff]; exact propext (by omega)
  rw [this]
  simp only [extz_of_if fun _ b => b = (j : ℤ)]
  obtain ⟨b1, b2, b3, b4, b5⟩ := hA
  split_ifs <;> first | omega | simp

/-- Functions with vanishing Z-type checks and vanishing pairing with the first column. -/
def surfK (F : Type) [Field F] (R C : ℕ) (j : Fin C) : Submodule F (Fin R × Fin C → F) where
  carrier := {x | (∀ r c, IsB R C r c → gdot (signed (tile F R C r c)) x = 0) ∧
    gdot (signed (colOnes F j)) x = 0}
  zero_mem' := by constructor <;> simp [gdot]
  add_mem' := by
    rintro a b ⟨h1, h2⟩ ⟨h3, h4⟩
    have : ∀ t : Fin R × Fin C → F, gdot t (a + b) = gdot t a + gdot t b := by
      intro t; simp [gdot, mul_add, Finset.sum_add_distrib]
    exact ⟨fun r c h => by rw [this, h1 r c h, h3 r c h, add_zero], by rw [this, h2, h4, add_zero]⟩
  smul_mem' := by
    rintro s a ⟨h1, h2⟩
    have : ∀ t : Fin R × Fin C → F, gdot t (s • a) = s * gdot t a := by
      intro t; simp only [gdot, Pi.smul_apply, smul_eq_mul, Finset.mul_sum]
      exact Finset.sum_congr rfl fun _ _ => by ring
    exact ⟨fun r c h => by rw [this, h1 r c h, mul_zero], by rw [this, h2, mul_zero]⟩

/-- Span of the X-type checks. -/
def surfS (F : Type) [Field F] (R C : ℕ) : Submodule F (Fin R × Fin C → F) :=
  Submodule.span F {a | ∃ r c, IsA R C r c ∧ a = tile F R C r c}

theorem surface_complete (hC : 0 < C) : surfK F R C ⟨0, hC⟩ ≤ surfS F R C := by
  refine sweep (surfS F R C) (surfK F R C ⟨0, hC⟩) ?_ (fun k => k.2.val * R + k.1.val) ?_ ?_
  · refine Submodule.span_le.2 ?_
    rintro _ ⟨r, c, hA, rfl⟩
    exact ⟨fun r' c' hB => tiles_commute hA hB, by rw [gdot_comm]; exact col_commutes hA _⟩
  · intro k k' h
    obtain ⟨h1, h2⟩ := ord_inj k'.1.isLt k.1.isLt h
    exact Prod.ext (Fin.ext h2) (Fin.ext h1)
  · rintro ⟨i, j⟩
    have hi := i.isLt
    have hj := j.isLt
    simp only [ord_lt i.isLt (Fin.isLt _)]
    by_cases ht : i.val + 1 < R ∧ ((i.val + j.val) % 2 = 0 ∨ j.val = 0)
    · left
      obtain ⟨c, hc'⟩ : ∃ c : ℤ, (c = j.val ∧ (i.val + j.val) % 2 = 0) ∨
          (c = -1 ∧ j.val = 0 ∧ (i.val + j.val) % 2 = 1) := by
        by_cases h2 : (i.val + j.val) % 2 = 0
        · exact ⟨_, Or.inl ⟨rfl, h2⟩⟩
        · exact ⟨_, Or.inr ⟨rfl, by omega, by omega⟩⟩
      refine ⟨tile F R C i c, Submodule.subset_span ⟨i, c, ⟨?_, ?_, ?_, ?_, ?_⟩, rfl⟩, ?_, ?_⟩
      · omega
      · omega
      · omega
      · omega
      · omega
      · refine if_pos ⟨Or.inl rfl, ?_⟩
        show (j.val : ℤ) = c ∨ (j.val : ℤ) = c + 1
        omega
      · rintro ⟨i', j'⟩ h; unfold tile; rw [if_neg]; simp only at h ⊢; omega
    · right
      rintro x ⟨hB, hcol⟩ hx
      by_cases hj0 : j.val = 0
      · have hj0' : j = ⟨0, hC⟩ := Fin.ext hj0
        rw [gdot_signed, gdot_colOnes, Finset.sum_eq_single i] at hcol
        · unfold signed at hcol
          rw [hj0']
          exact (mul_eq_zero.1 hcol).resolve_left (sgn_ne_zero _)
        · intro b _ hb
          unfold signed
          have hb' : b.val ≠ i.val := fun h => hb (Fin.ext h)
          have := b.isLt
          rw [hx (b, ⟨0, hC⟩) (Or.inr ⟨hj0.symm, by simp only; omega⟩), mul_zero]
        · intro hh; exact absurd (Finset.mem_univ _) hh
      · have hold : ∀ a b : ℤ, (b < j.val ∨ (b = j.val ∧ a < i.val)) → extz x a b = 0 := by
          intro a b h
          by_cases hin : (0 ≤ a ∧ a < R) ∧ 0 ≤ b ∧ b < C
          · unfold extz; rw [dif_pos hin]; apply hx; simp only; omega
          · exact extz_out x a b hin
        have hself := extz_cell x (i, j)
        simp only at hself
        by_cases hp : (i.val + j.val) % 2 = 0
        · have hiR : (i.val : ℤ) + 1 = R := by omega
          have h := hB i (j - 1) ⟨by omega, by omega, by omega, by omega, by omega⟩
          rw [gdot_tile, hold _ _ (Or.inl (by omega)), hold _ _ (Or.inl (by omega)), sub_add_cancel, hself,
            extz_out x (i + 1) j (by omega)] at h
          have := (mul_eq_zero.1 h).resolve_left (sgn_ne_zero _)
          simpa using this
        · have h := hB (i - 1) (j - 1) ⟨by omega, by omega, by omega, by omega, by omega⟩
          rw [gdot_tile, hold _ _ (Or.inl (by omega)), hold _ _ (Or.inl (by omega)), sub_add_cancel,
            sub_add_cancel, hself, hold _ _ (Or.inr ⟨rfl, by omega⟩)] at h
          have := (mul_eq_zero.1 h).resolve_left (sgn_ne_zero _)
          simpa using this

end QLDPC
