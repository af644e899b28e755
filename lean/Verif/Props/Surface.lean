import Verif.Lemmas.Surface
import Verif.Spec.Lattice
import Verif.Props.CssDistance
import Mathlib.Algebra.Field.ZMod

/-!
# C54: the rotated surface code and the rotated toric code
-/

namespace QLDPC.Props

open QLDPC QLDPC.Spec

variable {F : Type} [Field F] [DecidableEq F] {R C : ℕ}

theorem norm_box {a : Fin R × Fin C → F} (P : Finset (Fin R)) (Q : Finset (Fin C))
    (h : ∀ k, a k ≠ 0 ↔ k.1 ∈ P ∧ k.2 ∈ Q) : hammingNorm (flatG a) = P.card * Q.card := by
  rw [← Finset.card_product]
  unfold hammingNorm
  refine Finset.card_bij' (fun k _ => (k.divNat, k.modNat)) (fun p _ => flat p.1 p.2) ?_ ?_ ?_ ?_
  · intro k hk
    rw [Finset.mem_product]
    exact (h _).1 (Finset.mem_filter.1 hk).2
  · intro p hp
    rw [Finset.mem_filter, flatG_flat]
    exact ⟨Finset.mem_univ _, (h _).2 (Finset.mem_product.1 hp)⟩
  · intro k _; exact flat_div_mod k
  · intro p _; simp [divNat_flat, modNat_flat]

theorem signed_ne_zero (a : Fin R × Fin C → F) (k : Fin R × Fin C) : signed a k ≠ 0 ↔ a k ≠ 0 := by
  unfold signed
  rw [mul_ne_zero_iff]
  exact and_iff_right (sgn_ne_zero _)

/-- the rows or columns of a tile -/
def tileSide (R : ℕ) (r : ℤ) : Finset (Fin R) := Finset.univ.filter fun i => (i : ℤ) = r ∨ (i : ℤ) = r + 1

theorem card_tileSide_inside {r : ℤ} (h : 0 ≤ r) (h' : r < R - 1) : (tileSide R r).card = 2 := by
  have : tileSide R r = {⟨r.toNat, by omega⟩, ⟨r.toNat + 1, by omega⟩} := by
    ext i
    simp only [tileSide, Finset.mem_filter, Finset.mem_univ, true_and, Finset.mem_insert,
      Finset.mem_singleton, Fin.ext_iff]
    omega
  rw [this, Finset.card_pair]
  intro h; have := congrArg Fin.val h; simp at this

theorem card_tileSide {r : ℤ} (hR : 1 < R) (h : -1 ≤ r) (h' : r < R) :
    (tileSide R r).card = 1 ∨ (tileSide R r).card = 2 := by
  by_cases h1 : 0 ≤ r ∧ r < R - 1
  · exact Or.inr (card_tileSide_inside h1.1 h1.2)
  · left
    by_cases h2 : r = -1
    · have : tileSide R r = {⟨0, by omega⟩} := by
        ext i
        simp only [tileSide, Finset.mem_filter, Finset.mem_univ, true_and, Finset.mem_singleton,
          Fin.ext_iff]
        omega
      rw [this, Finset.card_singleton]
    · have : tileSide R r = {⟨r.toNat, by omega⟩} := by
        ext i
        have := i.isLt
        simp only [tileSide, Finset.mem_filter, Finset.mem_univ, true_and, Finset.mem_singleton,
          Fin.ext_iff]
        omega
      rw [this, Finset.card_singleton]

theorem norm_tile (r c : ℤ) :
    hammingNorm (flatG (tile F R C r c)) = (tileSide R r).card * (tileSide C c).card := by
  refine norm_box _ _ fun k => ?_
  unfold tile tileSide
  simp only [Finset.mem_filter, Finset.mem_univ, true_and]
  split_ifs with h <;> simp [h]

theorem norm_signed (a : Fin R × Fin C → F) : hammingNorm (flatG (signed a)) = hammingNorm (flatG a) := by
  unfold hammingNorm
  congr 1
  ext k
  simp only [Finset.mem_filter, Finset.mem_univ, true_and]
  exact signed_ne_zero a _

theorem norm_ttile (hR : R % 2 = 0) (hC : C % 2 = 0) (t : Fin R × Fin C) :
    hammingNorm (flatG (ttile F t)) = 4 := by
  rw [norm_box {t.1, next t.1} {t.2, next t.2}, Finset.card_pair (next_ne hR _).symm,
    Finset.card_pair (next_ne hC _).symm]
  intro k
  unfold ttile
  simp only [Finset.mem_insert, Finset.mem_singleton]
  split_ifs with h <;> simp [h]

theorem norm_row (i : Fin R) : hammingNorm (flatG (rowOnes F i : Fin R × Fin C → F)) = C := by
  rw [norm_box {i} Finset.univ]
  · simp
  · intro k; unfold rowOnes; simp

theorem norm_col (j : Fin C) : hammingNorm (flatG (colOnes F j : Fin R × Fin C → F)) = R := by
  rw [norm_box Finset.univ {j}]
  · simp
  · intro k; unfold colOnes; simp

theorem rowLine_eq (i : Fin R) : rowLine F R C i = flatG (rowOnes F i) := by
  funext k
  unfold rowLine flatG rowOnes
  simp only [Fin.ext_iff, Fin.coe_divNat]

theorem colLine_eq (j : Fin C) : colLine F R C j = flatG (colOnes F j) := by
  funext k
  unfold colLine flatG colOnes
  simp only [Fin.ext_iff, Fin.coe_modNat]

theorem alternate_eq (a : Fin R × Fin C → F) : alternate (flatG a) = flatG (signed a) := by
  funext k
  unfold alternate flatG signed
  rw [sgn_add_nat, Fin.coe_divNat, Fin.coe_modNat]

/-- A vector that pairs nontrivially with every alternating column meets every column. -/
theorem le_norm_of_cols {x : Fin (R * C) → F}
    (h : ∀ j : Fin C, dot x (flatG (signed (colOnes F j))) ≠ 0) : C ≤ hammingNorm x := by
  refine le_hammingNorm_of_fibres Fin.modNat fun j => ?_
  by_contra hcon
  push Not at hcon
  refine h j (Finset.sum_eq_zero fun k _ => ?_)
  by_cases hk : k.modNat = j
  · rw [hcon k hk, zero_mul]
  · unfold flatG signed colOnes; simp [hk]

theorem le_norm_of_rows {x : Fin (R * C) → F}
    (h : ∀ i : Fin R, dot x (flatG (signed (rowOnes F i))) ≠ 0) : R ≤ hammingNorm x := by
  refine le_hammingNorm_of_fibres Fin.divNat fun j => ?_
  by_contra hcon
  push Not at hcon
  refine h j (Finset.sum_eq_zero fun k _ => ?_)
  by_cases hk : k.divNat = j
  · rw [hcon k hk, zero_mul]
  · unfold flatG signed rowOnes; simp [hk]

theorem le_norm_of_rows' {x : Fin (R * C) → F}
    (h : ∀ i : Fin R, dot x (flatG (rowOnes F i)) ≠ 0) : R ≤ hammingNorm x := by
  refine le_hammingNorm_of_fibres Fin.divNat fun j => ?_
  by_contra hcon
  push Not at hcon
  refine h j (Finset.sum_eq_zero fun k _ => ?_)
  by_cases hk : k.divNat = j
  · rw [hcon k hk, zero_mul]
  · unfold flatG rowOnes; simp [hk]

theorem le_norm_of_cols' {x : Fin (R * C) → F}
    (h : ∀ j : Fin C, dot x (flatG (colOnes F j)) ≠ 0) : C ≤ hammingNorm x := by
  refine le_hammingNorm_of_fibres Fin.modNat fun j => ?_
  by_contra hcon
  push Not at hcon
  refine h j (Finset.sum_eq_zero fun k _ => ?_)
  by_cases hk : k.modNat = j
  · rw [hcon k hk, zero_mul]
  · unfold flatG colOnes; simp [hk]

/-- A logical operator that pairs nontrivially with an operator commuting with the checks is
nontrivial. -/
theorem nontrivial_of_pair {n : ℕ} {hx hz : Rows F n} (hc : ∀ x ∈ hx, ∀ z ∈ hz, dot x z = 0)
    {x z : Fin n → F} (hxk : x ∈ kernel hz) (hzk : z ∈ kernel hx) (hp : dot x z ≠ 0) :
    IsNontrivialX hx hz x := by
  rw [C27_stabilizer_definition hx hz hc]
  refine ⟨hxk, fun h => hp ?_⟩
  exact dot_eq_zero_of_mem_rowSpan ((isCombination_iff _ _).1 h) hzk

theorem surface_mem_x [Fintype F] (hC : 0 < C) (v : Fin (R * C) → F) :
    v ∈ (surfaceChecks R C).1.map (viewField F) ↔ ∃ r c, IsA R C r c ∧ v = flatG (tile F R C r c) := by
  rw [List.mem_map]
  constructor
  · rintro ⟨w, hw, rfl⟩
    obtain ⟨r, c, hA, rfl⟩ := (mem_surfaceChecks_x hC w).1 hw
    exact ⟨r, c, hA, viewField_surfaceCheck r c⟩
  · rintro ⟨r, c, hA, rfl⟩
    exact ⟨_, (mem_surfaceChecks_x hC _).2 ⟨r, c, hA, rfl⟩, viewField_surfaceCheck r c⟩

theorem surface_mem_z [Fintype F] (hR : 0 < R) (v : Fin (R * C) → F) :
    v ∈ (surfaceChecks R C).2.map (fun v => conjugateZ R C (viewField F v)) ↔
      ∃ r c, IsB R C r c ∧ v = flatG (signed (tile F R C r c)) := by
  rw [List.mem_map]
  constructor
  · rintro ⟨w, hw, rfl⟩
    obtain ⟨r, c, hA, rfl⟩ := (mem_surfaceChecks_z hR w).1 hw
    exact ⟨r, c, hA, by rw [viewField_surfaceCheck, conjugateZ_flatG]⟩
  · rintro ⟨r, c, hA, rfl⟩
    exact ⟨_, (mem_surfaceChecks_z hR _).2 ⟨r, c, hA, rfl⟩, by rw [viewField_surfaceCheck, conjugateZ_flatG]⟩

/-- C54 (surface code).  For all side lengths from 2 on and all finite fields, the rotated surface code is
built, its checks of opposite type commute and touch 2 or 4 qudits, it encodes one logical qudit, its
distances are the recorded ones, and straight rows and (with alternating signs) columns are logical
operators of that weight. -/
theorem C54_surface [Fintype F] (rows cols : ℕ) (hr : 2 ≤ rows) (hc : 2 ≤ cols) :
    ∃ code, surfaceCode F rows cols = some code ∧
      HasParameters code.hx code.hz code.dimension code.distX code.distZ ∧
      code.dimension = 1 ∧ code.distX = cols ∧ code.distZ = rows ∧
      (∀ h ∈ code.hx ++ code.hz, hammingNorm h = 2 ∨ hammingNorm h = 4) ∧
      (∀ r < rows, IsNontrivialX code.hx code.hz (rowLine F rows cols r) ∧
        hammingNorm (rowLine F rows cols r) = cols) ∧
      (∀ c < cols, IsNontrivialX code.hz code.hx (alternate (colLine F rows cols c)) ∧
        hammingNorm (alternate (colLine F rows cols c)) = rows) := by
  have hr0 : 0 < rows := by omega
  have hc0 : 0 < cols := by omega
  have mx := surface_mem_x (F := F) (R := rows) hc0
  have mz := surface_mem_z (F := F) (C := cols) hr0
  have hne : ¬ ((surfaceChecks rows cols).1 = [] ∨ (surfaceChecks rows cols).2 = []) := by
    rintro (h | h)
    · have := (mem_surfaceChecks_x (R := rows) hc0 _).2 ⟨0, 0, ⟨by omega, by omega, by omega, by omega, by omega⟩, rfl⟩
      rw [h] at this; cases this
    · have := (mem_surfaceChecks_z (C := cols) hr0 _).2 ⟨1, 0, ⟨by omega, by omega, by omega, by omega, by omega⟩, rfl⟩
      rw [h] at this; cases this
  refine ⟨_, by unfold surfaceCode; simp only; rw [if_neg hne], ?_⟩
  simp only
  generalize (surfaceChecks rows cols).1.map (viewField F) = hx at mx ⊢
  generalize (surfaceChecks rows cols).2.map (fun v => conjugateZ rows cols (viewField F v)) = hz at mz ⊢
  have L := surface_logicals hr0 hc0 mx mz
  have hrow : ∀ i : Fin rows, flatG (rowOnes F i) ∈ kernel hz := by
    intro i z hz'
    obtain ⟨r', c', hB, rfl⟩ := (mz z).1 hz'
    rw [dot_flatG]; exact row_commutes hB _
  have hcol : ∀ j : Fin cols, flatG (signed (colOnes F j)) ∈ kernel hx := by
    intro j x hx'
    obtain ⟨r, c, hA, rfl⟩ := (mx x).1 hx'
    rw [dot_flatG]; exact col_commutes hA _
  have nrow : ∀ i : Fin rows, IsNontrivialX hx hz (flatG (rowOnes F i)) := fun i =>
    nontrivial_of_pair L.comm (hrow i) (hcol ⟨0, hc0⟩) (by
      rw [dot_flatG, gdot_row_col]; exact sgn_ne_zero _)
  have ncol : ∀ j : Fin cols, IsNontrivialX hz hx (flatG (signed (colOnes F j))) := fun j =>
    nontrivial_of_pair L.symm.comm (hcol j) (hrow ⟨0, hr0⟩) (by
      rw [dot_comm', dot_flatG, gdot_row_col]; exact sgn_ne_zero _)
  refine ⟨⟨L.comm, L.finrank, ⟨⟨_, nrow ⟨0, hr0⟩, (norm_row _).symm⟩, ?_⟩,
    ⟨⟨_, ncol ⟨0, hc0⟩, by rw [norm_signed, norm_col]⟩, ?_⟩⟩, trivial, trivial, trivial, ?_, ?_, ?_⟩
  · rintro _ ⟨v, hv, rfl⟩
    rw [C27_stabilizer_definition hx hz L.comm, isCombination_iff] at hv
    obtain ⟨i, hi, hp⟩ := L.exists_pair hv.1 hv.2
    refine le_norm_of_cols fun j => ?_
    rw [L.transport hv.1 (hcol j) hi (u := sgn F j)]
    · exact mul_ne_zero (sgn_ne_zero _) hp
    · intro k hk
      have hk0 : k = 0 := by simpa using hk
      have hi0 : i = 0 := by simpa using hi
      subst hk0 hi0
      rw [List.getElem_cons_zero, dot_flatG, gdot_row_col]; simp
  · rintro _ ⟨v, hv, rfl⟩
    rw [C27_stabilizer_definition hz hx L.symm.comm, isCombination_iff] at hv
    obtain ⟨i, hi, hp⟩ := L.symm.exists_pair hv.1 hv.2
    refine le_norm_of_rows' fun j => ?_
    rw [L.symm.transport hv.1 (hrow j) hi (u := sgn F j)]
    · exact mul_ne_zero (sgn_ne_zero _) hp
    · intro k hk
      have hk0 : k = 0 := by simpa using hk
      have hi0 : i = 0 := by simpa using hi
      subst hk0 hi0
      rw [List.getElem_cons_zero, dot_comm', dot_flatG, gdot_row_col]; simp
  · intro h hh
    rcases List.mem_append.1 hh with hh | hh
    · obtain ⟨r, c, ⟨h1, h2, h3, h4, -⟩, rfl⟩ := (mx h).1 hh
      rw [norm_tile, card_tileSide_inside h1 h2]
      rcases card_tileSide hc h3 h4 with h | h <;> rw [h] <;> simp
    · obtain ⟨r, c, ⟨h1, h2, h3, h4, -⟩, rfl⟩ := (mz h).1 hh
      rw [norm_signed, norm_tile, card_tileSide_inside h3 h4]
      rcases card_tileSide hr h1 h2 with h | h <;> rw [h] <;> simp
  · intro r hr'
    rw [rowLine_eq ⟨r, hr'⟩]
    exact ⟨nrow _, norm_row _⟩
  · intro c hc'
    rw [colLine_eq ⟨c, hc'⟩, alternate_eq]
    exact ⟨ncol _, by rw [norm_signed, norm_col]⟩

/-- C54 (surface code).  A lattice with a single row or column is rejected. -/
theorem C54_surface_rejects [Fintype F] (rows cols : ℕ) (h : rows < 2 ∨ cols < 2) :
    surfaceCode F rows cols = none := by
  unfold surfaceCode
  simp only
  rw [if_pos]
  rcases h with h | h
  · left
    refine List.eq_nil_iff_forall_not_mem.2 fun v hv => ?_
    obtain ⟨r, c, ⟨h1, h2, -⟩, -⟩ := mem_surfaceChecks_x_only hv
    omega
  · right
    refine List.eq_nil_iff_forall_not_mem.2 fun v hv => ?_
    obtain ⟨r, c, ⟨-, -, h1, h2, -⟩, -⟩ := mem_surfaceChecks_z_only hv
    omega

theorem mem_dropLast_twice {α : Type} {l : List α} {a : α} (h : l = [a, a]) (v : α) :
    v ∈ l.dropLast ↔ v ∈ l := by
  subst h; simp

theorem toric_two : ∃ a b, toricChecks 2 2 = ([a, a], [b, b]) :=
  ⟨fun _ => 1, fun _ => 1, by decide +kernel⟩

theorem toric_mem [Fintype F] (hR : R % 2 = 0) (hC : C % 2 = 0) (two : Prop) [Decidable two]
    (htwo : two ↔ (R = 2 ∧ C = 2)) :
    (∀ v, v ∈ (if two then ((toricChecks R C).1.map (viewField F)).dropLast
        else (toricChecks R C).1.map (viewField F)) ↔
      ∃ t : Fin R × Fin C, (t.1.val + t.2.val) % 2 = 0 ∧ v = flatG (ttile F t)) ∧
    (∀ v, v ∈ (if two then ((toricChecks R C).2.map (fun v => conjugateZ R C (viewField F v))).dropLast
        else (toricChecks R C).2.map (fun v => conjugateZ R C (viewField F v))) ↔
      ∃ t : Fin R × Fin C, (t.1.val + t.2.val) % 2 = 1 ∧ v = flatG (signed (ttile F t))) := by
  have hx : ∀ v, v ∈ (toricChecks R C).1.map (viewField F) ↔
      ∃ t : Fin R × Fin C, (t.1.val + t.2.val) % 2 = 0 ∧ v = flatG (ttile F t) := by
    intro v
    rw [List.mem_map]
    have hm := mem_toricChecks (R := R) (C := C) true
    simp only [if_true] at hm
    constructor
    · rintro ⟨w, hw, rfl⟩
      obtain ⟨t, ht, rfl⟩ := (hm w).1 hw
      exact ⟨t, ht, viewField_toricCheck hR hC t⟩
    · rintro ⟨t, ht, rfl⟩
      exact ⟨_, (hm _).2 ⟨t, ht, rfl⟩, viewField_toricCheck hR hC t⟩
  have hz : ∀ v, v ∈ (toricChecks R C).2.map (fun v => conjugateZ R C (viewField F v)) ↔
      ∃ t : Fin R × Fin C, (t.1.val + t.2.val) % 2 = 1 ∧ v = flatG (signed (ttile F t)) := by
    intro v
    rw [List.mem_map]
    have hm := mem_toricChecks (R := R) (C := C) false
    simp only [Bool.false_eq_true, if_false] at hm
    constructor
    · rintro ⟨w, hw, rfl⟩
      obtain ⟨t, ht, rfl⟩ := (hm w).1 hw
      exact ⟨t, ht, by rw [viewField_toricCheck hR hC, conjugateZ_flatG]⟩
    · rintro ⟨t, ht, rfl⟩
      exact ⟨_, (hm _).2 ⟨t, ht, rfl⟩, by rw [viewField_toricCheck hR hC, conjugateZ_flatG]⟩
  by_cases h : two
  · obtain ⟨rfl, rfl⟩ := htwo.1 h
    obtain ⟨a, b, hab⟩ := toric_two
    simp only [if_pos h]
    constructor
    · intro v; rw [mem_dropLast_twice (a := viewField F a) (by rw [hab]; rfl)]; exact hx v
    · intro v
      rw [mem_dropLast_twice (a := conjugateZ 2 2 (viewField F b)) (by rw [hab]; rfl)]; exact hz v
  · simp only [if_neg h]; exact ⟨hx, hz⟩

/-- C54 (toric code).  For all positive even side lengths and all finite fields, the rotated toric code is
built, its checks of opposite type commute and touch 4 qudits, it encodes two logical qudits, its distances
are the recorded ones, and straight rows and columns are logical operators (of Z type with alternating
signs). -/
theorem C54_toric [Fintype F] (rows cols : ℕ) (hr0 : 0 < rows) (hc0 : 0 < cols) (hr : rows % 2 = 0)
    (hc : cols % 2 = 0) :
    ∃ code, toricCode F rows cols = some code ∧
      HasParameters code.hx code.hz code.dimension code.distX code.distZ ∧
      code.dimension = 2 ∧ code.distX = min rows cols ∧ code.distZ = min rows cols ∧
      (∀ h ∈ code.hx ++ code.hz, hammingNorm h = 4) ∧
      (∀ r < rows, IsNontrivialX code.hx code.hz (rowLine F rows cols r) ∧
        IsNontrivialX code.hz code.hx (alternate (rowLine F rows cols r)) ∧
        hammingNorm (rowLine F rows cols r) = cols) ∧
      (∀ c < cols, IsNontrivialX code.hx code.hz (colLine F rows cols c) ∧
        IsNontrivialX code.hz code.hx (alternate (colLine F rows cols c)) ∧
        hammingNorm (colLine F rows cols c) = rows) := by
  have hne : ¬ ((toricChecks rows cols).1 = [] ∨ (toricChecks rows cols).2 = []) := by
    rintro (h | h)
    · have hm := mem_toricChecks (R := rows) (C := cols) true
      simp only [if_true] at hm
      have := (hm _).2 ⟨(⟨0, hr0⟩, ⟨0, hc0⟩), rfl, rfl⟩
      rw [h] at this; cases this
    · have hm := mem_toricChecks (R := rows) (C := cols) false
      simp only [Bool.false_eq_true, if_false] at hm
      have := (hm _).2 ⟨(⟨0, hr0⟩, ⟨1, by omega⟩), rfl, rfl⟩
      rw [h] at this; cases this
  refine ⟨_, by unfold toricCode; simp only; rw [if_neg (by omega), if_neg hne], ?_⟩
  simp only
  obtain ⟨mx, mz⟩ := toric_mem (F := F) hr hc (rows = 2 ∧ cols = 2) Iff.rfl
  generalize (if rows = 2 ∧ cols = 2 then ((toricChecks rows cols).1.map (viewField F)).dropLast
    else (toricChecks rows cols).1.map (viewField F)) = hx at mx ⊢
  generalize (if rows = 2 ∧ cols = 2 then
      ((toricChecks rows cols).2.map (fun v => conjugateZ rows cols (viewField F v))).dropLast
    else (toricChecks rows cols).2.map (fun v => conjugateZ rows cols (viewField F v))) = hz at mz ⊢
  have L := toric_logicals hr0 hc0 hr hc mx mz
  have hrow : ∀ i : Fin rows, flatG (rowOnes F i) ∈ kernel hz := by
    intro i z hz'
    obtain ⟨t, hB, rfl⟩ := (mz z).1 hz'
    rw [dot_flatG]; exact trow_commutes hr hc _ _
  have hcol : ∀ i : Fin cols, flatG (colOnes F i) ∈ kernel hz := by
    intro i z hz'
    obtain ⟨t, hB, rfl⟩ := (mz z).1 hz'
    rw [dot_flatG]; exact tcol_commutes hr hc _ _
  have hrow' : ∀ i : Fin rows, flatG (signed (rowOnes F i)) ∈ kernel hx := by
    intro j x hx'
    obtain ⟨t, hA, rfl⟩ := (mx x).1 hx'
    rw [dot_flatG, ← gdot_signed]; exact trow_commutes hr hc _ _
  have hcol' : ∀ j : Fin cols, flatG (signed (colOnes F j)) ∈ kernel hx := by
    intro j x hx'
    obtain ⟨t, hA, rfl⟩ := (mx x).1 hx'
    rw [dot_flatG, ← gdot_signed]; exact tcol_commutes hr hc _ _
  have nrow : ∀ i : Fin rows, IsNontrivialX hx hz (flatG (rowOnes F i)) := fun i =>
    nontrivial_of_pair L.comm (hrow i) (hcol' ⟨0, hc0⟩) (by
      rw [dot_flatG, gdot_row_col]; exact sgn_ne_zero _)
  have ncol : ∀ i : Fin cols, IsNontrivialX hx hz (flatG (colOnes F i)) := fun i =>
    nontrivial_of_pair L.comm (hcol i) (hrow' ⟨0, hr0⟩) (by
      rw [dot_flatG, gdot_col_row]; exact sgn_ne_zero _)
  have nrow' : ∀ i : Fin rows, IsNontrivialX hz hx (flatG (signed (rowOnes F i))) := fun i =>
    nontrivial_of_pair L.symm.comm (hrow' i) (hcol ⟨0, hc0⟩) (by
      rw [dot_comm', dot_flatG, gdot_col_row]; exact sgn_ne_zero _)
  have ncol' : ∀ j : Fin cols, IsNontrivialX hz hx (flatG (signed (colOnes F j))) := fun j =>
    nontrivial_of_pair L.symm.comm (hcol' j) (hrow ⟨0, hr0⟩) (by
      rw [dot_comm', dot_flatG, gdot_row_col]; exact sgn_ne_zero _)
  have idx : ∀ i : ℕ, i < 2 → i = 0 ∨ i = 1 := by intro i hi; omega
  have hmem : ∀ {Q : ℕ → Prop}, Q rows → Q cols → Q (min rows cols) := by
    intro Q h1 h2
    rcases min_choice rows cols with h | h <;> rw [h] <;> assumption
  refine ⟨⟨L.comm, L.finrank, ⟨?_, ?_⟩, ⟨?_, ?_⟩⟩, trivial, trivial, trivial, ?_, ?_, ?_⟩
  · exact hmem (Q := fun d => ∃ v, IsNontrivialX hx hz v ∧ d = hammingNorm v)
      ⟨_, ncol ⟨0, hc0⟩, (norm_col _).symm⟩ ⟨_, nrow ⟨0, hr0⟩, (norm_row _).symm⟩
  · rintro _ ⟨v, hv, rfl⟩
    rw [C27_stabilizer_definition hx hz L.comm, isCombination_iff] at hv
    obtain ⟨i, hi, hp⟩ := L.exists_pair hv.1 hv.2
    rcases idx i hi with rfl | rfl
    · refine le_trans (min_le_right _ _) (le_norm_of_cols fun j => ?_)
      rw [L.transport hv.1 (hcol' j) hi (u := sgn F j)]
      · exact mul_ne_zero (sgn_ne_zero _) hp
      · intro k hk
        rcases idx k hk with rfl | rfl
        · rw [List.getElem_cons_zero, dot_flatG, gdot_row_col]; simp
        · rw [List.getElem_cons_succ, List.getElem_cons_zero, dot_flatG, gdot_col_col hr]; simp
    · refine le_trans (min_le_left _ _) (le_norm_of_rows fun j => ?_)
      rw [L.transport hv.1 (hrow' j) hi (u := sgn F j)]
      · exact mul_ne_zero (sgn_ne_zero _) hp
      · intro k hk
        rcases idx k hk with rfl | rfl
        · rw [List.getElem_cons_zero, dot_flatG, gdot_row_row hc]; simp
        · rw [List.getElem_cons_succ, List.getElem_cons_zero, dot_flatG, gdot_col_row]; simp
  · exact hmem (Q := fun d => ∃ v, IsNontrivialX hz hx v ∧ d = hammingNorm v)
      ⟨_, ncol' ⟨0, hc0⟩, by rw [norm_signed, norm_col]⟩ ⟨_, nrow' ⟨0, hr0⟩, by rw [norm_signed, norm_row]⟩
  · rintro _ ⟨v, hv, rfl⟩
    rw [C27_stabilizer_definition hz hx L.symm.comm, isCombination_iff] at hv
    obtain ⟨i, hi, hp⟩ := L.symm.exists_pair hv.1 hv.2
    rcases idx i hi with rfl | rfl
    · refine le_trans (min_le_left _ _) (le_norm_of_rows' fun j => ?_)
      rw [L.symm.transport hv.1 (hrow j) hi (u := sgn F j)]
      · exact mul_ne_zero (sgn_ne_zero _) hp
      · intro k hk
        rcases idx k hk with rfl | rfl
        · rw [List.getElem_cons_zero, dot_comm', dot_flatG, gdot_row_col]; simp
        · rw [List.getElem_cons_succ, List.getElem_cons_zero, dot_comm', dot_flatG, gdot_row_row hc]; simp
    · refine le_trans (min_le_right _ _) (le_norm_of_cols' fun j => ?_)
      rw [L.symm.transport hv.1 (hcol j) hi (u := sgn F j)]
      · exact mul_ne_zero (sgn_ne_zero _) hp
      · intro k hk
        rcases idx k hk with rfl | rfl
        · rw [List.getElem_cons_zero, dot_comm', dot_flatG, gdot_col_col hr]; simp
        · rw [List.getElem_cons_succ, List.getElem_cons_zero, dot_comm', dot_flatG, gdot_col_row]; simp
  · intro h hh
    rcases List.mem_append.1 hh with hh | hh
    · obtain ⟨t, -, rfl⟩ := (mx h).1 hh
      exact norm_ttile hr hc t
    · obtain ⟨t, -, rfl⟩ := (mz h).1 hh
      rw [norm_signed]; exact norm_ttile hr hc t
  · intro r hr'
    rw [rowLine_eq ⟨r, hr'⟩, alternate_eq]
    exact ⟨nrow _, nrow' _, norm_row _⟩
  · intro c hc'
    rw [colLine_eq ⟨c, hc'⟩, alternate_eq]
    exact ⟨ncol _, ncol' _, norm_col _⟩

/-- C54 (toric code).  Odd side lengths are rejected. -/
theorem C54_toric_rejects [Fintype F] (rows cols : ℕ) (h : rows % 2 = 1 ∨ cols % 2 = 1) :
    toricCode F rows cols = none := by
  unfold toricCode
  rw [if_pos (by omega)]

/-- The surface code with 3 rows and 2 columns over the field with three elements. -/
example : (surfaceCode (ZMod 3) 3 2).map (fun c => (c.hx.length, c.hz.length, c.distX, c.distZ)) =
    some (3, 2, 2, 3) := by decide +kernel
example : (toricCode (ZMod 3) 2 2).map (fun c => (c.hx, c.hz)) =
    some ([![1, 1, 1, 1]], [![1, 2, 2, 1]]) := by decide +kernel
example : ∃ code, surfaceCode (ZMod 3) 3 2 = some code ∧ IsXDistance code.hx code.hz 2 := by
  obtain ⟨c, h, hp, -, h1, -⟩ := C54_surface (F := ZMod 3) 3 2 (by decide) (by decide)
  exact ⟨c, h, by have := hp.distance_x; rw [h1] at this; exact this⟩
example : ∃ code, toricCode (ZMod 2) 4 6 = some code ∧ IsXDistance code.hx code.hz 4 := by
  obtain ⟨c, h, hp, -, h1, -⟩ := C54_toric (F := ZMod 2) 4 6 (by decide) (by decide) (by decide) (by decide)
  exact ⟨c, h, by have := hp.distance_x; rw [h1] at this; exact this⟩

section AxiomCheck
#print axioms C54_surface
#print axioms C54_surface_rejects
#print axioms C54_toric
#print axioms C54_toric_rejects
end AxiomCheck

/-! ### Instances of the theorems: concrete cases meet the hypotheses -/

example := C54_surface_rejects (F := ZMod 2) 1 4 (by decide)
example := C54_toric_rejects (F := ZMod 2) 3 4 (by decide)

end QLDPC.Props
