import Verif.Lemmas.ProductDistance
import Verif.Props.Product
import Verif.Props.Surface
import Verif.Lemmas.Families

/-!
# C77: distances of (subsystem) hypergraph product codes
-/

namespace QLDPC.Props

open QLDPC QLDPC.Spec

set_option linter.unusedSectionVars false

variable {F : Type} [Field F] [DecidableEq F] {n m : ℕ}

/-- The weights of nonzero words of `B`, provided `A` has a nonzero word. -/
def pairedWeights (A : List (Fin n → F)) (B : List (Fin m → F)) : Set ℕ :=
  {w | (∃ u, IsWord A u ∧ u ≠ 0) ∧ ∃ v, IsWord B v ∧ v ≠ 0 ∧ w = hammingNorm v}

/-- Two sets of naturals with elements below each other's elements have the same least elements. -/
theorem isLeast_congr {S T : Set ℕ} (h1 : ∀ s ∈ S, ∃ t ∈ T, t ≤ s) (h2 : T ⊆ S) (d : ℕ) :
    IsLeast S d ↔ IsLeast T d := by
  constructor
  · rintro ⟨hd, hl⟩
    obtain ⟨t, ht, htd⟩ := h1 d hd
    have : d = t := le_antisymm (hl (h2 ht)) htd
    exact ⟨this ▸ ht, fun t' ht' => hl (h2 ht')⟩
  · rintro ⟨hd, hl⟩
    refine ⟨h2 hd, fun s hs => ?_⟩
    obtain ⟨t, ht, hts⟩ := h1 s hs
    exact (hl ht).trans hts

theorem exists_ne_of_ne_zero {v : Fin n → F} (h : v ≠ 0) : ∃ i, v i ≠ 0 := by
  by_contra hcon
  push Not at hcon
  exact h (funext hcon)

section HGP

variable (A : Rows F n) (B : Rows F m)

theorem hgp_Z_forms {z} (hz : z ∈ (hgpLogicals (CCode.ofMatrix A) (CCode.ofMatrix B)).2) :
    (∃ u ∈ kernel A, ∃ v, z = Fin.append (kronRow u v) 0) ∨
      ∃ v ∈ kernel (transposeRows id B), ∃ u, z = Fin.append 0 (kronRow u v) := by
  unfold hgpLogicals blockDiag2 at hz
  rcases List.mem_append.1 hz with hz | hz <;> obtain ⟨y, hy, rfl⟩ := List.mem_map.1 hz <;>
    obtain ⟨u, hu, v, hv, rfl⟩ := mem_kron.1 hy
  · left
    refine ⟨u, ?_, v, rfl⟩
    have : u ∈ rowSpan (rowReduce (nullSpace A)) := subset_rowSpan hu
    rwa [rowSpan_rowReduce, rowSpan_nullSpace] at this
  · right
    refine ⟨v, ?_, u, rfl⟩
    have : v ∈ rowSpan (nullSpace (transposeRows id B)) := subset_rowSpan hv
    rwa [rowSpan_nullSpace] at this

theorem hgp_X_forms {z} (hz : z ∈ (hgpLogicals (CCode.ofMatrix A) (CCode.ofMatrix B)).1) :
    (∃ v ∈ kernel B, ∃ u, z = Fin.append (kronRow u v) 0) ∨
      ∃ u ∈ kernel (transposeRows id A), ∃ v, z = Fin.append 0 (kronRow u v) := by
  unfold hgpLogicals blockDiag2 at hz
  rcases List.mem_append.1 hz with hz | hz <;> obtain ⟨y, hy, rfl⟩ := List.mem_map.1 hz <;>
    obtain ⟨u, hu, v, hv, rfl⟩ := mem_kron.1 hy
  · left
    refine ⟨v, ?_, u, rfl⟩
    have : v ∈ rowSpan (rowReduce (nullSpace B)) := subset_rowSpan hv
    rwa [rowSpan_rowReduce, rowSpan_nullSpace] at this
  · right
    refine ⟨u, ?_, v, rfl⟩
    have : u ∈ rowSpan (nullSpace (transposeRows id A)) := subset_rowSpan hu
    rwa [rowSpan_nullSpace] at this

/-- A nontrivial logical X operator does not commute with some canonical logical Z operator, ... -/
theorem hgp_detect_X {x} (hx : IsNontrivialX (hgpX id A B) (hgpZ id A B) x) :
    x ∈ kernel (hgpZ id A B) ∧ ∃ z ∈ (hgpLogicals (CCode.ofMatrix A) (CCode.ofMatrix B)).2, dot z x ≠ 0 := by
  rw [C27_stabilizer_definition _ _ (C46_checks_commute A B)] at hx
  refine ⟨hx.1, ?_⟩
  by_contra hcon
  push Not at hcon
  refine hx.2 ((isCombination_iff _ _).2 ((mem_rowSpan_iff _ _).2 fun y hy => ?_))
  have hy' := ((C46_complete A B).2 y).1 hy
  rw [isCombination_iff] at hy'
  rw [dot_comm]
  refine dot_eq_zero_of_mem_rowSpan hy' fun r hr => ?_
  rcases List.mem_append.1 hr with hr | hr
  · exact hx.1 r hr
  · exact hcon r hr

theorem hgp_detect_Z {x} (hx : IsNontrivialX (hgpZ id A B) (hgpX id A B) x) :
    x ∈ kernel (hgpX id A B) ∧ ∃ z ∈ (hgpLogicals (CCode.ofMatrix A) (CCode.ofMatrix B)).1, dot z x ≠ 0 := by
  rw [C27_stabilizer_definition _ _ fun z hz x hx => by
    rw [Finset.sum_congr rfl fun q _ => mul_comm (z q) (x q)]; exact C46_checks_commute A B x hx z hz] at hx
  refine ⟨hx.1, ?_⟩
  by_contra hcon
  push Not at hcon
  refine hx.2 ((isCombination_iff _ _).2 ((mem_rowSpan_iff _ _).2 fun y hy => ?_))
  have hy' := ((C46_complete A B).1 y).1 hy
  rw [isCombination_iff] at hy'
  rw [dot_comm]
  refine dot_eq_zero_of_mem_rowSpan hy' fun r hr => ?_
  rcases List.mem_append.1 hr with hr | hr
  · exact hx.1 r hr
  · exact hcon r hr

theorem kernel_appendA_X {u : Fin n → F} {v : Fin m → F} (hu : u ∈ kernel A) :
    Fin.append (kronRow u v) 0 ∈ kernel (hgpX id A B) := by
  intro r hr
  obtain ⟨i, j, rfl⟩ := (mem_hgpX id _ _ _).1 hr
  rw [hgpRowX, dot_append, dot_zero_right, add_zero, dot_kronRow, hu _ (List.get_mem _ _), zero_mul]

theorem kernel_appendB_X {u : Fin A.length → F} {v : Fin B.length → F} (hv : v ∈ kernel (transposeRows id B)) :
    Fin.append 0 (kronRow u v) ∈ kernel (hgpX id A B) := by
  intro r hr
  obtain ⟨i, j, rfl⟩ := (mem_hgpX id _ _ _).1 hr
  rw [hgpRowX, dot_append, dot_zero_right, zero_add, dot_kronRow]
  have := (mem_kernel_transposeRows B v).1 hv j
  rw [show dot (fun l => id (B.get l j)) v = 0 from this, mul_zero]

theorem kernel_appendA_Z {u : Fin n → F} {v : Fin m → F} (hv : v ∈ kernel B) :
    Fin.append (kronRow u v) 0 ∈ kernel (hgpZ id A B) := by
  intro r hr
  obtain ⟨k, l, rfl⟩ := (mem_hgpZ id _ _ _).1 hr
  rw [dot_hgpRowZ, hv _ (List.get_mem _ _), mul_zero, neg_zero]

theorem kernel_appendB_Z {u : Fin A.length → F} {v : Fin B.length → F} (hu : u ∈ kernel (transposeRows id A)) :
    Fin.append 0 (kronRow u v) ∈ kernel (hgpZ id A B) := by
  intro r hr
  obtain ⟨k, l, rfl⟩ := (mem_hgpZ id _ _ _).1 hr
  rw [hgpRowZ, dot_append, dot_zero_right, zero_add, dot_kronRow]
  have := (mem_kernel_transposeRows A u).1 hu k
  rw [show dot (fun i => id (A.get i k)) u = 0 from this, zero_mul]

theorem hgp_split_X {x} (hx : IsNontrivialX (hgpX id A B) (hgpZ id A B) x) : x ∈ kernel (hgpZ id A B) ∧
    ((∃ u ∈ kernel A, ∃ v : Fin m → F, dot (Fin.append (kronRow u v) (0 : Fin (A.length * B.length) → F)) x ≠ 0) ∨
      ∃ v ∈ kernel (transposeRows id B), ∃ u : Fin A.length → F,
        dot (Fin.append (0 : Fin (n * m) → F) (kronRow u v)) x ≠ 0) := by
  obtain ⟨hk, z, hz, hp⟩ := hgp_detect_X A B hx
  refine ⟨hk, ?_⟩
  rcases hgp_Z_forms A B hz with ⟨u, hu, v, rfl⟩ | ⟨v, hv, u, rfl⟩
  · exact Or.inl ⟨u, hu, v, hp⟩
  · exact Or.inr ⟨v, hv, u, hp⟩

theorem hgp_split_Z {x} (hx : IsNontrivialX (hgpZ id A B) (hgpX id A B) x) : x ∈ kernel (hgpX id A B) ∧
    ((∃ v ∈ kernel B, ∃ u : Fin n → F, dot (Fin.append (kronRow u v) (0 : Fin (A.length * B.length) → F)) x ≠ 0) ∨
      ∃ u ∈ kernel (transposeRows id A), ∃ v : Fin B.length → F,
        dot (Fin.append (0 : Fin (n * m) → F) (kronRow u v)) x ≠ 0) := by
  obtain ⟨hk, z, hz, hp⟩ := hgp_detect_Z A B hx
  refine ⟨hk, ?_⟩
  rcases hgp_X_forms A B hz with ⟨u, hu, v, rfl⟩ | ⟨v, hv, u, rfl⟩
  · exact Or.inl ⟨u, hu, v, hp⟩
  · exact Or.inr ⟨v, hv, u, hp⟩

/-- **C77**: the X distance of a hypergraph product is the least weight of a nonzero word of the second code (if the
first has one) or of the transpose of the first code (if the transpose of the second has one). -/
theorem C77_hgp_x (d : ℕ) : IsXDistance (hgpX id A B) (hgpZ id A B) d ↔
    IsLeast (pairedWeights A B ∪ pairedWeights (transposeRows id B) (transposeRows id A)) d := by
  have hc := C46_checks_commute A B
  refine isLeast_congr ?_ ?_ d
  · rintro _ ⟨x, hx, rfl⟩
    obtain ⟨hk, ⟨u, hu, v, hp⟩ | ⟨v, hv, u, hp⟩⟩ := hgp_split_X A B hx
    · refine ⟨_, Or.inl ⟨⟨u, hu, ?_⟩, _, contract_X_A hk hu, ?_, rfl⟩, norm_contract_colsA x u⟩
      · rintro rfl
        exact hp (by rw [dot_secA]; simp)
      · intro h0
        refine hp ?_
        rw [dot_secA, Finset.sum_comm]
        refine Finset.sum_eq_zero fun j _ => ?_
        have : ∑ i, u i * secA x i j = 0 := congrFun h0 j
        rw [Finset.sum_congr rfl fun i _ => show u i * v j * secA x i j = v j * (u i * secA x i j) by ring,
          ← Finset.mul_sum, this, mul_zero]
    · refine ⟨_, Or.inr ⟨⟨v, hv, ?_⟩, _, contract_X_B hk hv, ?_, rfl⟩, norm_contract_rowsB x v⟩
      · rintro rfl
        exact hp (by rw [dot_secB]; simp)
      · intro h0
        refine hp ?_
        rw [dot_secB]
        refine Finset.sum_eq_zero fun i _ => ?_
        have : ∑ l, v l * secB x i l = 0 := congrFun h0 i
        rw [Finset.sum_congr rfl fun l _ => mul_assoc (u i) (v l) _, ← Finset.mul_sum, this, mul_zero]
  · rintro w (⟨⟨u, hu, hu0⟩, v, hv, hv0, rfl⟩ | ⟨⟨v, hv, hv0⟩, u, hu, hu0, rfl⟩)
    · obtain ⟨i, hi⟩ := exists_ne_of_ne_zero hu0
      obtain ⟨j, hj⟩ := exists_ne_of_ne_zero hv0
      refine ⟨Fin.append (kronRow (unitRow F i) v) 0, nontrivial_of_pair hc (kernel_appendA_Z A B hv)
        (kernel_appendA_X A B (u := u) (v := unitRow F j) hu) ?_, ?_⟩
      · rw [dot_append, dot_zero_right, add_zero, dot_kronRow, dot_unitRow, dot_comm v, dot_unitRow]
        exact mul_ne_zero hi hj
      · rw [norm_append_left, norm_kronRow, norm_unitRow, one_mul]
    · obtain ⟨i, hi⟩ := exists_ne_of_ne_zero hu0
      obtain ⟨l, hl⟩ := exists_ne_of_ne_zero hv0
      refine ⟨Fin.append 0 (kronRow u (unitRow F l)), nontrivial_of_pair hc (kernel_appendB_Z A B hu)
        (kernel_appendB_X A B (u := unitRow F i) (v := v) hv) ?_, ?_⟩
      · rw [dot_append, dot_zero_right, zero_add, dot_kronRow, dot_unitRow, dot_comm u, dot_unitRow]
        exact mul_ne_zero hi hl
      · rw [norm_append_right, norm_kronRow, norm_unitRow, mul_one]

/-- **C77**: the Z distance of a hypergraph product is the least weight of a nonzero word of the first code (if the
second has one) or of the transpose of the second code (if the transpose of the first has one). -/
theorem C77_hgp_z (d : ℕ) : IsXDistance (hgpZ id A B) (hgpX id A B) d ↔
    IsLeast (pairedWeights B A ∪ pairedWeights (transposeRows id A) (transposeRows id B)) d := by
  have hc : ∀ z ∈ hgpZ id A B, ∀ x ∈ hgpX id A B, dot z x = 0 := fun z hz x hx => by
    rw [dot_comm]; exact C46_checks_commute A B x hx z hz
  refine isLeast_congr ?_ ?_ d
  · rintro _ ⟨x, hx, rfl⟩
    obtain ⟨hk, ⟨v, hv, u, hp⟩ | ⟨u, hu, v, hp⟩⟩ := hgp_split_Z A B hx
    · refine ⟨_, Or.inl ⟨⟨v, hv, ?_⟩, _, contract_Z_A hk hv, ?_, rfl⟩, norm_contract_rowsA x v⟩
      · rintro rfl
        exact hp (by rw [dot_secA]; simp)
      · intro h0
        refine hp ?_
        rw [dot_secA]
        refine Finset.sum_eq_zero fun i _ => ?_
        have : ∑ l, v l * secA x i l = 0 := congrFun h0 i
        rw [Finset.sum_congr rfl fun l _ => mul_assoc (u i) (v l) _, ← Finset.mul_sum, this, mul_zero]
    · refine ⟨_, Or.inr ⟨⟨u, hu, ?_⟩, _, contract_Z_B hk hu, ?_, rfl⟩, norm_contract_colsB x u⟩
      · rintro rfl
        exact hp (by rw [dot_secB]; simp)
      · intro h0
        refine hp ?_
        rw [dot_secB, Finset.sum_comm]
        refine Finset.sum_eq_zero fun j _ => ?_
        have : ∑ i, u i * secB x i j = 0 := congrFun h0 j
        rw [Finset.sum_congr rfl fun i _ => show u i * v j * secB x i j = v j * (u i * secB x i j) by ring,
          ← Finset.mul_sum, this, mul_zero]
  · rintro w (⟨⟨v, hv, hv0⟩, u, hu, hu0, rfl⟩ | ⟨⟨u, hu, hu0⟩, v, hv, hv0, rfl⟩)
    · obtain ⟨i, hi⟩ := exists_ne_of_ne_zero hu0
      obtain ⟨j, hj⟩ := exists_ne_of_ne_zero hv0
      refine ⟨Fin.append (kronRow u (unitRow F j)) 0, nontrivial_of_pair hc (kernel_appendA_X A B hu)
        (kernel_appendA_Z A B (u := unitRow F i) (v := v) hv) ?_, ?_⟩
      · rw [dot_append, dot_zero_right, add_zero, dot_kronRow, dot_unitRow, dot_comm u, dot_unitRow]
        exact mul_ne_zero hi hj
      · rw [norm_append_left, norm_kronRow, norm_unitRow, mul_one]
    · obtain ⟨i, hi⟩ := exists_ne_of_ne_zero hu0
      obtain ⟨l, hl⟩ := exists_ne_of_ne_zero hv0
      refine ⟨Fin.append 0 (kronRow (unitRow F i) v), nontrivial_of_pair hc (kernel_appendB_X A B hv)
        (kernel_appendB_Z A B (u := u) (v := unitRow F l) hu) ?_, ?_⟩
      · rw [dot_append, dot_zero_right, zero_add, dot_kronRow, dot_unitRow, dot_comm v, dot_unitRow]
        exact mul_ne_zero hi hl
      · rw [norm_append_right, norm_kronRow, norm_unitRow, one_mul]

end HGP

section SHP

variable (A : Rows F n) (B : Rows F m)

/-- **C77**: the X distance of a subsystem hypergraph product is the distance of its second code, ... -/
theorem C77_shp_x (d : ℕ) : IsXDistance (shpX A B) (shpZ A B) d ↔ IsLeast (pairedWeights A B) d := by
  refine isLeast_congr ?_ ?_ d
  · rintro _ ⟨x, ⟨hs, hn⟩, rfl⟩
    rw [isCombination_iff, mem_rowSpan_shpX] at hn
    push Not at hn
    obtain ⟨j, hj⟩ := hn
    rw [mem_rowSpan_iff] at hj
    push Not at hj
    obtain ⟨u, hu, hp⟩ := hj
    have hw : (fun j => ∑ i, u i * x (flat i j)) ∈ kernel B := by
      intro r hr
      have := hs (kronRow u r) ⟨?_, ?_⟩
      · rw [sum_flat, Finset.sum_comm] at this
        rw [← this]
        refine Finset.sum_congr rfl fun j _ => ?_
        rw [Finset.mul_sum]
        exact Finset.sum_congr rfl fun i _ => by rw [kronRow_flat]; ring
      · rw [isCombination_iff, mem_rowSpan_shpZ]
        intro i
        have : (fun j => kronRow u r (flat i j)) = u i • r := by
          funext j; rw [kronRow_flat]; rfl
        rw [this]
        exact Submodule.smul_mem _ _ (subset_rowSpan hr)
      · rw [isWord_iff, mem_kernel_shpX]
        intro j
        have : (fun i => kronRow u r (flat i j)) = r j • u := by
          funext i; rw [kronRow_flat, mul_comm]; rfl
        rw [this]
        exact Submodule.smul_mem _ _ hu
    refine ⟨_, ⟨⟨u, hu, ?_⟩, _, hw, fun h0 => ?_, rfl⟩, ?_⟩
    · rintro rfl
      exact hp (by unfold dot; simp)
    · refine hp ?_
      have : ∑ i, u i * x (flat i j) = 0 := congrFun h0 j
      rw [← this]
      unfold dot
      exact Finset.sum_congr rfl fun i _ => mul_comm _ _
    · refine hammingNorm_le_of_fibres (fun k => some k.modNat) fun j hj => ?_
      obtain ⟨i, -, hi⟩ := Finset.exists_ne_zero_of_sum_ne_zero hj
      exact ⟨flat i j, by rw [modNat_flat], right_ne_zero_of_mul hi⟩
  · rintro w ⟨⟨u, hu, hu0⟩, v, hv, hv0, rfl⟩
    obtain ⟨i, hi⟩ := exists_ne_of_ne_zero hu0
    obtain ⟨j, hj⟩ := exists_ne_of_ne_zero hv0
    refine ⟨kronRow (unitRow F i) v, ⟨fun z hz => ?_, fun h => ?_⟩, by rw [norm_kronRow, norm_unitRow, one_mul]⟩
    · have hz1 := (isCombination_iff _ _).1 hz.1
      rw [mem_rowSpan_shpZ] at hz1
      rw [sum_flat]
      refine Finset.sum_eq_zero fun p _ => ?_
      have := dot_eq_zero_of_mem_rowSpan (hz1 p) ((isWord_iff _ _).1 hv)
      unfold dot at this
      rw [Finset.sum_congr rfl fun q _ => show z (flat p q) * kronRow (unitRow F i) v (flat p q) =
        unitRow F i p * (z (flat p q) * v q) by rw [kronRow_flat]; ring, ← Finset.mul_sum, this, mul_zero]
    · rw [isCombination_iff, mem_rowSpan_shpX] at h
      have := dot_eq_zero_of_mem_rowSpan (h j) ((isWord_iff _ _).1 hu)
      rw [show (fun p => kronRow (unitRow F i) v (flat p j)) = fun p => unitRow F i p * v j from
        funext fun p => kronRow_flat _ _ _ _] at this
      have h2 : dot (fun p => unitRow F i p * v j) u = dot (unitRow F i) u * v j := by
        unfold dot; rw [Finset.sum_mul]; exact Finset.sum_congr rfl fun p _ => by ring
      rw [h2, dot_unitRow] at this
      exact mul_ne_zero hi hj this

/-- ... and the Z distance is the distance of its first code, provided the other code has a nonzero word. -/
theorem C77_shp_z (d : ℕ) : IsXDistance (shpZ A B) (shpX A B) d ↔ IsLeast (pairedWeights B A) d := by
  refine isLeast_congr ?_ ?_ d
  · rintro _ ⟨x, ⟨hs, hn⟩, rfl⟩
    rw [isCombination_iff, mem_rowSpan_shpZ] at hn
    push Not at hn
    obtain ⟨i, hi⟩ := hn
    rw [mem_rowSpan_iff] at hi
    push Not at hi
    obtain ⟨v, hv, hp⟩ := hi
    have hw : (fun i => ∑ j, v j * x (flat i j)) ∈ kernel A := by
      intro r hr
      have := hs (kronRow r v) ⟨?_, ?_⟩
      · rw [sum_flat] at this
        rw [← this]
        refine Finset.sum_congr rfl fun i _ => ?_
        rw [Finset.mul_sum]
        exact Finset.sum_congr rfl fun j _ => by rw [kronRow_flat]; ring
      · rw [isCombination_iff, mem_rowSpan_shpX]
        intro j
        have : (fun i => kronRow r v (flat i j)) = v j • r := by
          funext i; rw [kronRow_flat, mul_comm]; rfl
        rw [this]
        exact Submodule.smul_mem _ _ (subset_rowSpan hr)
      · rw [isWord_iff, mem_kernel_shpZ]
        intro i
        have : (fun j => kronRow r v (flat i j)) = r i • v := by
          funext j; rw [kronRow_flat]; rfl
        rw [this]
        exact Submodule.smul_mem _ _ hv
    refine ⟨_, ⟨⟨v, hv, ?_⟩, _, hw, fun h0 => ?_, rfl⟩, ?_⟩
    · rintro rfl
      exact hp (by unfold dot; simp)
    · refine hp ?_
      have : ∑ j, v j * x (flat i j) = 0 := congrFun h0 i
      rw [← this]
      unfold dot
      exact Finset.sum_congr rfl fun i _ => mul_comm _ _
    · refine hammingNorm_le_of_fibres (fun k => some k.divNat) fun i hi => ?_
      obtain ⟨j, -, hj⟩ := Finset.exists_ne_zero_of_sum_ne_zero hi
      exact ⟨flat i j, by rw [divNat_flat], right_ne_zero_of_mul hj⟩
  · rintro w ⟨⟨v, hv, hv0⟩, u, hu, hu0, rfl⟩
    obtain ⟨i, hi⟩ := exists_ne_of_ne_zero hu0
    obtain ⟨j, hj⟩ := exists_ne_of_ne_zero hv0
    refine ⟨kronRow u (unitRow F j), ⟨fun z hz => ?_, fun h => ?_⟩, by rw [norm_kronRow, norm_unitRow, mul_one]⟩
    · have hz1 := (isCombination_iff _ _).1 hz.1
      rw [mem_rowSpan_shpX] at hz1
      rw [sum_flat, Finset.sum_comm]
      refine Finset.sum_eq_zero fun q _ => ?_
      have := dot_eq_zero_of_mem_rowSpan (hz1 q) ((isWord_iff _ _).1 hu)
      unfold dot at this
      rw [Finset.sum_congr rfl fun p _ => show z (flat p q) * kronRow u (unitRow F j) (flat p q) =
        unitRow F j q * (z (flat p q) * u p) by rw [kronRow_flat]; ring, ← Finset.mul_sum, this, mul_zero]
    · rw [isCombination_iff, mem_rowSpan_shpZ] at h
      have := dot_eq_zero_of_mem_rowSpan (h i) ((isWord_iff _ _).1 hv)
      rw [show (fun q => kronRow u (unitRow F j) (flat i q)) = fun q => u i * unitRow F j q from
        funext fun p => kronRow_flat _ _ _ _] at this
      have h2 : dot (fun q => u i * unitRow F j q) v = u i * dot (unitRow F j) v := by
        unfold dot; rw [Finset.mul_sum]; exact Finset.sum_congr rfl fun p _ => by ring
      rw [h2, dot_unitRow] at this
      exact mul_ne_zero hi hj this

end SHP

theorem isLeast_pairedWeights {A : Rows F n} {B : Rows F m} {dA dB : ℕ} (hA : IsMinDistance A dA)
    (hB : IsMinDistance B dB) : IsLeast (pairedWeights A B) dB := by
  obtain ⟨u, hu, hu0, -⟩ := hA.1
  exact ⟨⟨⟨u, hu, hu0⟩, hB.1⟩, fun w hw => hB.2 hw.2⟩

theorem pairedWeights_eq_empty {A : Rows F n} (hA : codeDim A = 0) (B : Rows F m) : pairedWeights A B = ∅ := by
  ext w
  simp only [Set.mem_empty_iff_false, iff_false]
  rintro ⟨⟨u, hu, hu0⟩, -⟩
  unfold codeDim at hA
  rw [Submodule.finrank_eq_zero] at hA
  have : u ∈ codeSpace A := hu
  rw [hA] at this
  exact hu0 this

/-- **C77**: the distances advertised for a subsystem hypergraph product. -/
theorem C77_shp (A : Rows F n) (B : Rows F m) {dA dB : ℕ} (hA : IsMinDistance A dA) (hB : IsMinDistance B dB) :
    IsXDistance (shpX A B) (shpZ A B) dB ∧ IsXDistance (shpZ A B) (shpX A B) dA :=
  ⟨(C77_shp_x A B dB).2 (isLeast_pairedWeights hA hB), (C77_shp_z A B dA).2 (isLeast_pairedWeights hB hA)⟩

/-- **C77**: the distances of a hypergraph product when all four classical codes have nonzero words. -/
theorem C77_hgp (A : Rows F n) (B : Rows F m) {dA dB dAT dBT : ℕ} (hA : IsMinDistance A dA) (hB : IsMinDistance B dB)
    (hAT : IsMinDistance (transposeRows id A) dAT) (hBT : IsMinDistance (transposeRows id B) dBT) :
    IsXDistance (hgpX id A B) (hgpZ id A B) (min dB dAT) ∧ IsXDistance (hgpZ id A B) (hgpX id A B) (min dA dBT) :=
  ⟨(C77_hgp_x A B _).2 ((isLeast_pairedWeights hA hB).union (isLeast_pairedWeights hBT hAT)),
    (C77_hgp_z A B _).2 ((isLeast_pairedWeights hB hA).union (isLeast_pairedWeights hAT hBT))⟩

/-- **C77**: the distances of a hypergraph product of two codes with independent parity checks. -/
theorem C77_hgp_independent (A : Rows F n) (B : Rows F m) {dA dB : ℕ} (hA : IsMinDistance A dA)
    (hB : IsMinDistance B dB) (hAT : codeDim A + A.length = n) (hBT : codeDim B + B.length = m) :
    IsXDistance (hgpX id A B) (hgpZ id A B) dB ∧ IsXDistance (hgpZ id A B) (hgpX id A B) dA := by
  have key : ∀ {k : ℕ} (M : Rows F k), codeDim M + M.length = k → codeDim (transposeRows id M) = 0 := by
    intro k M h
    have h1 := codeDim_add_rank M
    have h2 := codeDim_add_rank (transposeRows id M)
    rw [rank_transposeRows] at h2
    omega
  refine ⟨(C77_hgp_x A B _).2 ?_, (C77_hgp_z A B _).2 ?_⟩
  · rw [pairedWeights_eq_empty (key B hBT), Set.union_empty]
    exact isLeast_pairedWeights hA hB
  · rw [pairedWeights_eq_empty (key A hAT), Set.union_empty]
    exact isLeast_pairedWeights hB hA

/-- the hypergraph product of two repetition codes of lengths 2 and 3 over three symbols -/
example : IsXDistance (hgpX id [![1, 2]] ([![1, 2, 0], ![0, 1, 2]] : Rows (ZMod 3) 3))
    (hgpZ id [![1, 2]] [![1, 2, 0], ![0, 1, 2]]) 3 := by
  refine (C77_hgp_independent (dA := 2) _ _ ?_ ?_ ?_ ?_).1
  · exact minDistance_constant (by norm_num) (by unfold IsWord; decide +kernel)
  · exact minDistance_constant (by norm_num) (by unfold IsWord; decide +kernel)
  · rw [codeDim_constant (by norm_num) (by unfold IsWord; decide +kernel)]; rfl
  · rw [codeDim_constant (by norm_num) (by unfold IsWord; decide +kernel)]; rfl

#print axioms C77_hgp_x
#print axioms C77_hgp_z
#print axioms C77_shp_x
#print axioms C77_shp_z
#print axioms C77_shp
#print axioms C77_hgp
#print axioms C77_hgp_independent

/-! ### Instances of the theorems: concrete cases meet the hypotheses -/

private theorem repetition_distance : IsMinDistance ([![1, 1, 0], ![0, 1, 1]] : Rows (ZMod 2) 3) 3 := by
  exact minDistance_constant (n := 3) (by norm_num) (by unfold IsWord; decide +kernel)
example := C77_shp _ _ repetition_distance repetition_distance
private theorem cycle_distance : IsMinDistance ([![1, 1, 0], ![0, 1, 1], ![1, 0, 1]] : Rows (ZMod 2) 3) 3 := by
  exact minDistance_constant (n := 3) (by norm_num) (by unfold IsWord; decide +kernel)
private theorem cycle_distance_transpose :
    IsMinDistance (transposeRows id ([![1, 1, 0], ![0, 1, 1], ![1, 0, 1]] : Rows (ZMod 2) 3)) 3 := by
  exact minDistance_constant (n := 3) (by norm_num) (by unfold IsWord; decide +kernel)
example := C77_hgp _ _ cycle_distance cycle_distance cycle_distance_transpose cycle_distance_transpose

end QLDPC.Props
