import Verif.Props.CssDistance

/-!
# Codes that agree up to relabelling qudits

A linear bijection that preserves weights and inner products, and that maps the row spaces of the checks of one CSS code
to those of another, preserves distances.
-/

namespace QLDPC

open QLDPC.Spec QLDPC.Props

variable {F : Type} [Field F] [DecidableEq F] {n m : ℕ}

/-- A linear bijection that preserves weights and inner products. -/
structure IsIsometry (φ : (Fin n → F) ≃ₗ[F] (Fin m → F)) : Prop where
  norm : ∀ v, hammingNorm (φ v) = hammingNorm v
  dot : ∀ v w, ∑ q, φ v q * φ w q = ∑ q, v q * w q

/-- Permute the entries and multiply them by signs. -/
def signedPerm (σ : Fin m ≃ Fin n) (s : Fin m → F) (hs : ∀ q, s q * s q = 1) : (Fin n → F) ≃ₗ[F] (Fin m → F) where
  toFun v := fun q => s q * v (σ q)
  map_add' v w := by ext q; simp [mul_add]
  map_smul' c v := by ext q; simp; ring
  invFun w := fun q => s (σ.symm q) * w (σ.symm q)
  left_inv v := by ext q; simp [← mul_assoc, hs]
  right_inv w := by ext q; simp [← mul_assoc, hs]

theorem isIsometry_signedPerm (σ : Fin m ≃ Fin n) (s : Fin m → F) (hs : ∀ q, s q * s q = 1) :
    IsIsometry (signedPerm σ s hs) := by
  have hs0 : ∀ q, s q ≠ 0 := fun q h => by
    have := hs q
    rw [h, zero_mul] at this
    exact zero_ne_one this
  refine ⟨fun v => ?_, fun v w => ?_⟩
  · unfold hammingNorm
    refine Finset.card_bij (fun q _ => σ q) ?_ ?_ ?_
    · intro q hq
      rw [Finset.mem_filter] at hq ⊢
      refine ⟨Finset.mem_univ _, fun h => hq.2 ?_⟩
      change s q * v (σ q) = 0
      rw [h, mul_zero]
    · intro a _ b _ h
      exact σ.injective h
    · intro b hb
      refine ⟨σ.symm b, ?_, by simp⟩
      rw [Finset.mem_filter] at hb ⊢
      refine ⟨Finset.mem_univ _, ?_⟩
      change s _ * v (σ (σ.symm b)) ≠ 0
      rw [Equiv.apply_symm_apply]
      exact mul_ne_zero (hs0 _) hb.2
  · rw [← Equiv.sum_comp σ]
    refine Finset.sum_congr rfl fun q _ => ?_
    change s q * v (σ q) * (s q * w (σ q)) = _
    rw [mul_mul_mul_comm, hs, one_mul]

/-- `φ` maps the products of `A` onto the products of `B`. -/
def MapsSpan (φ : (Fin n → F) ≃ₗ[F] (Fin m → F)) (A : Rows F n) (B : Rows F m) : Prop :=
  (rowSpan A).map (φ : (Fin n → F) →ₗ[F] (Fin m → F)) = rowSpan B

theorem MapsSpan.comb {φ : (Fin n → F) ≃ₗ[F] (Fin m → F)} {A : Rows F n} {B : Rows F m} (h : MapsSpan φ A B)
    (v : Fin n → F) : IsCombination B (φ v) ↔ IsCombination A v := by
  rw [isCombination_iff, isCombination_iff, ← h, Submodule.mem_map]
  constructor
  · rintro ⟨w, hw, e⟩
    rwa [← φ.injective e]
  · exact fun hv => ⟨v, hv, rfl⟩

/-- It is enough to look at the rows, if there is one row for each row. -/
theorem MapsSpan.of_rows {φ : (Fin n → F) ≃ₗ[F] (Fin m → F)} {A : Rows F n} {B : Rows F m}
    (h1 : ∀ r ∈ A, φ r ∈ rowSpan B) (h2 : ∀ r ∈ B, ∃ a ∈ A, r = φ a ∨ r = - φ a) : MapsSpan φ A B := by
  refine le_antisymm ?_ ?_
  · rw [Submodule.map_le_iff_le_comap, rowSpan_le]
    exact h1
  · rw [rowSpan_le]
    intro r hr
    obtain ⟨a, ha, rfl | rfl⟩ := h2 r hr
    · exact Submodule.mem_map_of_mem (subset_rowSpan ha)
    · exact Submodule.neg_mem _ (Submodule.mem_map_of_mem (subset_rowSpan ha))

theorem IsIsometry.commute {φ : (Fin n → F) ≃ₗ[F] (Fin m → F)} (hφ : IsIsometry φ) {A : Rows F n} {B : Rows F m}
    (h : MapsSpan φ A B) (v : Fin n → F) : (∀ r ∈ B, ∑ q, r q * φ v q = 0) ↔ ∀ r ∈ A, ∑ q, r q * v q = 0 := by
  constructor
  · intro hv r hr
    rw [← hφ.dot]
    have : φ r ∈ rowSpan B := by
      rw [← h]
      exact Submodule.mem_map_of_mem (subset_rowSpan hr)
    exact dot_eq_zero_of_mem_rowSpan this ((isWord_iff _ _).1 hv)
  · intro hv r hr
    have : r ∈ (rowSpan A).map (φ : (Fin n → F) →ₗ[F] (Fin m → F)) := by
      rw [h]
      exact subset_rowSpan hr
    obtain ⟨a, ha, rfl⟩ := this
    change ∑ q, φ a q * φ v q = 0
    rw [hφ.dot]
    exact dot_eq_zero_of_mem_rowSpan ha ((isWord_iff _ _).1 hv)

theorem IsIsometry.nontrivialX {φ : (Fin n → F) ≃ₗ[F] (Fin m → F)} (hφ : IsIsometry φ) {hx hz : Rows F n}
    {hx' hz' : Rows F m} (h1 : MapsSpan φ hx hx') (h2 : MapsSpan φ hz hz') (v : Fin n → F) :
    IsNontrivialX hx' hz' (φ v) ↔ IsNontrivialX hx hz v := by
  have hst : ∀ z, IsStabX hz' hx' (φ z) ↔ IsStabX hz hx z := fun z =>
    and_congr (h2.comb z) (hφ.commute h1 z)
  refine and_congr ⟨fun h z hz => ?_, fun h z hz => ?_⟩ (not_congr (h1.comb v))
  · rw [← hφ.dot]
    exact h _ ((hst z).2 hz)
  · obtain ⟨w, rfl⟩ := φ.surjective z
    rw [hφ.dot]
    exact h _ ((hst w).1 hz)

theorem IsIsometry.xDistanceIs {φ : (Fin n → F) ≃ₗ[F] (Fin m → F)} (hφ : IsIsometry φ) {hx hz : Rows F n}
    {hx' hz' : Rows F m} (h1 : MapsSpan φ hx hx') (h2 : MapsSpan φ hz hz') (d : Option ℕ) :
    XDistanceIs hx' hz' d ↔ XDistanceIs hx hz d := by
  cases d with
  | none =>
    refine ⟨fun h v hv => h (φ v) ((hφ.nontrivialX h1 h2 v).2 hv), fun h w hw => ?_⟩
    obtain ⟨v, rfl⟩ := φ.surjective w
    exact h v ((hφ.nontrivialX h1 h2 v).1 hw)
  | some d =>
    have : {k | ∃ v, IsNontrivialX hx' hz' v ∧ k = hammingNorm v} = {k | ∃ v, IsNontrivialX hx hz v ∧ k = hammingNorm v} := by
      ext k
      constructor
      · rintro ⟨w, hw, rfl⟩
        obtain ⟨v, rfl⟩ := φ.surjective w
        exact ⟨v, (hφ.nontrivialX h1 h2 v).1 hw, hφ.norm v⟩
      · rintro ⟨v, hv, rfl⟩
        exact ⟨φ v, (hφ.nontrivialX h1 h2 v).2 hv, (hφ.norm v).symm⟩
    change IsLeast _ d ↔ IsLeast _ d
    rw [this]

theorem MapsSpan.rank_eq {φ : (Fin n → F) ≃ₗ[F] (Fin m → F)} {A : Rows F n} {B : Rows F m} (h : MapsSpan φ A B) :
    rank A = rank B := by
  rw [← finrank_rowSpan, ← finrank_rowSpan, ← h]
  exact (LinearEquiv.finrank_eq (φ.submoduleMap (rowSpan A)))

end QLDPC
