import Verif.Spec.Concat
import Verif.Lemmas.QuditDistance

/-! Joining two codes by maps that preserve the symplectic form. -/

set_option linter.unusedSectionVars false

namespace QLDPC

open Spec Props

variable {F : Type} [Field F] [DecidableEq F] {n a b : ℕ}

theorem sform_zero_right (p : Fin (n + n) → F) : sform p 0 = 0 := by
  rw [sform_comm, sform_zero_left, neg_zero]

theorem sform_nondegenerate {p : Fin (n + n) → F} (h : ∀ q, sform q p = 0) : p = 0 := by
  have hz : zPart p = 0 := by
    funext i
    have := h (Fin.append (Pi.single i 1) 0)
    rw [sform_eq, xPart_append, zPart_append, dot_zero_left, sub_zero] at this
    simpa [dot, Pi.single_apply] using this
  have hx : xPart p = 0 := by
    funext i
    have := h (Fin.append 0 (Pi.single i 1))
    rw [sform_eq, xPart_append, zPart_append, dot_zero_left, zero_sub, neg_eq_zero] at this
    simpa [dot, Pi.single_apply] using this
  rw [← append_parts p, hx, hz]
  funext i
  refine Fin.addCases (fun i => ?_) (fun i => ?_) i
  · simp
  · rw [Fin.append_right]; rfl

/-- `IsCompleteLogicalBasis` in terms of ranks. -/
theorem isComplete_iff {M LX LZ : Rows F (n + n)} :
    IsCompleteLogicalBasis M LX LZ ↔ LogComplete M LX LZ := by
  have hcomm : ∀ p, CommutesWithStabilizers M p ↔
      p ∈ kernel ((subsystemStabilizers M).map symplecticConjugate) := by
    intro p
    rw [mem_kernel_conj]
    constructor
    · intro h s hs
      obtain ⟨h1, h2⟩ := (mem_subsystemStabilizers M s).1 (subset_rowSpan hs)
      exact h s ((isCombination_iff M s).2 h1) h2
    · intro h s h1 h2
      exact sform_span_left h ((mem_subsystemStabilizers M s).2 ⟨(isCombination_iff M s).1 h1, h2⟩)
  constructor
  · intro h
    refine ⟨h.basis, ?_⟩
    have hle : kernel ((subsystemStabilizers M).map symplecticConjugate) ≤ rowSpan (M ++ LX ++ LZ) := by
      intro p hp
      exact (isCombination_iff _ _).1 (h.complete p ((hcomm p).2 hp))
    have hge : rowSpan (M ++ LX ++ LZ) ≤ kernel ((subsystemStabilizers M).map symplecticConjugate) := by
      rw [rowSpan_le]
      intro l hl
      rw [mem_kernel_conj]
      intro s hs
      obtain ⟨h1, h2⟩ := (mem_subsystemStabilizers M s).1 (subset_rowSpan hs)
      rcases List.mem_append.1 hl with hl | hl
      · rcases List.mem_append.1 hl with hl | hl
        · rw [sform_comm, h2 l hl, neg_zero]
        · exact sform_span_left (fun r hr => h.basis.commX r hr l hl) h1
      · exact sform_span_left (fun r hr => h.basis.commZ r hr l hl) h1
    have h1 := h.basis.finrank_ge
    have h2 := finrank_kernel ((subsystemStabilizers M).map symplecticConjugate)
    rw [rank_conj] at h2
    have h3 := Submodule.finrank_mono hle
    have h4 := Submodule.finrank_mono hge
    -- the span of all rows is at most the sum of the dimensions
    have h5 : Module.finrank F (rowSpan (M ++ LX ++ LZ)) ≤ rank M + 2 * LX.length := by
      rw [List.append_assoc, rowSpan_append']
      have h6 := Submodule.finrank_add_le_finrank_add_finrank (rowSpan M) (rowSpan (LX ++ LZ))
      rw [finrank_rowSpan, finrank_rowSpan] at h6
      have h7 : rank (LX ++ LZ) ≤ (LX ++ LZ).length := by
        have := finrank_span_le_card (R := F) ((Set.range fun i => (LX ++ LZ).get i))
        have h8 : Module.finrank F (rowSpan (LX ++ LZ)) ≤ (LX ++ LZ).length := by
          have h9 : rowSpan (LX ++ LZ) = Submodule.span F (Set.range fun i => (LX ++ LZ).get i) := by
            unfold rowSpan
            congr 1
            ext v; simp only [Set.mem_range, Set.mem_setOf_eq]; exact List.mem_iff_get
          rw [h9]
          exact (finrank_range_le_card (R := F) fun i => (LX ++ LZ).get i).trans (by simp)
        rwa [finrank_rowSpan] at h8
      rw [List.length_append, ← h.basis.len] at h7
      exact h6.trans (by omega)
    omega
  · intro h
    refine ⟨h.basis, fun p hp => ?_⟩
    rw [isCombination_iff, List.append_assoc, rowSpan_append']
    apply (h.sup_eq p).1
    intro s hs
    obtain ⟨h1, h2⟩ := (mem_subsystemStabilizers M s).1 hs
    exact hp s ((isCombination_iff M s).2 h1) h2

/-- Two maps that preserve the symplectic form; images of `rowSpan A` under `f` commute with the image of
`g`. -/
structure Joint (A : Rows F (a + a)) (f : (Fin (a + a) → F) →ₗ[F] (Fin (n + n) → F))
    (g : (Fin (b + b) → F) →ₗ[F] (Fin (n + n) → F)) : Prop where
  hf : ∀ p q, sform (f p) (f q) = sform p q
  hg : ∀ p q, sform (g p) (g q) = sform p q
  hfg : ∀ p ∈ rowSpan A, ∀ q, sform (f p) (g q) = 0

theorem injective_of_sform {f : (Fin (a + a) → F) →ₗ[F] (Fin (n + n) → F)}
    (hf : ∀ p q, sform (f p) (f q) = sform p q) : Function.Injective f := by
  rw [← LinearMap.ker_eq_bot, LinearMap.ker_eq_bot']
  intro p hp
  apply sform_nondegenerate
  intro q
  rw [← hf, hp, sform_zero_right]

namespace Joint

variable {A : Rows F (a + a)} {f : (Fin (a + a) → F) →ₗ[F] (Fin (n + n) → F)}
  {g : (Fin (b + b) → F) →ₗ[F] (Fin (n + n) → F)}

theorem disjoint (h : Joint A f g) {p q} (hp : p ∈ rowSpan A) (e : f p = g q) : q = 0 := by
  apply sform_nondegenerate
  intro q'
  rw [← h.hg, ← e, sform_comm, h.hfg p hp, neg_zero]

theorem sub (h : Joint A f g) {A' : Rows F (a + a)} (hA : rowSpan A' ≤ rowSpan A) : Joint A' f g :=
  ⟨h.hf, h.hg, fun p hp => h.hfg p (hA hp)⟩

theorem rowSpan_eq (B : Rows F (b + b)) : rowSpan (A.map f ++ B.map g) =
    (rowSpan A).map f ⊔ (rowSpan B).map g := by
  rw [rowSpan_append', rowSpan_map, rowSpan_map]

theorem rank_eq (h : Joint A f g) (B : Rows F (b + b)) :
    rank (A.map f ++ B.map g) = rank A + rank B := by
  rw [← finrank_rowSpan, rowSpan_eq]
  have h1 := Submodule.finrank_sup_add_finrank_inf_eq ((rowSpan A).map f) ((rowSpan B).map g)
  have h2 : (rowSpan A).map f ⊓ (rowSpan B).map g = ⊥ := by
    rw [eq_bot_iff]
    rintro x ⟨⟨p, hp, rfl⟩, ⟨q, hq, e⟩⟩
    have := h.disjoint hp e.symm
    rw [← e, this, map_zero]
    exact Submodule.zero_mem _
  rw [h2, finrank_bot] at h1
  have h3 : Module.finrank F ((rowSpan A).map f) = rank A := by
    rw [← finrank_rowSpan]
    exact (LinearEquiv.finrank_eq (Submodule.equivMapOfInjective f (injective_of_sform h.hf) _)).symm
  have h4 : Module.finrank F ((rowSpan B).map g) = rank B := by
    rw [← finrank_rowSpan]
    exact (LinearEquiv.finrank_eq (Submodule.equivMapOfInjective g (injective_of_sform h.hg) _)).symm
  omega

theorem mem_iff (B : Rows F (b + b)) (x : Fin (n + n) → F) : x ∈ rowSpan (A.map f ++ B.map g) ↔
    ∃ p ∈ rowSpan A, ∃ q ∈ rowSpan B, x = f p + g q := by
  rw [rowSpan_eq, Submodule.mem_sup]
  constructor
  · rintro ⟨_, ⟨p, hp, rfl⟩, _, ⟨q, hq, rfl⟩, rfl⟩; exact ⟨p, hp, q, hq, rfl⟩
  · rintro ⟨p, hp, q, hq, rfl⟩; exact ⟨_, ⟨p, hp, rfl⟩, _, ⟨q, hq, rfl⟩, rfl⟩

theorem commute_iff (h : Joint A f g) (B : Rows F (b + b)) {p q} (hp : p ∈ rowSpan A) :
    (∀ r ∈ A.map f ++ B.map g, sform r (f p + g q) = 0) ↔
      (∀ r ∈ A, sform r p = 0) ∧ ∀ r ∈ B, sform r q = 0 := by
  have e1 : ∀ r ∈ A, sform (f r) (f p + g q) = sform r p := by
    intro r hr
    rw [sform_add_right, h.hf, h.hfg r (subset_rowSpan hr), add_zero]
  have e2 : ∀ r, sform (g r) (f p + g q) = sform r q := by
    intro r
    rw [sform_add_right, h.hg, sform_comm, h.hfg p hp, neg_zero, zero_add]
  constructor
  · intro hh
    refine ⟨fun r hr => ?_, fun r hr => ?_⟩
    · rw [← e1 r hr]
      exact hh _ (List.mem_append_left _ (List.mem_map.2 ⟨r, hr, rfl⟩))
    · rw [← e2 r]
      exact hh _ (List.mem_append_right _ (List.mem_map.2 ⟨r, hr, rfl⟩))
  · rintro ⟨h1, h2⟩ r hr
    rcases List.mem_append.1 hr with hr | hr
    · obtain ⟨r', hr', rfl⟩ := List.mem_map.1 hr
      rw [e1 r' hr']; exact h1 r' hr'
    · obtain ⟨r', hr', rfl⟩ := List.mem_map.1 hr
      rw [e2 r']; exact h2 r' hr'

theorem stab_rowSpan (h : Joint A f g) (B : Rows F (b + b)) :
    rowSpan (subsystemStabilizers (A.map f ++ B.map g)) =
      rowSpan ((subsystemStabilizers A).map f ++ (subsystemStabilizers B).map g) := by
  ext x
  rw [mem_subsystemStabilizers, mem_iff, mem_iff]
  constructor
  · rintro ⟨⟨p, hp, q, hq, rfl⟩, hc⟩
    obtain ⟨h1, h2⟩ := (h.commute_iff B hp).1 hc
    exact ⟨p, (mem_subsystemStabilizers A p).2 ⟨hp, h1⟩, q, (mem_subsystemStabilizers B q).2 ⟨hq, h2⟩, rfl⟩
  · rintro ⟨p, hp, q, hq, rfl⟩
    obtain ⟨h1, h2⟩ := (mem_subsystemStabilizers A p).1 hp
    obtain ⟨h3, h4⟩ := (mem_subsystemStabilizers B q).1 hq
    exact ⟨⟨p, h1, q, h3, rfl⟩, (h.commute_iff B h1).2 ⟨h2, h4⟩⟩

theorem stab_rank (h : Joint A f g) (B : Rows F (b + b)) :
    rank (subsystemStabilizers (A.map f ++ B.map g)) =
      rank (subsystemStabilizers A) + rank (subsystemStabilizers B) := by
  rw [rank_eq_of_rowSpan_eq (h.stab_rowSpan B)]
  exact (h.sub fun x hx => ((mem_subsystemStabilizers A x).1 hx).1).rank_eq _

theorem allCommute_iff (h : Joint A f g) (B : Rows F (b + b)) :
    AllCommute (A.map f ++ B.map g) ↔ AllCommute A ∧ AllCommute B := by
  constructor
  · intro hh
    constructor
    · intro p hp q hq
      rw [← h.hf]
      exact hh _ (List.mem_append_left _ (List.mem_map.2 ⟨p, hp, rfl⟩)) _
        (List.mem_append_left _ (List.mem_map.2 ⟨q, hq, rfl⟩))
    · intro p hp q hq
      rw [← h.hg]
      exact hh _ (List.mem_append_right _ (List.mem_map.2 ⟨p, hp, rfl⟩)) _
        (List.mem_append_right _ (List.mem_map.2 ⟨q, hq, rfl⟩))
  · rintro ⟨h1, h2⟩ r hr s hs
    rcases List.mem_append.1 hs with hs | hs
    · obtain ⟨s', hs', rfl⟩ := List.mem_map.1 hs
      have := (h.commute_iff B (q := 0) (subset_rowSpan hs')).2
        ⟨fun r hr => h1 r hr s' hs', fun r _ => sform_zero_right r⟩ r hr
      rwa [map_zero, add_zero] at this
    · obtain ⟨s', hs', rfl⟩ := List.mem_map.1 hs
      have := (h.commute_iff B (p := 0) (q := s') (Submodule.zero_mem _)).2
        ⟨fun r _ => sform_zero_right r, fun r hr => h2 r hr s' hs'⟩ r hr
      rwa [map_zero, zero_add] at this

end Joint

end QLDPC
