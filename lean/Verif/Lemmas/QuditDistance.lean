import Verif.Model.QuditDistance
import Verif.Lemmas.CssDistance
import Verif.Props.Qudit
import Mathlib.LinearAlgebra.Dimension.OrzechProperty

/-! Brute force distance of products of Pauli strings. -/

set_option linter.unusedSectionVars false

namespace QLDPC

open Spec Props

variable {F : Type} [Field F] [DecidableEq F] {n : ℕ}

/-- The Pauli string over `ZMod 2` with the same support. -/
def toP (p : Fin (n + n) → F) : (Fin n → ZMod 2) × (Fin n → ZMod 2) := (toZ2 (xPart p), toZ2 (zPart p))

theorem pauliBits_toP (p : Fin (n + n) → F) :
    pauliBits (toP p) = List.ofFn fun i => decide (p i ≠ 0) := by
  unfold pauliBits toP
  rw [bitsOf_toZ2, bitsOf_toZ2, List.ofFn_add]
  rfl

theorem toP_add (hF : IsBinary F) (p q : Fin (n + n) → F) : toP (p + q) = toP p + toP q :=
  Prod.ext (toZ2_add hF _ _) (toZ2_add hF _ _)

theorem toP_sum (hF : IsBinary F) (l : List (Fin (n + n) → F)) : toP l.sum = (l.map toP).sum := by
  induction l with
  | nil => exact Prod.ext toZ2_zero toZ2_zero
  | cons a l ih => rw [List.sum_cons, toP_add hF, ih, List.map_cons, List.sum_cons]

theorem pauliWeight_toP (p : Fin (n + n) → F) : pauliWeight (toP p) = sweight p := by
  unfold pauliWeight sweight toP toZ2
  congr 1
  ext i
  simp

theorem countP_sweight (p : Fin (n + n) → F) : ((List.finRange n).countP fun i =>
    decide (xPart p i ≠ 0) || decide (zPart p i ≠ 0)) = sweight p := by
  unfold sweight
  rw [List.countP_eq_length_filter, ← List.toFinset_card_of_nodup ((List.nodup_finRange n).filter _)]
  congr 1
  ext i
  simp

theorem sweight_le (p : Fin (n + n) → F) : sweight p ≤ n := by
  unfold sweight
  exact (Finset.card_le_univ _).trans (by simp)

theorem foldl_min_spec (l : List ℕ) (n : ℕ) (h : l ≠ []) (hn : ∀ x ∈ l, x ≤ n) :
    l.foldl min n ∈ l ∧ ∀ x ∈ l, l.foldl min n ≤ x := by
  obtain ⟨d, hd, hmem, hmin⟩ := pyMin_spec (n :: l) (by simp)
  have hd' : l.foldl min n = d := by simpa [pyMin] using hd
  rw [hd']
  refine ⟨?_, fun x hx => hmin x (by simp [hx])⟩
  rcases List.mem_cons.1 hmem with rfl | hm
  · obtain ⟨x, l', rfl⟩ := List.exists_cons_of_ne_nil h
    have h1 := hmin x (by simp)
    have h2 := hn x (by simp)
    have : x = d := by omega
    simp [this]
  · exact hm

/-- The brute force minimum is the least number of qudits a nontrivial product of rows of `L` times any
product of rows of `S` acts on. -/
theorem pauliProductDistance_spec (wb : ℕ) (els : List F) (hnd : (0 :: els).Nodup)
    (hall : ∀ x, x ∈ 0 :: els) (hn : 0 < n) (hwb : n < 2 ^ wb) (h64 : n < 2 ^ 64)
    {L : Rows F (n + n)}
    (hL : L ≠ []) (hind : LinearIndependent F (fun i => L.get i)) (S : Rows F (n + n)) :
    ∃ d, pauliProductDistance wb (0 :: els) L S = some d ∧
      IsLeast {k | ∃ l ∈ rowSpan L, l ≠ 0 ∧ ∃ s ∈ rowSpan S, k = sweight (l + s)} d := by
  unfold pauliProductDistance
  split
  · rename_i h2
    have hF := isBinary_of_list hnd hall h2
    have hG : ∀ M : Rows F (n + n), (M.map fun r => List.ofFn fun i => decide (r i ≠ 0)) =
        (M.map toP).map pauliBits := by
      intro M
      rw [List.map_map]
      exact List.map_congr_left fun r _ => (pauliBits_toP r).symm
    obtain ⟨d, hd, _, hmin⟩ := C15_symplectic wb n hn hwb h64 15 (L.map toP) (S.map toP)
    refine ⟨d, by rw [hG, hG]; exact hd, ?_⟩
    have hset : {w | ∃ t s : List ((Fin n → ZMod 2) × (Fin n → ZMod 2)), t.Sublist (L.map toP) ∧
          t ≠ [] ∧ s.Sublist (S.map toP) ∧ w = pauliWeight (t.sum + s.sum)} =
        {k | ∃ l ∈ rowSpan L, l ≠ 0 ∧ ∃ s ∈ rowSpan S, k = sweight (l + s)} := by
      ext k
      constructor
      · rintro ⟨t, s, ht, htne, hs, rfl⟩
        obtain ⟨t', ht', rfl⟩ := List.sublist_map_iff.1 ht
        obtain ⟨s', hs', rfl⟩ := List.sublist_map_iff.1 hs
        obtain ⟨h1, h2⟩ := (sublist_sum_iff hF hind t'.sum).1
          ⟨t', ht', by rintro rfl; exact htne rfl, rfl⟩
        refine ⟨t'.sum, h1, h2, s'.sum, (sublist_sum_any hF S _).1 ⟨s', hs', rfl⟩, ?_⟩
        rw [← toP_sum hF, ← toP_sum hF, ← toP_add hF, pauliWeight_toP]
      · rintro ⟨l, hl, h0, s, hs, rfl⟩
        obtain ⟨t, ht, htne, rfl⟩ := (sublist_sum_iff hF hind l).2 ⟨hl, h0⟩
        obtain ⟨s', hs', rfl⟩ := (sublist_sum_any hF S s).2 hs
        refine ⟨t.map toP, s'.map toP, ht.map _, by simpa using htne, hs'.map _, ?_⟩
        rw [← toP_sum hF, ← toP_sum hF, ← toP_add hF, pauliWeight_toP]
    have := hmin (by simpa using hL)
    unfold IsMinProductWeight at this
    rwa [hset] at this
  · have hmem : ∀ M : Rows F (n + n), ∀ v, IsWord (CCode.fromGenerator M).matrix v ↔ v ∈ rowSpan M := by
      intro M v
      rw [C04_from_generator, isCombination_iff]
    have gen : ∀ M : Rows F (n + n), GenBasis (CCode.fromGenerator M) := fun M => genBasis_of_fresh rfl
    obtain ⟨_, hmL⟩ := C03_skip_zero els hnd hall _ (gen L)
    obtain ⟨_, hmS, _⟩ := C03_iter_words (0 :: els) hnd hall _ (gen S)
    have hset : ∀ k, k ∈ (((CCode.fromGenerator L).iterWords (0 :: els) true).flatMap fun l =>
        ((CCode.fromGenerator S).iterWords (0 :: els) false).map fun s =>
          (List.finRange n).countP fun i =>
            decide (xPart (l + s) i ≠ 0) || decide (zPart (l + s) i ≠ 0)) ↔
        k ∈ {k | ∃ l ∈ rowSpan L, l ≠ 0 ∧ ∃ s ∈ rowSpan S, k = sweight (l + s)} := by
      intro k
      simp only [List.mem_flatMap, List.mem_map, hmL, hmS, hmem, countP_sweight, Set.mem_setOf_eq]
      constructor
      · rintro ⟨l, ⟨h1, h2⟩, s, h3, rfl⟩; exact ⟨l, h1, h2, s, h3, rfl⟩
      · rintro ⟨l, h1, h2, s, h3, rfl⟩; exact ⟨l, ⟨h1, h2⟩, s, h3, rfl⟩
    obtain ⟨l, hl, hl0⟩ := linearIndependent_ne_zero hL hind
    obtain ⟨hdm, hmin⟩ := foldl_min_spec _ n
      (List.ne_nil_of_mem
        ((hset (sweight (l + 0))).2 ⟨l, subset_rowSpan hl, hl0, 0, Submodule.zero_mem _, rfl⟩))
      (by
        intro x hx
        obtain ⟨l, _, _, s, _, rfl⟩ := (hset x).1 hx
        exact sweight_le _)
    exact ⟨_, rfl, (hset _).1 hdm, fun k hk => hmin k ((hset k).2 hk)⟩

/-! ## Complete sets of logical operators -/

/-- `LX`, `LZ` are a complete set of logical operators of the code with checks or gauge generators
`M`. -/
structure LogComplete (M LX LZ : Rows F (n + n)) : Prop where
  basis : IsLogicalBasis M LX LZ
  count : rank M + rank (subsystemStabilizers M) + 2 * LX.length = 2 * n

theorem mem_subsystemStabilizers (M : Rows F (n + n)) (p : Fin (n + n) → F) :
    p ∈ rowSpan (subsystemStabilizers M) ↔ p ∈ rowSpan M ∧ ∀ r ∈ M, sform r p = 0 := by
  have := C23_stabilizers M p
  rw [isCombination_iff, isCombination_iff] at this
  exact this

theorem rank_subsystemStabilizers {M : Rows F (n + n)} (hM : AllCommute M) :
    rank (subsystemStabilizers M) = rank M := by
  apply rank_eq_of_rowSpan_eq
  ext p
  rw [mem_subsystemStabilizers]
  exact ⟨fun h => h.1, fun h => ⟨h, fun r hr => sform_span_right (fun q hq => hM r hr q hq) h⟩⟩

namespace LogComplete

variable {M LX LZ : Rows F (n + n)} (h : LogComplete M LX LZ)

include h

theorem mem_iff_product (l : Fin (n + n) → F) :
    l ∈ rowSpan (LX ++ LZ) ↔ ∃ a b, l = logicalProduct LX LZ a b := by
  rw [rowSpan_append', Submodule.mem_sup]
  constructor
  · rintro ⟨x, hx, z, hz, rfl⟩
    obtain ⟨c, rfl⟩ := (mem_rowSpan_iff_exists LX x).1 hx
    obtain ⟨d, rfl⟩ := (mem_rowSpan_iff_exists LZ z).1 hz
    refine ⟨fun i => if h : i < LX.length then c ⟨i, h⟩ else 0,
      fun i => if h : i < LZ.length then d ⟨i, h⟩ else 0, ?_⟩
    unfold logicalProduct
    congr 1 <;> refine Finset.sum_congr rfl fun i _ => by simp
  · rintro ⟨a, b, rfl⟩
    exact ⟨_, (mem_rowSpan_iff_exists LX _).2 ⟨fun i => a i, rfl⟩, _,
      (mem_rowSpan_iff_exists LZ _).2 ⟨fun i => b i, rfl⟩, rfl⟩

theorem independent : LinearIndependent F (fun i => (LX ++ LZ).get i) := by
  have hb : IsLogicalBasis [] LX LZ :=
    ⟨h.basis.len, by simp, by simp, h.basis.pair, h.basis.xx, h.basis.zz⟩
  have h1 := hb.finrank_ge
  rw [linearIndependent_iff_card_le_finrank_span]
  have h2 : Set.range (fun i => (LX ++ LZ).get i) = {v | v ∈ LX ++ LZ} := by
    ext v; simp only [Set.mem_range, Set.mem_setOf_eq]; exact List.mem_iff_get.symm
  have h3 : Set.finrank F {v | v ∈ LX ++ LZ} = Module.finrank F (rowSpan (LX ++ LZ)) := rfl
  rw [h2, h3]
  rw [Fintype.card_fin, List.length_append, ← h.basis.len]
  rw [List.nil_append] at h1
  omega

theorem eq_zero {l : Fin (n + n) → F} (hl : l ∈ rowSpan (LX ++ LZ)) (hm : l ∈ rowSpan M) : l = 0 := by
  obtain ⟨a, b, rfl⟩ := (h.mem_iff_product l).1 hl
  have h0 := h.basis.independent a b hm
  unfold logicalProduct
  have hlen := h.basis.len
  rw [Finset.sum_eq_zero fun i _ => by rw [(h0 i.val i.isLt).1, zero_smul],
    Finset.sum_eq_zero fun i _ => by rw [(h0 i.val (by have := i.isLt; omega)).2, zero_smul], add_zero]

/-- everything that commutes with the stabilizers is a product of gauge and logical operators -/
theorem sup_eq (p : Fin (n + n) → F) :
    (∀ s ∈ rowSpan (subsystemStabilizers M), sform s p = 0) ↔ p ∈ rowSpan M ⊔ rowSpan (LX ++ LZ) := by
  have e : rowSpan M ⊔ rowSpan (LX ++ LZ) = rowSpan (M ++ LX ++ LZ) := by
    rw [List.append_assoc, rowSpan_append' M]
  have hle : rowSpan (M ++ LX ++ LZ) ≤ kernel ((subsystemStabilizers M).map symplecticConjugate) := by
    rw [rowSpan_le]
    intro l hl
    rw [mem_kernel_conj]
    intro s hs
    obtain ⟨h1, h2⟩ := (mem_subsystemStabilizers M s).1 (subset_rowSpan hs)
    rcases List.mem_append.1 hl with hl | hl
    · rcases List.mem_append.1 hl with hl | hl
      · rw [sform_comm, h2 l hl, neg_zero]
      · exact sform_span_left (fun r hr => h.basis.commX r hr l hl) h1
    · exact sform_span_left (fun r hr => h.basis.commZ r hr l hl) h1
  have h1 := h.basis.finrank_ge
  have h2 := finrank_kernel ((subsystemStabilizers M).map symplecticConjugate)
  rw [rank_conj] at h2
  have h3 := h.count
  have heq : rowSpan (M ++ LX ++ LZ) = kernel ((subsystemStabilizers M).map symplecticConjugate) :=
    Submodule.eq_of_le_of_finrank_le hle (by omega)
  rw [e, heq, mem_kernel_conj]
  exact ⟨fun hh s hs => hh s (subset_rowSpan hs), fun hh s hs => sform_span_left hh hs⟩

theorem nontrivial_iff (p : Fin (n + n) → F) :
    IsNontrivialLogical M p ↔ ∃ l ∈ rowSpan (LX ++ LZ), l ≠ 0 ∧ ∃ s ∈ rowSpan M, p = l + s := by
  have e : (∀ s, IsCombination M s → (∀ r ∈ M, sform r s = 0) → sform s p = 0) ↔
      p ∈ rowSpan M ⊔ rowSpan (LX ++ LZ) := by
    rw [← h.sup_eq]
    constructor
    · intro hh s hs
      obtain ⟨h1, h2⟩ := (mem_subsystemStabilizers M s).1 hs
      exact hh s ((isCombination_iff M s).2 h1) h2
    · intro hh s h1 h2
      exact hh s ((mem_subsystemStabilizers M s).2 ⟨(isCombination_iff M s).1 h1, h2⟩)
  unfold IsNontrivialLogical
  rw [e, isCombination_iff]
  constructor
  · rintro ⟨h1, h2⟩
    obtain ⟨s, hs, l, hl, rfl⟩ := Submodule.mem_sup.1 h1
    refine ⟨l, hl, ?_, s, hs, add_comm _ _⟩
    rintro rfl
    exact h2 (by rwa [add_zero])
  · rintro ⟨l, hl, h0, s, hs, rfl⟩
    refine ⟨?_, fun h1 => h0 (h.eq_zero hl ?_)⟩
    · rw [add_comm l s]
      exact Submodule.add_mem_sup hs hl
    · simpa using Submodule.sub_mem _ h1 hs

theorem pos (hL : LX ≠ []) : 0 < n := by
  obtain ⟨l, hl, hl0⟩ := linearIndependent_ne_zero (L := LX ++ LZ) (by simp [hL]) h.independent
  rcases Nat.eq_zero_or_pos n with rfl | hn
  · exact absurd (funext fun i => (Nat.not_lt_zero _ i.isLt).elim) hl0
  · exact hn

theorem codeDistance (S : Rows F (n + n)) (hS : rowSpan S = rowSpan M) (d : ℕ) :
    IsCodeDistance M d ↔ IsLeast {k | ∃ l ∈ rowSpan (LX ++ LZ), l ≠ 0 ∧ ∃ s ∈ rowSpan S,
      k = sweight (l + s)} d := by
  unfold IsCodeDistance
  have : {k | ∃ p, IsNontrivialLogical M p ∧ k = sweight p} =
      {k | ∃ l ∈ rowSpan (LX ++ LZ), l ≠ 0 ∧ ∃ s ∈ rowSpan S, k = sweight (l + s)} := by
    ext k
    simp only [Set.mem_setOf_eq]
    constructor
    · rintro ⟨p, hp, rfl⟩
      obtain ⟨l, hl, h0, s, hs, rfl⟩ := (h.nontrivial_iff p).1 hp
      exact ⟨l, hl, h0, s, hS ▸ hs, rfl⟩
    · rintro ⟨l, hl, h0, s, hs, rfl⟩
      exact ⟨_, (h.nontrivial_iff _).2 ⟨l, hl, h0, s, hS ▸ hs, rfl⟩, rfl⟩
  rw [this]

theorem not_nontrivial (hL : LX = []) (p : Fin (n + n) → F) : ¬ IsNontrivialLogical M p := by
  have hZ : LZ = [] := List.length_eq_zero_iff.1 (by rw [← h.basis.len, hL]; rfl)
  subst hL hZ
  rw [h.nontrivial_iff]
  rintro ⟨l, hl, h0, _⟩
  apply h0
  simpa [rowSpan] using hl

end LogComplete

theorem logComplete_of_commute {M LX LZ : Rows F (n + n)} (hM : AllCommute M)
    (hb : IsLogicalBasis M LX LZ) (hk : rank M + LX.length = n) : LogComplete M LX LZ :=
  ⟨hb, by rw [rank_subsystemStabilizers hM]; omega⟩

end QLDPC
