import Verif.Lemmas.GUF
import Mathlib.Data.List.Perm.Subperm

/-! # The loop of the generalized union-find decoder -/

namespace QLDPC

open Spec

set_option linter.unusedSectionVars false

variable {F : Type} [Field F] [DecidableEq F] {n N : ℕ}

/-- What is used of the graph and of the columns. -/
structure GufSetup (adj : ℕ → ℕ → Prop) (nbr : Node → Option (List Node)) (H : Rows F N) (n : ℕ)
    (site : ℕ → ℕ) (expand : List ℕ → List ℕ) : Prop where
  check : ∀ i : ℕ, (∃ j, adj i j) → ∃ L, nbr ⟨i, false⟩ = some L ∧ ∀ x, x ∈ L ↔ ∃ j : ℕ, adj i j ∧ x = ⟨j, true⟩
  bit : ∀ j : ℕ, (∃ i, adj i j) → ∃ L, nbr ⟨j, true⟩ = some L ∧ ∀ x, x ∈ L ↔ ∃ i : ℕ, adj i j ∧ x = ⟨i, false⟩
  bound : ∀ i j, adj i j → i < H.length ∧ j < n
  entry : ∀ i c, cell H i c ≠ 0 → adj i (site c)
  cols : ∀ B : List ℕ, B.Nodup → (∀ j ∈ B, j < n) →
    (expand B).Nodup ∧ ∀ c, c ∈ expand B ↔ c < N ∧ site c ∈ B

/-- `E` lists the checks of `C` and the bits of `B`. -/
structure Rep (E : List Node) (C B : ℕ → Prop) : Prop where
  nodup : E.Nodup
  mem : ∀ x, x ∈ E ↔ (∃ i : ℕ, C i ∧ x = ⟨i, false⟩) ∨ ∃ j : ℕ, B j ∧ x = ⟨j, true⟩

theorem Rep.check {E : List Node} {C B : ℕ → Prop} (h : Rep E C B) (i : ℕ) : (⟨i, false⟩ : Node) ∈ E ↔ C i := by
  rw [h.mem]
  constructor
  · rintro (⟨i', h', e⟩ | ⟨j, -, e⟩)
    · have : (i : ℤ) = i' := congrArg Node.index e
      have : i = i' := by exact_mod_cast this
      rwa [this]
    · exact absurd (congrArg Node.isData e) (by simp)
  · exact fun h' => .inl ⟨i, h', rfl⟩

theorem Rep.bit {E : List Node} {C B : ℕ → Prop} (h : Rep E C B) (j : ℕ) : (⟨j, true⟩ : Node) ∈ E ↔ B j := by
  rw [h.mem]
  constructor
  · rintro (⟨i', -, e⟩ | ⟨j', h', e⟩)
    · exact absurd (congrArg Node.isData e) (by simp)
    · have : (j : ℤ) = j' := congrArg Node.index e
      have : j = j' := by exact_mod_cast this
      rwa [this]
  · exact fun h' => .inr ⟨j, h', rfl⟩

section
variable {adj : ℕ → ℕ → Prop} {nbr : Node → Option (List Node)} {H : Rows F N} {site : ℕ → ℕ}
  {expand : List ℕ → List ℕ}

theorem gufGrow_spec (hs : GufSetup adj nbr H n site expand) {E : List Node} {C B : ℕ → Prop} (hE : Rep E C B)
    (hC : ∀ i, C i → ∃ j, adj i j) (hB : ∀ j, B j → ∃ i, adj i j) :
    ∃ E', gufGrow nbr E = some E' ∧ Rep E' (fun i => C i ∨ ∃ j, B j ∧ adj i j) (fun j => B j ∨ ∃ i, C i ∧ adj i j) := by
  have hsome : ∀ x ∈ E, (nbr x).isSome := by
    intro x hx
    rcases (hE.mem x).1 hx with ⟨i, hi, rfl⟩ | ⟨j, hj, rfl⟩
    · obtain ⟨L, hL, -⟩ := hs.check i (hC i hi)
      rw [hL]; rfl
    · obtain ⟨L, hL, -⟩ := hs.bit j (hB j hj)
      rw [hL]; rfl
  obtain ⟨L, hL⟩ := Option.isSome_iff_exists.1 (mapM_isSome hsome)
  refine ⟨(E ++ L.flatten).dedup, by rw [gufGrow, hL]; rfl, List.nodup_dedup _, fun x => ?_⟩
  have hf := mapM_some_iff.1 hL
  have hx : x ∈ L.flatten ↔ ∃ y ∈ E, ∃ l, nbr y = some l ∧ x ∈ l := by
    rw [List.mem_flatten]
    constructor
    · rintro ⟨l, hl, hx⟩
      obtain ⟨y, hy, h⟩ := forall₂_right hf l hl
      exact ⟨y, hy, l, h, hx⟩
    · rintro ⟨y, hy, l, hl, hx⟩
      obtain ⟨l', hl', h⟩ := forall₂_left hf y hy
      have : l = l' := Option.some.inj (hl.symm.trans h)
      exact ⟨l, this ▸ hl', hx⟩
  rw [List.mem_dedup, List.mem_append, hx, hE.mem]
  constructor
  · rintro ((⟨i, hi, rfl⟩ | ⟨j, hj, rfl⟩) | ⟨y, hy, l, hl, hxl⟩)
    · exact .inl ⟨i, .inl hi, rfl⟩
    · exact .inr ⟨j, .inl hj, rfl⟩
    · rcases (hE.mem y).1 hy with ⟨i, hi, rfl⟩ | ⟨j, hj, rfl⟩
      · obtain ⟨L, hL, hm⟩ := hs.check i (hC i hi)
        rw [hL] at hl
        rw [← Option.some.inj hl, hm] at hxl
        obtain ⟨j, hij, rfl⟩ := hxl
        exact .inr ⟨j, .inr ⟨i, hi, hij⟩, rfl⟩
      · obtain ⟨L, hL, hm⟩ := hs.bit j (hB j hj)
        rw [hL] at hl
        rw [← Option.some.inj hl, hm] at hxl
        obtain ⟨i, hij, rfl⟩ := hxl
        exact .inl ⟨i, .inr ⟨j, hj, hij⟩, rfl⟩
  · rintro (⟨i, (hi | ⟨j, hj, hij⟩), rfl⟩ | ⟨j, (hj | ⟨i, hi, hij⟩), rfl⟩)
    · exact .inl (.inl ⟨i, hi, rfl⟩)
    · obtain ⟨L, hL, hm⟩ := hs.bit j (hB j hj)
      exact .inr ⟨_, (hE.mem _).2 (.inr ⟨j, hj, rfl⟩), L, hL, (hm _).2 ⟨i, hij, rfl⟩⟩
    · exact .inl (.inr ⟨j, hj, rfl⟩)
    · obtain ⟨L, hL, hm⟩ := hs.check i (hC i hi)
      exact .inr ⟨_, (hE.mem _).2 (.inl ⟨i, hi, rfl⟩), L, hL, (hm _).2 ⟨j, hij, rfl⟩⟩

theorem mem_sortDesc {l : List ℕ} {x : ℕ} : x ∈ sortDesc l ↔ x ∈ l := (List.perm_insertionSort _ _).mem_iff

theorem nodup_sortDesc {l : List ℕ} : (sortDesc l).Nodup ↔ l.Nodup := (List.perm_insertionSort _ _).nodup_iff

theorem mem_interiorData (hs : GufSetup adj nbr H n site expand) {E : List Node} {C B : ℕ → Prop} (hE : Rep E C B)
    (hB : ∀ j, B j → ∃ i, adj i j) (x : Node) :
    x ∈ interiorData nbr E ↔ ∃ j : ℕ, (B j ∧ ∀ i, adj i j → C i) ∧ x = ⟨j, true⟩ := by
  unfold interiorData
  rw [List.mem_filter, List.mem_filter, hE.mem]
  constructor
  · rintro ⟨⟨⟨i, -, rfl⟩ | ⟨j, hj, rfl⟩, h2⟩, h3⟩
    · simp at h3
    · refine ⟨j, ⟨hj, fun i hij => ?_⟩, rfl⟩
      obtain ⟨L, hL, hm⟩ := hs.bit j (hB j hj)
      rw [hL, Option.getD_some, List.all_eq_true] at h2
      have := h2 _ ((hm ⟨i, false⟩).2 ⟨i, hij, rfl⟩)
      exact (hE.check i).1 (by simpa using this)
  · rintro ⟨j, ⟨hj, hall⟩, rfl⟩
    refine ⟨⟨.inr ⟨j, hj, rfl⟩, ?_⟩, rfl⟩
    obtain ⟨L, hL, hm⟩ := hs.bit j (hB j hj)
    rw [hL, Option.getD_some, List.all_eq_true]
    intro y hy
    obtain ⟨i, hij, rfl⟩ := (hm y).1 hy
    simpa using (hE.check i).2 (hall i hij)

theorem mem_gufChecks (hs : GufSetup adj nbr H n site expand) {E : List Node} {C B : ℕ → Prop} (hE : Rep E C B)
    (hB : ∀ j, B j → ∃ i, adj i j) (i : ℕ) : i ∈ gufChecks nbr E ↔ C i := by
  unfold gufChecks
  rw [mem_sortDesc, List.mem_map]
  constructor
  · rintro ⟨x, hx, rfl⟩
    rw [List.mem_dedup, List.mem_append, List.mem_filter, List.mem_flatMap] at hx
    rcases hx with ⟨h1, h2⟩ | ⟨y, hy, hxy⟩
    · rcases (hE.mem x).1 h1 with ⟨i, hi, rfl⟩ | ⟨j, hj, rfl⟩
      · simpa using hi
      · simp at h2
    · obtain ⟨j, ⟨hj, hall⟩, rfl⟩ := (mem_interiorData hs hE hB y).1 hy
      obtain ⟨L, hL, hm⟩ := hs.bit j (hB j hj)
      rw [hL, Option.getD_some, hm] at hxy
      obtain ⟨i, hij, rfl⟩ := hxy
      simpa using hall i hij
  · intro hi
    refine ⟨⟨i, false⟩, ?_, by simp⟩
    rw [List.mem_dedup, List.mem_append, List.mem_filter]
    exact .inl ⟨(hE.check i).2 hi, rfl⟩

theorem gufBits_spec (hs : GufSetup adj nbr H n site expand) {E : List Node} {C B : ℕ → Prop} (hE : Rep E C B)
    (hB : ∀ j, B j → ∃ i, adj i j) : (gufBits expand nbr E).Nodup ∧
    ∀ c, c ∈ gufBits expand nbr E ↔ c < N ∧ B (site c) ∧ ∀ i, adj i (site c) → C i := by
  have hmem : ∀ j, j ∈ (interiorData nbr E).map (fun x => x.index.toNat) ↔ B j ∧ ∀ i, adj i j → C i := by
    intro j
    rw [List.mem_map]
    constructor
    · rintro ⟨x, hx, rfl⟩
      obtain ⟨j, h, rfl⟩ := (mem_interiorData hs hE hB x).1 hx
      simpa using h
    · intro h
      exact ⟨⟨j, true⟩, (mem_interiorData hs hE hB _).2 ⟨j, h, rfl⟩, by simp⟩
  have hnd : ((interiorData nbr E).map fun x => x.index.toNat).Nodup := by
    refine List.Nodup.map_on ?_ ((hE.nodup.filter _).filter _)
    intro x hx y hy hxy
    obtain ⟨j, -, rfl⟩ := (mem_interiorData hs hE hB x).1 hx
    obtain ⟨j', -, rfl⟩ := (mem_interiorData hs hE hB y).1 hy
    simp at hxy
    rw [hxy]
  obtain ⟨h1, h2⟩ := hs.cols _ hnd fun j hj => by
    obtain ⟨i, hi⟩ := hB j ((hmem j).1 hj).1
    exact (hs.bound i j hi).2
  unfold gufBits
  refine ⟨nodup_sortDesc.2 h1, fun c => ?_⟩
  rw [mem_sortDesc, h2, hmem]

theorem matVec_eq_iff {H : Rows F N} {s : List F} (hlen : s.length = H.length) (e : Fin N → F) :
    matVec H e = s ↔ ∀ i (hi : i < H.length), dot H[i] e = s.getD i 0 := by
  unfold matVec
  constructor
  · rintro rfl i hi
    simp [List.getD, hi]
  · intro h
    refine List.ext_getElem (by simp [hlen]) fun i h1 h2 => ?_
    have := h i (by omega)
    simp only [List.getElem_map, this]
    simp [List.getD, h2]

/-- Solutions inside the region are the solutions of the subproblem. -/
theorem sub_iff {C : ℕ → Prop} {s : List F} {checks bits : List ℕ} (hlen : s.length = H.length)
    (hs : ∀ i, s.getD i 0 ≠ 0 → C i) (hC : ∀ i, C i → i < H.length) (hc : ∀ i, i ∈ checks ↔ C i)
    (hnd : bits.Nodup) (hlt : ∀ c ∈ bits, c < N) (hin : ∀ c ∈ bits, ∀ i, cell H i c ≠ 0 → C i)
    (v : Fin bits.length → F) : Sub H s checks bits v ↔ matVec H (gufPlace N bits v) = s := by
  rw [matVec_eq_iff hlen]
  have hrow : ∀ i (hi : i < H.length), dot H[i] (gufPlace N bits v) = ∑ j, cell H i (bits.get j) * v j := by
    intro i hi
    rw [sum_gufPlace hnd hlt]
    refine Finset.sum_congr rfl fun j _ => ?_
    simp [cell, hi]
  constructor
  · intro h i hi
    rw [hrow i hi]
    by_cases hCi : C i
    · exact h i ((hc i).2 hCi)
    · have h0 : s.getD i 0 = 0 := by
        by_contra hne
        exact hCi (hs i hne)
      rw [h0]
      refine Finset.sum_eq_zero fun j _ => ?_
      have : cell H i (bits.get j) = 0 := by
        by_contra hne
        exact hCi (hin _ (bits.get_mem j) i hne)
      rw [this, zero_mul]
  · intro h i hi
    have hi' := hC i ((hc i).1 hi)
    rw [← hrow i hi']
    exact h i hi'

theorem reached_mono (adj : ℕ → ℕ → Prop) (start : ℕ → Prop) (k : ℕ) (i : ℕ) :
    ((Reached adj start k).1 i → (Reached adj start (k + 1)).1 i) ∧
    ((Reached adj start k).2 i → (Reached adj start (k + 1)).2 i) := ⟨.inl, .inl⟩

theorem reached_start (adj : ℕ → ℕ → Prop) (start : ℕ → Prop) (k i : ℕ) (h : start i) :
    (Reached adj start k).1 i := by
  induction k with
  | zero => exact h
  | succ k ih => exact .inl ih

theorem reached_live (adj : ℕ → ℕ → Prop) (start : ℕ → Prop) (h : ∀ i, start i → ∃ j, adj i j) (k : ℕ) :
    (∀ i, (Reached adj start k).1 i → ∃ j, adj i j) ∧ ∀ j, (Reached adj start k).2 j → ∃ i, adj i j := by
  induction k with
  | zero => exact ⟨h, fun _ h => h.elim⟩
  | succ k ih =>
    refine ⟨?_, ?_⟩
    · rintro i (hi | ⟨j, -, hij⟩)
      · exact ih.1 i hi
      · exact ⟨j, hij⟩
    · rintro j (hj | ⟨i, -, hij⟩)
      · exact ih.2 j hj
      · exact ⟨i, hij⟩

theorem Rep.length_le (hs : GufSetup adj nbr H n site expand) {E : List Node} {C B : ℕ → Prop} (hE : Rep E C B)
    (hC : ∀ i, C i → ∃ j, adj i j) (hB : ∀ j, B j → ∃ i, adj i j) : E.length ≤ H.length + n := by
  have hsub : E ⊆ (List.range H.length).map (fun i : ℕ => (⟨i, false⟩ : Node)) ++
      (List.range n).map fun j : ℕ => (⟨j, true⟩ : Node) := by
    intro x hx
    rw [List.mem_append, List.mem_map, List.mem_map]
    rcases (hE.mem x).1 hx with ⟨i, hi, rfl⟩ | ⟨j, hj, rfl⟩
    · obtain ⟨j, hij⟩ := hC i hi
      exact .inl ⟨i, List.mem_range.2 (hs.bound i j hij).1, rfl⟩
    · obtain ⟨i, hij⟩ := hB j hj
      exact .inr ⟨j, List.mem_range.2 (hs.bound i j hij).2, rfl⟩
  have := (List.subperm_of_subset hE.nodup hsub).length_le
  simpa using this

/-- What the decoder returns. -/
def GufResult (adj : ℕ → ℕ → Prop) (site : ℕ → ℕ) (H : Rows F N) (s : List F) (W : (Fin N → F) → ℕ)
    (maxWeight : Option ℕ) (v : Fin N → F) : Prop :=
  ((∃ e, matVec H e = s) → ∃ k, 1 ≤ k ∧ matVec H v = s ∧
    (∀ c : Fin N, v c ≠ 0 → Inside adj (Fired s) k (site c)) ∧
    (∀ k', 1 ≤ k' → k' < k → ¬ ∃ e, matVec H e = s ∧ ∀ c : Fin N, e c ≠ 0 → Inside adj (Fired s) k' (site c)) ∧
    ∀ w, maxWeight = some w → W v ≤ w ∨
      ∀ e, matVec H e = s → (∀ c : Fin N, e c ≠ 0 → Inside adj (Fired s) k (site c)) → W v ≤ W e) ∧
  ((¬ ∃ e, matVec H e = s) → v = 0)

theorem gufLoop_spec (hs : GufSetup adj nbr H n site expand) {els : List F} (hall : ∀ x : F, x ∈ 0 :: els)
    {order2 : Bool} (h2 : order2 = true → ∀ x : F, x = 0 ∨ x = 1) {weight : ∀ {m : ℕ}, (Fin m → F) → ℕ}
    {W : (Fin N → F) → ℕ} (hW0 : W 0 = 0)
    (hW : ∀ B : List ℕ, B.Nodup → (∀ j ∈ B, j < n) → ∀ v : Fin (sortDesc (expand B)).length → F,
      weight v = W (gufPlace N (sortDesc (expand B)) v))
    (maxWeight : Option ℕ) {s : List F} (hlen : s.length = H.length)
    (hlive : ∀ i, s.getD i 0 ≠ 0 → ∃ j, adj i j) (m : ℕ) :
    ∀ (E : List Node) (k last : ℕ), Rep E (Reached adj (Fired s) k).1 (Reached adj (Fired s) k).2 →
      (k = 0 ∧ last = 0 ∨ 1 ≤ k ∧ last = E.length) →
      (∀ k', 1 ≤ k' → k' ≤ k → ¬ ∃ e, matVec H e = s ∧ ∀ c : Fin N, e c ≠ 0 → Inside adj (Fired s) k' (site c)) →
      H.length + n + 1 ≤ m + last →
      ∃ v, (∀ fuel, m ≤ fuel →
        gufLoop (0 :: els) order2 expand weight nbr H maxWeight s fuel E last = some v) ∧
        GufResult adj site H s W maxWeight v := by
  induction m with
  | zero =>
    intro E k last hE hlast hno hm
    exfalso
    obtain ⟨l1, l2⟩ := reached_live adj (Fired s) hlive k
    have := hE.length_le hs l1 l2
    rcases hlast with ⟨-, h⟩ | ⟨-, h⟩ <;> omega
  | succ m ih =>
    intro E k last hE hlast hno hm
    obtain ⟨l1, l2⟩ := reached_live adj (Fired s) hlive k
    obtain ⟨l1', l2'⟩ := reached_live adj (Fired s) hlive (k + 1)
    obtain ⟨E', hgrow, hE'⟩ := gufGrow_spec hs hE l1 l2
    have hE' : Rep E' (Reached adj (Fired s) (k + 1)).1 (Reached adj (Fired s) (k + 1)).2 := hE'
    have hstep : ∀ fuel, m + 1 ≤ fuel → ∃ f', fuel = f' + 1 ∧ m ≤ f' := fun fuel hf =>
      ⟨fuel - 1, by omega, by omega⟩
    have hsub : E ⊆ E' := by
      intro x hx
      rcases (hE.mem x).1 hx with ⟨i, hi, rfl⟩ | ⟨j, hj, rfl⟩
      · exact (hE'.check i).2 (.inl hi)
      · exact (hE'.bit j).2 (.inl hj)
    by_cases hcase : E'.length = last
    · refine ⟨0, fun fuel hf => ?_, ?_⟩
      · obtain ⟨f', rfl, -⟩ := hstep fuel hf
        rw [gufLoop, hgrow]
        simp only [hcase, if_true]
      · refine ⟨?_, fun _ => rfl⟩
        rintro ⟨e, he⟩
        rcases hlast with ⟨rfl, rfl⟩ | ⟨hk, hl⟩
        · -- no check fired
          have hnil : E' = [] := List.length_eq_zero_iff.1 hcase
          have hs0 : ∀ i, s.getD i 0 = 0 := by
            intro i
            by_contra hne
            have := (hE'.check i).2 (.inl hne)
            rw [hnil] at this
            simp at this
          refine ⟨1, le_rfl, ?_, fun c hc => absurd rfl hc, by omega, fun w _ => .inl (by rw [hW0]; omega)⟩
          rw [matVec_eq_iff hlen]
          intro i hi
          rw [hs0 i, dot_zero_right]
        · exfalso
          have hsame : ∀ x, x ∈ E' → x ∈ E := by
            have hp := List.subperm_of_subset hE.nodup hsub
            have := hp.perm_of_length_le (by omega)
            intro x hx
            exact this.mem_iff.2 hx
          have hC : ∀ i, (Reached adj (Fired s) (k + 1)).1 i → (Reached adj (Fired s) k).1 i := fun i hi =>
            (hE.check i).1 (hsame _ ((hE'.check i).2 hi))
          have hB : ∀ j, (Reached adj (Fired s) (k + 1)).2 j → (Reached adj (Fired s) k).2 j := fun j hj =>
            (hE.bit j).1 (hsame _ ((hE'.bit j).2 hj))
          classical
          refine hno k hk le_rfl ⟨fun c => if (Reached adj (Fired s) k).2 (site c) then e c else 0, ?_, ?_⟩
          · rw [matVec_eq_iff hlen] at he ⊢
            intro i hi
            have hcell : ∀ c : Fin N, H[i] c = cell H i c := fun c => by simp [cell, nth, hi]
            by_cases hCi : (Reached adj (Fired s) k).1 i
            · rw [← he i hi]
              unfold dot
              refine Finset.sum_congr rfl fun c _ => ?_
              by_cases hne : H[i] c = 0
              · rw [hne, zero_mul, zero_mul]
              · rw [hcell] at hne
                have := hB (site c) (.inr ⟨i, hCi, hs.entry i c hne⟩)
                simp only [this, if_true]
            · have h0 : s.getD i 0 = 0 := by
                by_contra hne
                exact hCi (reached_start adj (Fired s) k i hne)
              rw [h0]
              unfold dot
              refine Finset.sum_eq_zero fun c _ => ?_
              by_cases hne : H[i] c = 0
              · rw [hne, zero_mul]
              · rw [hcell] at hne
                have : ¬ (Reached adj (Fired s) k).2 (site c) := fun hb =>
                  hCi (hC i (.inr ⟨site c, hb, hs.entry i c hne⟩))
                simp only [this, if_false, mul_zero]
          · intro c hc
            have hb : (Reached adj (Fired s) k).2 (site c) := by
              by_contra hb
              simp only [hb, if_false, ne_eq, not_true_eq_false] at hc
            exact ⟨hb, fun i hij => hC i (.inr ⟨_, hb, hij⟩)⟩
    · obtain ⟨hnd, hbits⟩ := gufBits_spec hs hE' l2'
      have hchecks := mem_gufChecks hs hE' l2'
      have hiff := sub_iff (H := H) (s := s) (checks := gufChecks nbr E') (bits := gufBits expand nbr E') hlen
        (fun i hi => reached_start adj (Fired s) (k + 1) i hi)
        (fun i hi => by obtain ⟨j, hj⟩ := l1' i hi; exact (hs.bound i j hj).1) hchecks hnd
        (fun c hc => ((hbits c).1 hc).1) (fun c hc i hne => ((hbits c).1 hc).2.2 i (hs.entry i c hne))
      have hsup : ∀ (v : Fin (gufBits expand nbr E').length → F) (c : Fin N), gufPlace N (gufBits expand nbr E') v c ≠ 0 →
          Inside adj (Fired s) (k + 1) (site c) := fun v c hc =>
        ((hbits c).1 (gufPlace_support v c hc)).2
      have hback : ∀ e : Fin N → F, (∀ c : Fin N, e c ≠ 0 → Inside adj (Fired s) (k + 1) (site c)) →
          gufPlace N (gufBits expand nbr E') (gufRestrict (gufBits expand nbr E') e) = e := by
        intro e he
        refine gufPlace_restrict e fun c hc => ?_
        by_contra hne
        exact hc ((hbits c).2 ⟨c.isLt, he c hne⟩)
      cases hmin : minBy weight (gufSolutions order2 H s (gufChecks nbr E') (gufBits expand nbr E')) with
      | none =>
        have hnil := minBy_none.1 hmin
        have hlt : last < E'.length := by
          have h1 : E.length ≤ E'.length := (List.subperm_of_subset hE.nodup hsub).length_le
          rcases hlast with ⟨-, h⟩ | ⟨-, h⟩ <;> omega
        obtain ⟨v, hv, hres⟩ := ih E' (k + 1) E'.length hE' (.inr ⟨by omega, rfl⟩) (by
          intro k' h1 h2'
          rcases Nat.lt_or_ge k' (k + 1) with h3 | h3
          · exact hno k' h1 (by omega)
          · have : k' = k + 1 := by omega
            subst this
            rintro ⟨e, he, hin⟩
            refine solutions_ne_nil (order2 := order2) (v := gufRestrict (gufBits expand nbr E') e) ?_ hnil
            rw [hiff, hback e hin]
            exact he) (by omega)
        refine ⟨v, fun fuel hf => ?_, hres⟩
        obtain ⟨f', rfl, hf'⟩ := hstep fuel hf
        rw [gufLoop, hgrow]
        simp only [hcase, if_false, hmin]
        exact hv f' hf'
      | some first =>
        have hfirst := sub_of_mem_solutions h2 (minBy_mem hmin)
        obtain ⟨c1, c2⟩ := gufChoose_spec hall weight maxWeight hfirst
        set u := gufChoose (0 :: els) weight maxWeight (subMatrix H (gufChecks nbr E') (gufBits expand nbr E')) first
          with hu
        refine ⟨gufPlace N (gufBits expand nbr E') u, fun fuel hf => ?_, ?_, ?_⟩
        · obtain ⟨f', rfl, -⟩ := hstep fuel hf
          rw [gufLoop, hgrow]
          simp only [hcase, if_false, hmin, hu]
        · intro _
          refine ⟨k + 1, by omega, (hiff u).1 c1, hsup u, fun k' h1 h3 => hno k' h1 (by omega), fun w hw => ?_⟩
          have hWW : ∀ x : Fin (gufBits expand nbr E').length → F, weight x = W (gufPlace N (gufBits expand nbr E') x) := by
            refine hW _ ?_ ?_
            · refine List.Nodup.map_on ?_ ((hE'.nodup.filter _).filter _)
              intro x hx y hy hxy
              obtain ⟨j, -, rfl⟩ := (mem_interiorData hs hE' l2' x).1 hx
              obtain ⟨j', -, rfl⟩ := (mem_interiorData hs hE' l2' y).1 hy
              simp at hxy
              rw [hxy]
            · intro j hj
              obtain ⟨x, hx, rfl⟩ := List.mem_map.1 hj
              obtain ⟨j, ⟨hb, -⟩, rfl⟩ := (mem_interiorData hs hE' l2' x).1 hx
              obtain ⟨i, hij⟩ := l2' j hb
              simpa using (hs.bound i j hij).2
          rw [← hWW]
          rcases c2 w hw with h | h
          · exact .inl h
          · refine .inr fun e he hin => ?_
            have := h (gufRestrict (gufBits expand nbr E') e) (by rw [hiff, hback e hin]; exact he)
            rw [hWW (gufRestrict _ _), hback e hin] at this
            exact this
        · intro hno'
          exact absurd ⟨_, (hiff u).1 c1⟩ hno'

end

end QLDPC
