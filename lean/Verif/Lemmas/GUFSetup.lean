import Verif.Lemmas.GUFLoop
import Verif.Lemmas.GraphMatrix
import Verif.Lemmas.Symplectic
import Mathlib.Data.List.Sort

/-! # The graphs and columns of the generalized union-find decoder -/

namespace QLDPC

open Spec

set_option linter.unusedSectionVars false

variable {F : Type} [Field F] [DecidableEq F] {n N : ℕ}

theorem neighbors_spec {δ : Type} {g : TGraph δ} (hg : g.WF) {tab : ℕ → ℕ → Option δ}
    (hfind : ∀ k d, g.find k = some d ↔ ∃ i j : ℕ, k = (⟨i, false⟩, ⟨j, true⟩) ∧ tab i j = some d)
    (hnodes : ∀ x, x ∈ g.nodes ↔ (∃ i : ℕ, (∃ j, tab i j ≠ none) ∧ x = ⟨i, false⟩) ∨
      ∃ j : ℕ, (∃ i, tab i j ≠ none) ∧ x = ⟨j, true⟩) :
    (∀ i : ℕ, (∃ j, tab i j ≠ none) →
      ∃ L, g.neighbors ⟨i, false⟩ = some L ∧ ∀ x, x ∈ L ↔ ∃ j : ℕ, tab i j ≠ none ∧ x = ⟨j, true⟩) ∧
    (∀ j : ℕ, (∃ i, tab i j ≠ none) →
      ∃ L, g.neighbors ⟨j, true⟩ = some L ∧ ∀ x, x ∈ L ↔ ∃ i : ℕ, tab i j ≠ none ∧ x = ⟨i, false⟩) := by
  have hedge : ∀ e, e ∈ g.listEdges ↔ ∃ i j : ℕ, e.1 = (⟨i, false⟩, ⟨j, true⟩) ∧ tab i j = some e.2 := by
    rintro ⟨k, d⟩
    rw [hg.mem_listEdges, hfind]
  constructor
  · intro i hi
    refine ⟨_, if_pos ((hnodes _).2 (.inl ⟨i, hi, rfl⟩)), fun x => ?_⟩
    rw [List.mem_filterMap]
    constructor
    · rintro ⟨e, he, hx⟩
      obtain ⟨i', j, h1, h2⟩ := (hedge e).1 he
      rw [h1] at hx
      by_cases hii : i' = i
      · subst hii
        simp only [if_true, Option.some.injEq] at hx
        exact ⟨j, by rw [h2]; simp, hx.symm⟩
      · exfalso
        simp [hii] at hx
    · rintro ⟨j, hj, rfl⟩
      obtain ⟨d, hd⟩ := Option.ne_none_iff_exists'.1 hj
      exact ⟨((⟨i, false⟩, ⟨j, true⟩), d), (hedge _).2 ⟨i, j, rfl, hd⟩, by simp⟩
  · intro j hj
    refine ⟨_, if_pos ((hnodes _).2 (.inr ⟨j, hj, rfl⟩)), fun x => ?_⟩
    rw [List.mem_filterMap]
    constructor
    · rintro ⟨e, he, hx⟩
      obtain ⟨i, j', h1, h2⟩ := (hedge e).1 he
      rw [h1] at hx
      by_cases hjj : j' = j
      · subst hjj
        simp at hx
        exact ⟨i, by rw [h2]; simp, hx.symm⟩
      · exfalso
        simp [hjj] at hx
    · rintro ⟨i, hi, rfl⟩
      obtain ⟨d, hd⟩ := Option.ne_none_iff_exists'.1 hi
      exact ⟨((⟨i, false⟩, ⟨j, true⟩), d), (hedge _).2 ⟨i, j, rfl, hd⟩, by simp⟩

theorem setup_classical (H : Rows F n) :
    GufSetup (Addresses H) (matrixToGraph H).neighbors H n (fun c => c) id := by
  have hadj : ∀ i j, Addresses H i j ↔
      (if matEntry H i j ≠ 0 then some (matEntry H i j) else none : Option F) ≠ none := by
    intro i j
    unfold Addresses
    split <;> simp_all
  obtain ⟨h1, h2⟩ := neighbors_spec (tab := fun i j => if matEntry H i j ≠ 0 then some (matEntry H i j) else none)
    (matrixToGraph_wf H) (find_matrixToGraph H) (by
      intro x
      rw [nodes_matrixToGraph]
      simp only [← hadj, Addresses])
  simp only [← hadj] at h1 h2
  refine ⟨h1, h2, fun i j h => matEntry_bound h, fun i c h => h, fun B hB hlt => ⟨hB, fun c => ?_⟩⟩
  exact ⟨fun h => ⟨hlt c h, h⟩, fun h => h.2⟩

theorem actsOn_iff {M : Rows F (n + n)} {i j : ℕ} : ActsOn M i j ↔
    matEntry (M.map xPart) i j ≠ 0 ∨ matEntry (M.map zPart) i j ≠ 0 := by
  unfold ActsOn matEntry
  rw [List.getElem?_map, List.getElem?_map]
  cases hr : M[i]? with
  | none => simp
  | some r =>
    simp only [Option.some.injEq, Option.map_some, Option.getD_some, exists_eq_left', entryAt]
    by_cases hj : j < n
    · simp [hj]
    · simp [hj]

theorem matEntry_bound' {m : ℕ} {H : Rows F m} {i j : ℕ} (h : matEntry H i j ≠ 0) : i < H.length ∧ j < m :=
  matEntry_bound h

theorem xPart_conj (r : Fin (n + n) → F) : xPart (symplecticConjugate r) = -zPart r := by
  funext i
  simp [xPart, zPart, symplecticConjugate, -Fin.natAdd_eq_addNat]

theorem zPart_conj (r : Fin (n + n) → F) : zPart (symplecticConjugate r) = xPart r := by
  funext i
  simp [xPart, zPart, symplecticConjugate, -Fin.natAdd_eq_addNat]

theorem actsOn_conj {M : Rows F (n + n)} {i j : ℕ} : ActsOn (M.map symplecticConjugate) i j ↔ ActsOn M i j := by
  unfold ActsOn
  rw [List.getElem?_map]
  cases hr : M[i]? with
  | none => simp
  | some r =>
    simp only [Option.map_some, Option.some.injEq, exists_eq_left', xPart_conj, zPart_conj, Pi.neg_apply, ne_eq,
      neg_eq_zero]
    exact ⟨fun ⟨h, a⟩ => ⟨h, a.symm⟩, fun ⟨h, a⟩ => ⟨h, a.symm⟩⟩

/-- The qudit of a column. -/
def quditOf (n c : ℕ) : ℕ := if c < n then c else c - n

theorem setup_symplectic {fi : FieldInts F} (hf : Spec.FieldInts.Ok fi) (M : Rows F (n + n)) :
    GufSetup (ActsOn M) (graphXZ fi (M.map symplecticConjugate)).neighbors (M.map symplecticConjugate) n (quditOf n)
      (fun bits => bits ++ bits.map (· + n)) := by
  have hadj : ∀ i j, ActsOn M i j ↔ opAt fi (M.map symplecticConjugate) i j ≠ none := by
    intro i j
    rw [opAt_ne_none, ← actsOn_iff, actsOn_conj]
  obtain ⟨h1, h2⟩ := neighbors_spec (graphXZ_wf fi (M.map symplecticConjugate)) (find_graphXZ hf _)
    (nodes_graphXZ fi _)
  simp only [← hadj] at h1 h2
  refine ⟨h1, h2, ?_, ?_, ?_⟩
  · intro i j h
    rw [actsOn_iff] at h
    rcases h with h | h
    · simpa using matEntry_bound h
    · simpa using matEntry_bound h
  · intro i c h
    rw [← actsOn_conj]
    unfold cell at h
    cases hr : (M.map symplecticConjugate)[i]? with
    | none => rw [hr] at h; simp at h
    | some r =>
      rw [hr] at h
      simp only [Option.map_some, Option.getD_some, nth] at h
      refine ⟨r, hr, ?_⟩
      split at h
      · rename_i hc
        unfold quditOf
        split
        · rename_i hcn
          exact ⟨hcn, .inl h⟩
        · rename_i hcn
          refine ⟨by omega, .inr ?_⟩
          have e : (Fin.natAdd n ⟨c - n, by omega⟩ : Fin (n + n)) = ⟨c, hc⟩ := Fin.ext (by simp only [Fin.natAdd_mk]; omega)
          rw [zPart, e]
          exact h
      · exact absurd rfl h
  · intro B hB hlt
    refine ⟨?_, fun c => ?_⟩
    · rw [List.nodup_append]
      refine ⟨hB, hB.map (fun a b h => by simpa using h), ?_⟩
      intro a ha b hb
      obtain ⟨b', -, rfl⟩ := List.mem_map.1 hb
      have := hlt a ha
      omega
    · rw [List.mem_append, List.mem_map]
      unfold quditOf
      constructor
      · rintro (h | ⟨b, hb, rfl⟩)
        · have := hlt c h
          exact ⟨by omega, by rw [if_pos this]; exact h⟩
        · have := hlt b hb
          refine ⟨by omega, ?_⟩
          rw [if_neg (by omega), Nat.add_sub_cancel]
          exact hb
      · rintro ⟨h3, h4⟩
        split at h4
        · exact .inl h4
        · exact .inr ⟨c - n, h4, by omega⟩

/-! ### Weights -/

theorem gufPlace_get {bits : List ℕ} (hnd : bits.Nodup) (v : Fin bits.length → F) (j : Fin bits.length)
    (h : bits.get j < N) : gufPlace N bits v ⟨bits.get j, h⟩ = v j := by
  unfold gufPlace
  rw [if_pos (bits.get_mem j)]
  have : bits.idxOf (bits.get j) = j.val := by
    rw [List.get_eq_getElem]
    exact hnd.idxOf_getElem _ _
  simp only [this, nth, j.isLt, dite_true]

theorem weight_classical (B : List ℕ) (hB : B.Nodup) (hlt : ∀ j ∈ B, j < n)
    (v : Fin (sortDesc (id B)).length → F) : countNonzero v = hammingNorm (gufPlace n (sortDesc (id B)) v) := by
  rw [countNonzero_eq]
  have hnd : (sortDesc (id B)).Nodup := nodup_sortDesc.2 hB
  have hlt' : ∀ c ∈ sortDesc (id B), c < n := fun c hc => hlt c (mem_sortDesc.1 hc)
  generalize sortDesc (id B) = bits at *
  unfold hammingNorm
  refine Finset.card_bij (fun j _ => ⟨bits.get j, hlt' _ (bits.get_mem j)⟩) ?_ ?_ ?_
  · intro j hj
    rw [Finset.mem_filter] at hj ⊢
    exact ⟨Finset.mem_univ _, by rw [gufPlace_get hnd]; exact hj.2⟩
  · intro a _ b _ h
    exact List.nodup_iff_injective_get.1 hnd (Fin.mk.inj h)
  · intro c hc
    have hne := (Finset.mem_filter.1 hc).2
    obtain ⟨k, hk, hk'⟩ := List.getElem_of_mem (gufPlace_support v c hne)
    have hck : c = ⟨bits.get ⟨k, hk⟩, hlt' _ (bits.get_mem _)⟩ := Fin.ext (by simpa using hk'.symm)
    refine ⟨⟨k, hk⟩, ?_, hck.symm⟩
    rw [Finset.mem_filter]
    refine ⟨Finset.mem_univ _, ?_⟩
    rw [hck, gufPlace_get hnd] at hne
    exact hne

theorem sortDesc_pairwise (l : List ℕ) : (sortDesc l).Pairwise (fun a b => b ≤ a) := by
  exact List.pairwise_insertionSort (· ≥ ·) l

theorem sortDesc_expand (B : List ℕ) (hlt : ∀ j ∈ B, j < n) :
    sortDesc (B ++ B.map (· + n)) = (sortDesc B).map (· + n) ++ sortDesc B := by
  refine List.Perm.eq_of_pairwise (le := fun a b : ℕ => b ≤ a) (fun a b _ _ h1 h2 => by omega)
    (sortDesc_pairwise _) ?_ ?_
  · rw [List.pairwise_append, List.pairwise_map]
    refine ⟨(sortDesc_pairwise B).imp fun h => by omega, sortDesc_pairwise B, ?_⟩
    intro a ha b hb
    obtain ⟨a', -, rfl⟩ := List.mem_map.1 ha
    have := hlt b (mem_sortDesc.1 hb)
    omega
  · refine (List.perm_insertionSort _ _).trans (List.perm_append_comm.trans ?_)
    exact ((List.perm_insertionSort _ _).symm.map _).append (List.perm_insertionSort _ _).symm

theorem weight_symplectic (B : List ℕ) (hB : B.Nodup) (hlt : ∀ j ∈ B, j < n)
    (v : Fin (sortDesc (B ++ B.map (· + n))).length → F) :
    symplecticWeight v = sweight (gufPlace (n + n) (sortDesc (B ++ B.map (· + n))) v) := by
  have hset := sortDesc_expand B hlt
  have hS : (sortDesc B).Nodup := nodup_sortDesc.2 hB
  have hSlt : ∀ c ∈ sortDesc B, c < n := fun c hc => hlt c (mem_sortDesc.1 hc)
  generalize sortDesc (B ++ B.map (· + n)) = bits at *
  generalize sortDesc B = S at *
  subst hset
  have hnd : (S.map (· + n) ++ S).Nodup := by
    rw [List.nodup_append]
    refine ⟨hS.map (fun a b h => by simpa using h), hS, ?_⟩
    intro a ha b hb
    obtain ⟨a', -, rfl⟩ := List.mem_map.1 ha
    have := hSlt b hb
    omega
  have hlen : (S.map (· + n) ++ S).length = S.length + S.length := by simp
  have hm : (S.map (· + n) ++ S).length / 2 = S.length := by omega
  -- values
  have hz : ∀ (i : ℕ) (hi : i < S.length), zPart (gufPlace (n + n) (S.map (· + n) ++ S) v) ⟨S[i], hSlt _ (S.getElem_mem hi)⟩ =
      nth v i := by
    intro i hi
    have hi' : i < (S.map (· + n) ++ S).length := by omega
    have e : (S.map (· + n) ++ S).get ⟨i, hi'⟩ = S[i] + n := by
      rw [List.get_eq_getElem, List.getElem_append_left (by simpa using hi)]
      simp
    have hb : (S.map (· + n) ++ S).get ⟨i, hi'⟩ < n + n := by
      have := hSlt _ (S.getElem_mem hi)
      omega
    have h1 := gufPlace_get hnd v ⟨i, hi'⟩ hb
    unfold nth
    rw [dif_pos hi', ← h1, zPart]
    congr 1
    exact Fin.ext (by simp only [Fin.natAdd_mk, e]; omega)
  have hx : ∀ (i : ℕ) (hi : i < S.length), xPart (gufPlace (n + n) (S.map (· + n) ++ S) v) ⟨S[i], hSlt _ (S.getElem_mem hi)⟩ =
      nth v (i + S.length) := by
    intro i hi
    have hi' : i + S.length < (S.map (· + n) ++ S).length := by omega
    have e : (S.map (· + n) ++ S).get ⟨i + S.length, hi'⟩ = S[i] := by
      rw [List.get_eq_getElem, List.getElem_append_right (by simp)]
      simp
    have hb : (S.map (· + n) ++ S).get ⟨i + S.length, hi'⟩ < n + n := by
      have := hSlt _ (S.getElem_mem hi)
      omega
    have h1 := gufPlace_get hnd v ⟨i + S.length, hi'⟩ hb
    unfold nth
    rw [dif_pos hi', ← h1, xPart]
    congr 1
    exact Fin.ext (by simp only [Fin.castAdd_mk, e])
  unfold symplecticWeight sweight
  rw [hm]
  have hcard : ((List.range S.length).filter fun i => nth v i ≠ 0 ∨ nth v (i + S.length) ≠ 0).length =
      ((Finset.range S.length).filter fun i => nth v i ≠ 0 ∨ nth v (i + S.length) ≠ 0).card := by
    rw [← List.toFinset_card_of_nodup (List.nodup_range.filter _)]
    congr 1
    ext i
    simp
  rw [hcard]
  refine Finset.card_bij (fun i hi => ⟨S[i]'(by simpa using (Finset.mem_filter.1 hi).1),
    hSlt _ (S.getElem_mem _)⟩) ?_ ?_ ?_
  · intro i hi
    obtain ⟨hi1, hi2⟩ := Finset.mem_filter.1 hi
    have hi1 : i < S.length := Finset.mem_range.1 hi1
    rw [Finset.mem_filter]
    refine ⟨Finset.mem_univ _, ?_⟩
    rw [hx i hi1, hz i hi1]
    exact hi2.symm
  · intro a ha b hb h
    exact (List.Nodup.getElem_inj_iff hS).1 (Fin.mk.inj h)
  · intro c hc
    have hc := (Finset.mem_filter.1 hc).2
    have hmem : c.val ∈ S := by
      rcases hc with h | h
      · have := gufPlace_support v _ h
        rw [List.mem_append, List.mem_map] at this
        rcases this with ⟨b, -, hb⟩ | h
        · simp only [Fin.val_castAdd] at hb
          omega
        · exact h
      · have := gufPlace_support v _ h
        rw [List.mem_append, List.mem_map] at this
        rcases this with ⟨b, hb', hb⟩ | h
        · simp only [Fin.val_natAdd] at hb
          have : b = c.val := by omega
          rw [← this]
          exact hb'
        · have := hSlt _ h
          simp only [Fin.val_natAdd] at this
          omega
    obtain ⟨k, hk, hk'⟩ := List.getElem_of_mem hmem
    have hck : c = ⟨S[k], hSlt _ (S.getElem_mem hk)⟩ := Fin.ext hk'.symm
    refine ⟨k, ?_, hck.symm⟩
    rw [Finset.mem_filter, Finset.mem_range]
    refine ⟨hk, ?_⟩
    rw [hck, hx k hk, hz k hk] at hc
    exact hc.symm

end QLDPC
