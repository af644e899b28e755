import Verif.Model.Decoders
import Verif.Lemmas.Classical
import Verif.Lemmas.Symplectic

/-! # Lemmas on the lookup decoder -/

namespace QLDPC

open Spec

set_option linter.unusedSectionVars false

variable {F : Type} [Field F] [DecidableEq F] {n N : ℕ}

theorem mem_combinations {α : Type} (l : List α) (k : ℕ) (s : List α) :
    s ∈ combinations l k ↔ s.Sublist l ∧ s.length = k := by
  induction l generalizing k s with
  | nil =>
    cases k with
    | zero =>
      simp only [combinations, List.mem_singleton, List.sublist_nil]
      exact ⟨fun h => ⟨h, by simp [h]⟩, fun h => h.1⟩
    | succ k =>
      simp only [combinations, List.not_mem_nil, List.sublist_nil, false_iff]
      rintro ⟨rfl, h⟩
      simp at h
  | cons x l ih =>
    cases k with
    | zero =>
      simp only [combinations, List.mem_singleton, List.length_eq_zero_iff]
      exact ⟨fun h => ⟨by simp [h], h⟩, fun h => h.2⟩
    | succ k =>
      simp only [combinations, List.mem_append, List.mem_map, ih]
      constructor
      · rintro (⟨t, ⟨h1, h2⟩, rfl⟩ | ⟨h1, h2⟩)
        · exact ⟨h1.cons_cons x, by simp [h2]⟩
        · exact ⟨h1.cons x, h2⟩
      · rintro ⟨h1, h2⟩
        cases h1 with
        | cons _ h => exact .inr ⟨h, h2⟩
        | cons_cons _ h => exact .inl ⟨_, ⟨h, by simpa using h2⟩, rfl⟩

theorem find_map_pair {α β : Type} [DecidableEq α] (f : α → β) (l : List α) (j : α) :
    (l.map fun a => (a, f a)).find? (fun e => e.1 = j) = if j ∈ l then some (j, f j) else none := by
  induction l with
  | nil => simp
  | cons a l ih =>
    rw [List.map_cons, List.find?_cons]
    by_cases h : a = j
    · subst h; simp
    · simp only [h, decide_false, ih, List.mem_cons, Ne.symm h, false_or]

theorem zip_map_self {α β : Type} (f : α → β) (l : List α) : l.zip (l.map f) = l.map fun a => (a, f a) := by
  induction l with
  | nil => rfl
  | cons a l ih => simp [ih]

theorem errorRow_map (f : Fin n → List F) (sites : List (Fin n)) (p : ℕ) (j : Fin n) :
    errorRow sites (sites.map f) p j = if j ∈ sites then (f j).getD p 0 else 0 := by
  unfold errorRow
  rw [zip_map_self, find_map_pair]
  split <;> simp

theorem exists_map {α β : Type} [DecidableEq α] [Inhabited β] {l : List α} (hl : l.Nodup) {r : List β}
    (h : r.length = l.length) : ∃ f : α → β, r = l.map f := by
  induction l generalizing r with
  | nil => exact ⟨fun _ => default, by simpa using h⟩
  | cons a l ih =>
    cases r with
    | nil => simp at h
    | cons b r =>
      obtain ⟨f, hf⟩ := ih (List.nodup_cons.1 hl).2 (by simpa using h)
      refine ⟨fun x => if x = a then b else f x, ?_⟩
      rw [List.map_cons, if_pos rfl, hf]
      congr 1
      refine List.map_congr_left fun x hx => ?_
      rw [if_neg]
      rintro rfl
      exact (List.nodup_cons.1 hl).1 hx

/-- The result of the lookup. -/
theorem lookupGet_spec {W : (Fin N → F) → ℕ} {localErrors : List (List F)}
    {place : List (Fin n) → List (List F) → Fin N → F} {H : Rows F N} {maxWeight : ℕ}
    (hw : ∀ w sites errors, sites ∈ combinations (List.finRange n) w → errors ∈ productRepeat localErrors w →
      W (place sites errors) = w)
    (hall : ∀ e, ∃ sites ∈ combinations (List.finRange n) (W e), ∃ errors ∈ productRepeat localErrors (W e),
      place sites errors = e) (s : List F) :
    ((∃ e, 1 ≤ W e ∧ W e ≤ maxWeight ∧ matVec H e = s) →
      ∃ r, lookupGet (lookupWrites n localErrors place H maxWeight) s = r ∧ matVec H r = s ∧ 1 ≤ W r ∧
        W r ≤ maxWeight ∧ ∀ e, 1 ≤ W e → W e ≤ maxWeight → matVec H e = s → W r ≤ W e) ∧
    ((¬ ∃ e, 1 ≤ W e ∧ W e ≤ maxWeight ∧ matVec H e = s) →
      lookupGet (lookupWrites n localErrors place H maxWeight) s = 0) := by
  set L := lookupWrites n localErrors place H maxWeight with hL
  have hmem : ∀ x, x ∈ L ↔ 1 ≤ W x.2 ∧ W x.2 ≤ maxWeight ∧ x.1 = matVec H x.2 := by
    intro x
    simp only [hL, lookupWrites, List.mem_flatMap, List.mem_map, List.mem_reverse, List.mem_range]
    constructor
    · rintro ⟨w, ⟨w', hw', rfl⟩, sites, hs, errors, he, rfl⟩
      have := hw _ _ _ hs he
      simp only [this]
      exact ⟨by omega, by omega, trivial⟩
    · rintro ⟨h1, h2, h3⟩
      obtain ⟨sites, hs, errors, he, hp⟩ := hall x.2
      refine ⟨W x.2, ⟨W x.2 - 1, by omega, by omega⟩, sites, hs, errors, he, ?_⟩
      rw [hp, ← h3]
  have hpair : L.Pairwise fun a b => W b.2 ≤ W a.2 := by
    rw [hL, lookupWrites, List.pairwise_flatMap]
    constructor
    · intro w _
      rw [List.pairwise_flatMap]
      constructor
      · intro sites hs
        rw [List.pairwise_map]
        exact List.pairwise_of_forall_mem_list fun a ha b hb => by rw [hw _ _ _ hs ha, hw _ _ _ hs hb]
      · refine List.pairwise_of_forall_mem_list fun s hs t ht x hx y hy => ?_
        obtain ⟨a, ha, rfl⟩ := List.mem_map.1 hx
        obtain ⟨b, hb, rfl⟩ := List.mem_map.1 hy
        rw [hw _ _ _ hs ha, hw _ _ _ ht hb]
    · rw [List.pairwise_map, List.pairwise_reverse]
      refine List.pairwise_lt_range.imp fun {a b} hab x hx y hy => ?_
      obtain ⟨s, hs, hx⟩ := List.mem_flatMap.1 hx
      obtain ⟨e, he, rfl⟩ := List.mem_map.1 hx
      obtain ⟨t, ht, hy⟩ := List.mem_flatMap.1 hy
      obtain ⟨f, hf, rfl⟩ := List.mem_map.1 hy
      rw [hw _ _ _ hs he, hw _ _ _ ht hf]
      omega
  unfold lookupGet
  constructor
  · rintro ⟨e, h1, h2, h3⟩
    have hsome : (L.reverse.find? fun w => w.1 = s).isSome := by
      rw [List.find?_isSome]
      exact ⟨(s, e), List.mem_reverse.2 ((hmem _).2 ⟨h1, h2, h3.symm⟩), by simp⟩
    obtain ⟨x, hx⟩ := Option.isSome_iff_exists.1 hsome
    rw [hx]
    obtain ⟨hxs, as, bs, hsplit, has⟩ := List.find?_eq_some_iff_append.1 hx
    have hxs : x.1 = s := by simpa using hxs
    have hxL : x ∈ L := by
      rw [← List.mem_reverse, hsplit]
      simp
    obtain ⟨a1, a2, a3⟩ := (hmem x).1 hxL
    refine ⟨x.2, rfl, by rw [← a3, hxs], a1, a2, fun e' b1 b2 b3 => ?_⟩
    have hmem' : (s, e') ∈ L.reverse := List.mem_reverse.2 ((hmem _).2 ⟨b1, b2, b3.symm⟩)
    rw [hsplit, List.mem_append, List.mem_cons] at hmem'
    have hpr := List.pairwise_reverse.2 hpair
    rw [hsplit, List.pairwise_append, List.pairwise_cons] at hpr
    rcases hmem' with h | h | h
    · have := has _ h
      simp at this
    · rw [← h]
    · exact hpr.2.1.1 _ h
  · intro hno
    have hnone : (L.reverse.find? fun w => w.1 = s) = none := by
      rw [List.find?_eq_none]
      intro x hx
      obtain ⟨a1, a2, a3⟩ := (hmem x).1 (List.mem_reverse.1 hx)
      simp only [decide_eq_true_eq]
      intro h
      exact hno ⟨x.2, a1, a2, by rw [← a3, h]⟩
    rw [hnone]
    rfl

/-! ### The two kinds of errors -/

theorem mem_localErrors {els : List F} (hnd : (0 :: els).Nodup) (hall : ∀ x : F, x ∈ 0 :: els) (k : ℕ) (v : List F) :
    v ∈ (productRepeat (0 :: els) k).tail ↔ v.length = k ∧ v ≠ List.replicate k 0 := by
  obtain ⟨l, hl⟩ := productRepeat_head (0 : F) els k
  have hn := nodup_productRepeat _ hnd k
  have hm := mem_productRepeat (0 :: els) k v
  rw [hl] at hn hm ⊢
  rw [List.tail_cons]
  rw [List.mem_cons] at hm
  constructor
  · intro h
    refine ⟨(hm.1 (.inr h)).1, ?_⟩
    rintro rfl
    exact (List.nodup_cons.1 hn).1 h
  · rintro ⟨h1, h2⟩
    exact (hm.2 ⟨h1, fun x _ => hall x⟩).resolve_left h2

variable {els : List F}

theorem filter_card_eq {s : List (Fin n)} (hs : s.Sublist (List.finRange n)) (p : Fin n → Prop) [DecidablePred p]
    (h : ∀ j, p j ↔ j ∈ s) : (Finset.univ.filter p).card = s.length := by
  have hnd : s.Nodup := hs.nodup (List.nodup_finRange n)
  rw [← List.toFinset_card_of_nodup hnd]
  congr 1
  ext j
  simp [h]

theorem filter_sublist_card (p : Fin n → Prop) [DecidablePred p] :
    ((List.finRange n).filter fun j => p j).length = (Finset.univ.filter p).card :=
  (filter_card_eq List.filter_sublist p (by simp)).symm

theorem lookupDecode_spec (hnd : (0 :: els).Nodup) (hall : ∀ x : F, x ∈ 0 :: els) (H : Rows F n) (maxWeight : ℕ)
    (s : List F) :
    ((∃ e, 1 ≤ hammingNorm e ∧ hammingNorm e ≤ maxWeight ∧ matVec H e = s) →
      ∃ r, lookupDecode (0 :: els) H maxWeight s = r ∧ matVec H r = s ∧ 1 ≤ hammingNorm r ∧
        hammingNorm r ≤ maxWeight ∧
        ∀ e, 1 ≤ hammingNorm e → hammingNorm e ≤ maxWeight → matVec H e = s → hammingNorm r ≤ hammingNorm e) ∧
    ((¬ ∃ e, 1 ≤ hammingNorm e ∧ hammingNorm e ≤ maxWeight ∧ matVec H e = s) →
      lookupDecode (0 :: els) H maxWeight s = 0) := by
  refine lookupGet_spec (W := hammingNorm) ?_ ?_ s
  · intro w sites errors hs he
    obtain ⟨hsub, hlen⟩ := (mem_combinations _ _ _).1 hs
    obtain ⟨helen, hemem⟩ := (mem_productRepeat _ _ _).1 he
    obtain ⟨f, rfl⟩ := exists_map (hsub.nodup (List.nodup_finRange n)) (helen.trans hlen.symm)
    rw [hammingNorm, ← hlen]
    refine filter_card_eq hsub _ fun j => ?_
    rw [errorRow_map]
    split
    · rename_i hj
      simp only [hj, iff_true]
      obtain ⟨h1, h2⟩ := (mem_localErrors hnd hall 1 _).1 (hemem _ (List.mem_map.2 ⟨j, hj, rfl⟩))
      obtain ⟨x, hx⟩ := List.length_eq_one_iff.1 h1
      rw [hx] at h2 ⊢
      simpa using h2
    · rename_i hj
      simp [hj]
  · intro e
    refine ⟨(List.finRange n).filter fun j => e j ≠ 0, ?_, ((List.finRange n).filter fun j => e j ≠ 0).map
      fun j => [e j], ?_, ?_⟩
    · rw [mem_combinations]
      exact ⟨List.filter_sublist, filter_sublist_card _⟩
    · rw [mem_productRepeat]
      refine ⟨by rw [List.length_map, filter_sublist_card]; rfl, fun x hx => ?_⟩
      obtain ⟨j, hj, rfl⟩ := List.mem_map.1 hx
      rw [mem_localErrors hnd hall]
      simpa using hj
    · funext j
      rw [errorRow_map]
      split
      · simp
      · rename_i hj
        have hj : ¬ (e j ≠ 0) := by simpa using hj
        push Not at hj
        exact hj.symm

theorem lookupDecodeQ_spec (hnd : (0 :: els).Nodup) (hall : ∀ x : F, x ∈ 0 :: els) (M : Rows F (n + n))
    (maxWeight : ℕ) (s : List F) :
    ((∃ e, 1 ≤ sweight e ∧ sweight e ≤ maxWeight ∧ matVec (M.map symplecticConjugate) e = s) →
      ∃ r, lookupDecodeQ (0 :: els) M maxWeight s = r ∧ matVec (M.map symplecticConjugate) r = s ∧ 1 ≤ sweight r ∧
        sweight r ≤ maxWeight ∧ ∀ e, 1 ≤ sweight e → sweight e ≤ maxWeight →
          matVec (M.map symplecticConjugate) e = s → sweight r ≤ sweight e) ∧
    ((¬ ∃ e, 1 ≤ sweight e ∧ sweight e ≤ maxWeight ∧ matVec (M.map symplecticConjugate) e = s) →
      lookupDecodeQ (0 :: els) M maxWeight s = 0) := by
  refine lookupGet_spec (W := sweight) ?_ ?_ s
  · intro w sites errors hs he
    obtain ⟨hsub, hlen⟩ := (mem_combinations _ _ _).1 hs
    obtain ⟨helen, hemem⟩ := (mem_productRepeat _ _ _).1 he
    obtain ⟨f, rfl⟩ := exists_map (hsub.nodup (List.nodup_finRange n)) (helen.trans hlen.symm)
    rw [sweight, ← hlen]
    refine filter_card_eq hsub _ fun j => ?_
    simp only [xPart, zPart, Fin.append_left, Fin.append_right]
    rw [errorRow_map, errorRow_map]
    split
    · rename_i hj
      simp only [hj, iff_true]
      obtain ⟨h1, h2⟩ := (mem_localErrors hnd hall 2 _).1 (hemem _ (List.mem_map.2 ⟨j, hj, rfl⟩))
      obtain ⟨x, y, hx⟩ := List.length_eq_two.1 h1
      rw [hx] at h2 ⊢
      by_cases hx0 : x = 0
      · right
        intro hy
        apply h2
        simp at hy
        simp [hx0, hy]
      · left
        simpa using hx0
    · rename_i hj
      simp [hj]
  · intro e
    refine ⟨(List.finRange n).filter fun j => xPart e j ≠ 0 ∨ zPart e j ≠ 0, ?_,
      ((List.finRange n).filter fun j => xPart e j ≠ 0 ∨ zPart e j ≠ 0).map fun j => [xPart e j, zPart e j], ?_, ?_⟩
    · rw [mem_combinations]
      exact ⟨List.filter_sublist, filter_sublist_card _⟩
    · rw [mem_productRepeat]
      refine ⟨by rw [List.length_map, filter_sublist_card]; rfl, fun x hx => ?_⟩
      obtain ⟨j, hj, rfl⟩ := List.mem_map.1 hx
      rw [mem_localErrors hnd hall]
      refine ⟨rfl, fun h => ?_⟩
      have hj : xPart e j ≠ 0 ∨ zPart e j ≠ 0 := by simpa using hj
      simp [List.replicate] at h
      rcases hj with hj | hj
      · exact hj h.1
      · exact hj h.2
    · funext j
      refine Fin.addCases (fun j => ?_) (fun j => ?_) j
      · rw [Fin.append_left, errorRow_map]
        split
        · simp [xPart]
        · rename_i hj
          have hj : ¬ (xPart e j ≠ 0 ∨ zPart e j ≠ 0) := by simpa using hj
          push Not at hj
          exact hj.1.symm
      · rw [Fin.append_right, errorRow_map]
        split
        · simp [zPart]
        · rename_i hj
          have hj : ¬ (xPart e j ≠ 0 ∨ zPart e j ≠ 0) := by simpa using hj
          push Not at hj
          exact hj.2.symm

end QLDPC
