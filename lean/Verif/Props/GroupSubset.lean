import Verif.Model.GroupBuild
import Mathlib.Algebra.Group.Basic
import Mathlib.Algebra.Group.TypeTags.Finite
import Mathlib.Data.List.Nodup
import Mathlib.Tactic.Ring
import Mathlib.Tactic.Linarith

/-!
# C41: random symmetric subsets

The members that `random` returns are an arbitrary list `draws`, the numbers that `randint` returns are an arbitrary
function `picks`, and `sorted` is an arbitrary function that permutes its argument.
-/

namespace QLDPC.Props

variable {G : Type} [Group G] [DecidableEq G]

/-- Specification: `s` is a symmetric set of group members. -/
structure IsSymSubset (size : ℕ) (excl : Bool) (s : List G) : Prop where
  nodup : s.Nodup
  length : s.length = size
  inv_mem : ∀ g ∈ s, g⁻¹ ∈ s
  no_identity : excl = true → (1 : G) ∉ s

theorem setAdd_nodup {s : List G} (h : s.Nodup) (g : G) : (setAdd s g).Nodup := by
  unfold setAdd
  split_ifs with hg
  · exact h
  · exact List.nodup_append.2 ⟨h, by simp, by
      rintro a ha b hb rfl
      simp only [List.mem_singleton] at hb
      exact hg (hb ▸ ha)⟩

theorem mem_setAdd {s : List G} {g x : G} : x ∈ setAdd s g ↔ x ∈ s ∨ x = g := by
  unfold setAdd
  split_ifs with hg
  · constructor
    · exact Or.inl
    · rintro (h | rfl)
      · exact h
      · exact hg
  · simp

theorem setAdd_length_le (s : List G) (g : G) :
    s.length ≤ (setAdd s g).length ∧ (setAdd s g).length ≤ s.length + 1 := by
  unfold setAdd
  split_ifs <;> simp

/-- The members found so far. -/
structure SubsetInv (excl : Bool) (singles doubles : List G) : Prop where
  snodup : singles.Nodup
  sinv : ∀ g ∈ singles, g = g⁻¹
  dnodup : doubles.Nodup
  dmem : ∀ g ∈ doubles, g⁻¹ ∈ doubles ∧ g ≠ g⁻¹
  one : excl = true → (1 : G) ∉ singles

theorem SubsetInv.union {excl : Bool} {s d : List G} (h : SubsetInv excl s d) :
    IsSymSubset (s.length + d.length) excl (s ++ d) := by
  refine ⟨List.nodup_append.2 ⟨h.snodup, h.dnodup, ?_⟩, by simp, ?_, ?_⟩
  · rintro a ha b hb rfl
    exact (h.dmem a hb).2 (h.sinv a ha)
  · intro g hg
    rcases List.mem_append.1 hg with hg | hg
    · exact List.mem_append_left _ (h.sinv g hg ▸ hg)
    · exact List.mem_append_right _ (h.dmem g hg).1
  · intro he hm
    rcases List.mem_append.1 hm with hm | hm
    · exact h.one he hm
    · exact (h.dmem 1 hm).2 (by simp)

theorem SubsetInv.add {excl : Bool} {s d : List G} (h : SubsetInv excl s d) {g : G} (hg : ¬ (excl = true ∧ g = 1)) :
    SubsetInv excl (if g = g⁻¹ then setAdd s g else s) (if g = g⁻¹ then d else setAdd (setAdd d g) g⁻¹) := by
  by_cases hi : g = g⁻¹
  · rw [if_pos hi, if_pos hi]
    refine ⟨setAdd_nodup h.snodup g, ?_, h.dnodup, h.dmem, ?_⟩
    · intro x hx
      rcases mem_setAdd.1 hx with hx | rfl
      · exact h.sinv x hx
      · exact hi
    · intro he hx
      rcases mem_setAdd.1 hx with hx | hx
      · exact h.one he hx
      · exact hg ⟨he, hx.symm⟩
  · rw [if_neg hi, if_neg hi]
    refine ⟨h.snodup, h.sinv, setAdd_nodup (setAdd_nodup h.dnodup g) _, ?_, h.one⟩
    intro x hx
    simp only [mem_setAdd] at hx ⊢
    rcases hx with (hx | rfl) | rfl
    · exact ⟨Or.inl (Or.inl (h.dmem x hx).1), (h.dmem x hx).2⟩
    · exact ⟨Or.inr rfl, hi⟩
    · rw [inv_inv]
      exact ⟨Or.inl (Or.inr rfl), fun e => hi e.symm⟩

theorem SubsetInv.drop {excl : Bool} {s d : List G} (h : SubsetInv excl s d) {g : G} (hg : g ∈ d) :
    SubsetInv excl s ((d.erase g).erase g⁻¹) ∧ ((d.erase g).erase g⁻¹).length + 2 = d.length := by
  have hne := (h.dmem g hg).2
  have hmem : g⁻¹ ∈ d.erase g := (List.mem_erase_of_ne (Ne.symm hne)).2 (h.dmem g hg).1
  refine ⟨⟨h.snodup, h.sinv, (h.dnodup.erase g).erase _, ?_, h.one⟩, ?_⟩
  · intro x hx
    rw [(h.dnodup.erase g).mem_erase_iff, h.dnodup.mem_erase_iff] at hx ⊢
    refine ⟨⟨fun e => hx.2.1 (inv_injective e), fun e => hx.1 (by rw [← e, inv_inv]), (h.dmem x hx.2.2).1⟩,
      (h.dmem x hx.2.2).2⟩
  · have h1 := List.length_erase_of_mem hmem
    have h2 := List.length_erase_of_mem hg
    have h3 := List.length_pos_of_mem hmem
    have h4 := List.length_pos_of_mem hg
    omega

theorem pick_mem {sort : List G → List G} (hsort : ∀ l, (sort l).Perm l) {l : List G} (hl : 0 < l.length) (k : ℕ) :
    ∃ g ∈ l, (sort l)[k % l.length]? = some g := by
  have hlt : k % l.length < (sort l).length := by rw [(hsort l).length_eq]; exact Nat.mod_lt _ hl
  exact ⟨_, (hsort l).mem_iff.1 (List.getElem_mem hlt), List.getElem?_eq_getElem hlt⟩

theorem dropPairs_spec {sort : List G → List G} (hsort : ∀ l, (sort l).Perm l) (picks : ℕ → ℕ) {excl : Bool}
    {s : List G} : ∀ (k : ℕ) (d : List G), SubsetInv excl s d → 2 * k ≤ d.length →
    ∃ r, dropPairs sort picks k d = .ok r ∧ SubsetInv excl s r ∧ r.length + 2 * k = d.length := by
  intro k
  induction k with
  | zero => exact fun d h _ => ⟨d, rfl, h, by omega⟩
  | succ k ih =>
    intro d h hk
    obtain ⟨g, hg, hp⟩ := pick_mem hsort (l := d) (by omega) (picks (k + 1))
    obtain ⟨hinv, hlen⟩ := h.drop hg
    obtain ⟨r, hr, hri, hrl⟩ := ih _ hinv (by omega)
    exact ⟨r, by simp only [dropPairs, hp, hr], hri, by omega⟩

/-- The result of the loop: it does not raise, and what it returns is a symmetric subset. -/
theorem symSubsetLoop_spec {sort : List G → List G} (hsort : ∀ l, (sort l).Perm l) {size : ℕ} (hsize : 0 < size)
    {excl : Bool} (picks : ℕ → ℕ) : ∀ (draws singles doubles : List G), SubsetInv excl singles doubles →
    (singles ≠ [] → singles.length + doubles.length < size) →
    ∃ r, symSubsetLoop sort size excl picks draws singles doubles = .ok r ∧
      ∀ s, r = some s → IsSymSubset size excl s := by
  intro draws
  induction draws with
  | nil => exact fun s d _ _ => ⟨none, rfl, by simp⟩
  | cons g draws ih =>
    intro s d h hlt
    unfold symSubsetLoop
    by_cases hg : excl = true ∧ g = 1
    · rw [if_pos hg]
      exact ih s d h hlt
    rw [if_neg hg]
    have hadd := h.add hg
    have hbound : (if g = g⁻¹ then setAdd s g else s) ≠ [] →
        (if g = g⁻¹ then setAdd s g else s).length + (if g = g⁻¹ then d else setAdd (setAdd d g) g⁻¹).length - size
          ≤ (if g = g⁻¹ then d else setAdd (setAdd d g) g⁻¹).length + 1 ∧
        2 * (((if g = g⁻¹ then setAdd s g else s).length +
          (if g = g⁻¹ then d else setAdd (setAdd d g) g⁻¹).length - size) / 2) ≤
          (if g = g⁻¹ then d else setAdd (setAdd d g) g⁻¹).length := by
      intro hne
      by_cases hi : g = g⁻¹
      · simp only [if_pos hi] at hne ⊢
        have hl := (setAdd_length_le s g).2
        by_cases hs : s = []
        · subst hs
          simp only [List.length_nil] at hl
          omega
        · have := hlt hs
          omega
      · simp only [if_neg hi] at hne ⊢
        have h1 := (setAdd_length_le d g).2
        have h2 := (setAdd_length_le (setAdd d g) g⁻¹).2
        have := hlt hne
        omega
    generalize (if g = g⁻¹ then setAdd s g else s) = s' at *
    generalize (if g = g⁻¹ then d else setAdd (setAdd d g) g⁻¹) = d' at *
    simp only
    by_cases he : s'.length + d'.length = size
    · rw [if_pos he]
      exact ⟨_, rfl, fun t ht => by obtain rfl := Option.some.inj ht; exact he ▸ hadd.union⟩
    rw [if_neg he]
    by_cases ho : size < s'.length + d'.length ∧ 0 < s'.length
    · rw [if_pos ho]
      obtain ⟨hb1, hb2⟩ := hbound (List.ne_nil_of_length_pos ho.2)
      obtain ⟨r, hr, hri, hrl⟩ := dropPairs_spec hsort picks _ d' hadd hb2
      rw [hr]
      simp only [Except.bind]
      by_cases hodd : (s'.length + d'.length - size) % 2 = 1
      · rw [if_pos hodd]
        obtain ⟨x, hx, hp⟩ := pick_mem hsort (l := s') ho.2 (picks 0)
        rw [hp]
        refine ⟨_, rfl, fun t ht => ?_⟩
        obtain rfl := Option.some.inj ht
        have hi : SubsetInv excl (s'.erase x) r :=
          ⟨hri.snodup.erase x, fun y hy => hri.sinv y (List.mem_of_mem_erase hy), hri.dnodup, hri.dmem,
            fun e hm => hri.one e (List.mem_of_mem_erase hm)⟩
        have hl := List.length_erase_of_mem hx
        have : size = (s'.erase x).length + r.length := by omega
        exact this ▸ hi.union
      · rw [if_neg hodd]
        refine ⟨_, rfl, fun t ht => ?_⟩
        obtain rfl := Option.some.inj ht
        have : size = s'.length + r.length := by omega
        exact this ▸ hri.union
    · rw [if_neg ho]
      refine ih s' d' hadd fun hne => ?_
      have := List.length_pos_of_ne_nil hne
      omega

/-- C41: what `random_symmetric_subset` returns is a symmetric set of exactly the requested size, without the identity
if asked, whatever the random numbers are. -/
theorem C41_symmetric_subset {sort : List G → List G} (hsort : ∀ l, (sort l).Perm l) (order size : ℕ) (excl : Bool)
    (draws : List G) (picks : ℕ → ℕ) {s : List G}
    (h : symSubset sort order size excl draws picks = .ok (some s)) : IsSymSubset size excl s := by
  unfold symSubset at h
  split_ifs at h with hs
  obtain ⟨r, hr, hspec⟩ := symSubsetLoop_spec hsort hs.1 (excl := excl) picks draws [] []
    ⟨by simp, by simp, by simp, by simp, by simp⟩ (by simp)
  rw [hr] at h
  exact hspec s (Except.ok.inj h)

/-- C41: it raises if and only if the size is not between 1 and the order of the group; throwing away extra members
never fails. -/
theorem C41_raises_iff {sort : List G → List G} (hsort : ∀ l, (sort l).Perm l) (order size : ℕ) (excl : Bool)
    (draws : List G) (picks : ℕ → ℕ) :
    (∃ e, symSubset sort order size excl draws picks = .error e) ↔ size = 0 ∨ order < size := by
  unfold symSubset
  split_ifs with hs
  · obtain ⟨r, hr, -⟩ := symSubsetLoop_spec hsort hs.1 (excl := excl) picks draws [] []
      ⟨by simp, by simp, by simp, by simp, by simp⟩ (by simp)
    rw [hr]
    simp only [reduceCtorEq, exists_false, false_iff]
    omega
  · simp only [Except.error.injEq, exists_eq', true_iff]
    omega

theorem SubsetInv.even {excl : Bool} {s : List G} : ∀ (k : ℕ) (d : List G), d.length ≤ k → SubsetInv excl s d →
    d.length % 2 = 0 := by
  intro k
  induction k with
  | zero => intro d hk _; omega
  | succ k ih =>
    intro d hk h
    match d, h, hk with
    | [], _, _ => rfl
    | g :: d, h, hk =>
      obtain ⟨h1, h2⟩ := h.drop (g := g) List.mem_cons_self
      have := ih _ (by omega) h1
      omega

/-- What holds when the draws run out without a result. -/
theorem symSubsetLoop_none {sort : List G → List G} {size : ℕ} {excl : Bool} {picks : ℕ → ℕ} :
    ∀ (draws singles doubles : List G), SubsetInv excl singles doubles →
    (singles ≠ [] → singles.length + doubles.length < size) →
    (size % 2 = 0 → doubles.length < size) →
    symSubsetLoop sort size excl picks draws singles doubles = .ok none →
    ∃ s d, SubsetInv excl s d ∧ (s ≠ [] → s.length + d.length < size) ∧ (size % 2 = 0 → d.length < size) ∧
      (∀ g ∈ singles ++ doubles, g ∈ s ++ d) ∧ (∀ g ∈ draws, ¬ (excl = true ∧ g = 1) → g ∈ s ++ d) := by
  intro draws
  induction draws with
  | nil => exact fun s d h1 h2 h3 _ => ⟨s, d, h1, h2, h3, fun _ h => h, by simp⟩
  | cons g draws ih =>
    intro s d h1 h2 h3 h
    unfold symSubsetLoop at h
    by_cases hg : excl = true ∧ g = 1
    · rw [if_pos hg] at h
      obtain ⟨s', d', k1, k2, k3, k4, k5⟩ := ih s d h1 h2 h3 h
      refine ⟨s', d', k1, k2, k3, k4, ?_⟩
      intro x hx hne
      rcases List.mem_cons.1 hx with rfl | hx
      · exact absurd hg hne
      · exact k5 x hx hne
    · rw [if_neg hg] at h
      have hadd := h1.add hg
      have hsub : ∀ x, x ∈ s ++ d ∨ x = g → x ∈ (if g = g⁻¹ then setAdd s g else s) ++
          (if g = g⁻¹ then d else setAdd (setAdd d g) g⁻¹) := by
        intro x hx
        by_cases hi : g = g⁻¹
        · simp only [if_pos hi, List.mem_append, mem_setAdd] at hx ⊢
          tauto
        · simp only [if_neg hi, List.mem_append, mem_setAdd] at hx ⊢
          tauto
      have hlen : (if g = g⁻¹ then d else setAdd (setAdd d g) g⁻¹).length ≤ d.length + 2 := by
        split_ifs
        · omega
        · have h1 := (setAdd_length_le d g).2
          have h2 := (setAdd_length_le (setAdd d g) g⁻¹).2
          omega
      generalize (if g = g⁻¹ then setAdd s g else s) = s' at *
      generalize (if g = g⁻¹ then d else setAdd (setAdd d g) g⁻¹) = d' at *
      simp only at h
      by_cases e1 : s'.length + d'.length = size
      · rw [if_pos e1] at h
        simp at h
      rw [if_neg e1] at h
      by_cases e2 : size < s'.length + d'.length ∧ 0 < s'.length
      · exfalso
        rw [if_pos e2] at h
        revert h
        cases dropPairs sort picks ((s'.length + d'.length - size) / 2) d' with
        | error e => simp [Except.bind]
        | ok r =>
          simp only [Except.bind]
          split_ifs
          · cases (sort s')[picks 0 % s'.length]? <;> simp
          · simp
      rw [if_neg e2] at h
      have heven := SubsetInv.even _ d le_rfl h1
      have heven' := SubsetInv.even _ d' le_rfl hadd
      obtain ⟨t, r, k1, k2, k3, k4, k5⟩ := ih s' d' hadd
        (fun hne => by have := List.length_pos_of_ne_nil hne; omega) (fun hsz => by have := h3 hsz; omega) h
      refine ⟨t, r, k1, k2, k3, fun x hx => k4 x (hsub x (Or.inl hx)), fun x hx hne => ?_⟩
      rcases List.mem_cons.1 hx with rfl | hx
      · exact k4 x (hsub x (Or.inr rfl))
      · exact k5 x hx hne

/-- C41: if the group has a symmetric subset of the requested kind, the method returns as soon as every member of the
group has been drawn. -/
theorem C41_returns {sort : List G → List G} (hsort : ∀ l, (sort l).Perm l) {order size : ℕ} {excl : Bool}
    {draws : List G} (picks : ℕ → ℕ) (h0 : 0 < size) (h1 : size ≤ order) (hdraws : ∀ g : G, g ∈ draws)
    {t : List G} (ht : IsSymSubset size excl t) :
    ∃ s, symSubset sort order size excl draws picks = .ok (some s) := by
  have hinv : SubsetInv excl ([] : List G) [] := ⟨by simp, by simp, by simp, by simp, by simp⟩
  obtain ⟨r, hr, -⟩ := symSubsetLoop_spec hsort h0 (excl := excl) picks draws [] [] hinv (by simp)
  cases r with
  | some s => exact ⟨s, by rw [symSubset, if_neg (by simp [h0, h1]), hr]⟩
  | none =>
    exfalso
    obtain ⟨s, d, k1, k2, k3, -, k5⟩ := symSubsetLoop_none draws [] [] hinv (by simp) (by simp [h0]) hr
    have hsub : t ⊆ s ++ d := fun x hx => k5 x (hdraws x) fun hc => ht.no_identity hc.1 (hc.2 ▸ hx)
    have hle := (ht.nodup.subperm hsub).length_le
    rw [ht.length, List.length_append] at hle
    cases s with
    | cons x s =>
      have := k2 (by simp)
      omega
    | nil =>
      have hti : SubsetInv excl ([] : List G) t := ⟨by simp, by simp, ht.nodup,
        fun x hx => ⟨ht.inv_mem x hx, (k1.dmem x (by simpa using hsub hx)).2⟩, by simp⟩
      have heven := SubsetInv.even _ t le_rfl hti
      rw [ht.length] at heven
      have := k3 heven
      simp only [List.length_nil] at hle
      omega

/-- C41: it returns nothing if no such subset exists, however long it draws. -/
theorem C41_never_returns {sort : List G → List G} (hsort : ∀ l, (sort l).Perm l) {order size : ℕ} {excl : Bool}
    (hno : ∀ t : List G, ¬ IsSymSubset size excl t) (h0 : 0 < size) (h1 : size ≤ order) (draws : List G)
    (picks : ℕ → ℕ) : symSubset sort order size excl draws picks = .ok none := by
  cases hr : symSubset sort order size excl draws picks with
  | error e =>
    have := (C41_raises_iff hsort order size excl draws picks).1 ⟨e, hr⟩
    omega
  | ok r =>
    cases r with
    | none => rfl
    | some s => exact absurd (C41_symmetric_subset hsort _ _ _ _ _ hr) (hno s)

/-! ### `SmallGroup.random` -/

/-- `random` of a `SmallGroup` with `index = 1` always returns the identity (`/repo/qldpc/abstract.py:1254-1256`), so
that with `exclude_identity` the method never returns, though a subset may exist. -/
theorem C41_small_group_disagreement {sort : List G → List G} {order size : ℕ}
    (h0 : 0 < size) (h1 : size ≤ order) (draws : List G) (picks : ℕ → ℕ) :
    symSubset sort order size true (draws.map (smallGroupRandom 1)) picks = .ok none := by
  have key : ∀ (s d : List G), symSubsetLoop sort size true picks (draws.map (smallGroupRandom 1)) s d = .ok none := by
    induction draws with
    | nil => exact fun _ _ => rfl
    | cons g draws ih =>
      intro s d
      rw [List.map_cons]
      unfold symSubsetLoop
      rw [if_pos ⟨rfl, by simp [smallGroupRandom]⟩]
      exact ih s d
  rw [symSubset, if_neg (by simp [h0, h1])]
  exact key [] []

/-! ### Cases that meet the hypotheses -/

/-- The cyclic group of order 6, written multiplicatively. -/
abbrev Z6 := Multiplicative (ZMod 6)

/-- The member `g ^ k`. -/
def z6 (k : ZMod 6) : Z6 := Multiplicative.ofAdd k

/-- `symSubset` overshoots and throws away a member and a pair. -/
example : symSubset (G := Z6) List.reverse 6 3 true [z6 0, z6 1, z6 2, z6 3] (fun _ => 5) =
    .ok (some [z6 3, z6 1, z6 5]) := by decide +kernel

/-- Overshooting with an odd size: the pair is thrown away. -/
example : symSubset (G := Z6) List.reverse 6 1 true [z6 1, z6 2, z6 3] (fun _ => 5) =
    .ok (some [z6 3]) := by decide +kernel

example : IsSymSubset 3 true [z6 3, z6 1, z6 5] := ⟨by decide, rfl, by decide, by decide⟩

example : ∀ l : List Z6, l.reverse.Perm l := List.reverse_perm

/-- A group of odd order has no symmetric subset of odd size without the identity. -/
example : ∀ t : List (Multiplicative (ZMod 3)), ¬ IsSymSubset 1 true t := by
  intro t ht
  obtain ⟨x, rfl⟩ := List.length_eq_one_iff.1 ht.length
  have h1 := ht.inv_mem x (by simp)
  have h2 := ht.no_identity rfl
  clear ht
  revert h1 h2
  revert x
  decide

/-- The subset that `C41_small_group_disagreement` misses. -/
example : IsSymSubset 1 true [Multiplicative.ofAdd (1 : ZMod 2)] := ⟨by decide, rfl, by decide, by decide⟩

#print axioms C41_symmetric_subset
#print axioms C41_raises_iff
#print axioms C41_returns
#print axioms C41_never_returns
#print axioms C41_small_group_disagreement

/-! ### Instances of the theorems: concrete cases meet the hypotheses -/

example := C41_symmetric_subset (G := Z6) (sort := List.reverse) List.reverse_perm 6 3 true [z6 0, z6 1, z6 2, z6 3] (fun _ => 5)
  (s := [z6 3, z6 1, z6 5]) (by decide +kernel)
example := C41_raises_iff (G := Z6) (sort := List.reverse) List.reverse_perm 6 3 true [z6 0, z6 1, z6 2, z6 3] (fun _ => 5)
example := C41_returns (G := Z6) (sort := List.reverse) List.reverse_perm (order := 6) (draws := [z6 0, z6 1, z6 2, z6 3, z6 4, z6 5]) (fun _ => 5)
  (by decide) (by decide) (by decide) (t := [z6 3, z6 1, z6 5]) (size := 3) (excl := true) ⟨by decide, rfl, by decide, by decide⟩

private theorem z3_no_subset : ∀ t : List (Multiplicative (ZMod 3)), ¬ IsSymSubset 1 true t := by
  intro t ht
  obtain ⟨x, rfl⟩ := List.length_eq_one_iff.1 ht.length
  have h1 := ht.inv_mem x (by simp)
  have h2 := ht.no_identity rfl
  clear ht
  revert h1 h2
  revert x
  decide
example := C41_never_returns (sort := List.reverse) List.reverse_perm (order := 3) z3_no_subset (by decide) (by decide) [Multiplicative.ofAdd 1] (fun _ => 0)

end QLDPC.Props
