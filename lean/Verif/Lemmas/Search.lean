import Verif.Lemmas.Packing
import Mathlib.Algebra.Group.Basic
import Mathlib.Data.List.Basic
import Mathlib.Tactic.Abel

set_option linter.unusedSectionVars false

namespace QLDPC

/-! ## The Gray-code walk in an abelian group of exponent two -/

section Walk
variable {V : Type} [AddCommGroup V]

/-- successive partial sums -/
def visited (o : V) : List V → List V
  | [] => []
  | t :: T => (o + t) :: visited (o + t) T

theorem visited_append (o : V) (T T' : List V) :
    visited o (T ++ T') = visited o T ++ visited (o + T.sum) T' := by
  induction T generalizing o with
  | nil => simp [visited]
  | cons t T ih => simp [visited, ih, add_assoc]

theorem mem_visited_shift (o s x : V) (T : List V) :
    x ∈ visited (o + s) T ↔ x - s ∈ visited o T := by
  induction T generalizing o with
  | nil => simp [visited]
  | cons t T ih =>
    have : o + s + t = o + t + s := by abel
    simp only [visited, List.mem_cons, this, ih, sub_eq_iff_eq_add]

theorem last_visited (o : V) (T : List V) : o + T.sum ∈ o :: visited o T := by
  induction T generalizing o with
  | nil => simp
  | cons t T ih =>
    have := ih (o + t)
    rw [List.sum_cons, ← add_assoc]
    simp only [visited, List.mem_cons] at this ⊢
    tauto

/-- operators applied in turn by a walk over `S` -/
def seq {α : Type} (S : List α) : List α :=
  ((List.range' 1 (2 ^ S.length - 1)).map countTrailingZeros).filterMap (S[·]?)

theorem filterMap_getElem_append {α : Type} (S : List α) (g : α) (l : List ℕ)
    (h : ∀ i ∈ l, i < S.length) :
    l.filterMap ((S ++ [g])[·]?) = l.filterMap (S[·]?) := by
  apply List.filterMap_congr
  intro i hi
  rw [List.getElem?_append_left (h i hi)]

theorem ctz_mem_lt (k : ℕ) : ∀ i ∈ (List.range' 1 (2 ^ k - 1)).map countTrailingZeros, i < k := by
  intro i hi
  obtain ⟨j, hj, rfl⟩ := List.mem_map.1 hi
  rw [List.mem_range'_1] at hj
  exact ctz_lt k j (by omega) (by omega)

theorem seq_nil {α : Type} : seq ([] : List α) = [] := by simp [seq]

theorem seq_concat {α : Type} (S : List α) (g : α) : seq (S ++ [g]) = seq S ++ [g] ++ seq S := by
  have h := ctz_mem_lt S.length
  unfold seq
  rw [List.length_append, List.length_singleton, range_ctz_succ, List.filterMap_append,
    List.filterMap_append, filterMap_getElem_append S g _ h]
  simp

theorem seq_map {α β : Type} (f : α → β) (S : List α) : seq (S.map f) = (seq S).map f := by
  unfold seq
  rw [List.length_map, List.map_filterMap]
  apply List.filterMap_congr
  intro i _
  simp

/-- sums of sublists -/
def IsSubSum (S : List V) (x : V) : Prop := ∃ t : List V, t.Sublist S ∧ x = t.sum

theorem IsSubSum.zero (S : List V) : IsSubSum S 0 := ⟨[], List.nil_sublist _, by simp⟩

theorem isSubSum_nil (x : V) : IsSubSum ([] : List V) x ↔ x = 0 := by
  constructor
  · rintro ⟨t, ht, rfl⟩
    rw [List.sublist_nil.1 ht]; simp
  · rintro rfl; exact .zero _

theorem isSubSum_cons (g : V) (S : List V) (x : V) :
    IsSubSum (g :: S) x ↔ IsSubSum S x ∨ IsSubSum S (x - g) := by
  constructor
  · rintro ⟨t, ht, rfl⟩
    cases ht with
    | cons _ h => exact .inl ⟨_, h, rfl⟩
    | cons_cons _ h => exact .inr ⟨_, h, by simp⟩
  · rintro (⟨t, ht, rfl⟩ | ⟨t, ht, h⟩)
    · exact ⟨t, ht.cons _, rfl⟩
    · exact ⟨g :: t, ht.cons_cons _, by rw [List.sum_cons, ← h]; abel⟩

theorem isSubSum_append (S T : List V) (x : V) :
    IsSubSum (S ++ T) x ↔ ∃ y z, IsSubSum S y ∧ IsSubSum T z ∧ x = y + z := by
  constructor
  · rintro ⟨t, ht, rfl⟩
    obtain ⟨a, b, rfl, ha, hb⟩ := List.sublist_append_iff.1 ht
    exact ⟨a.sum, b.sum, ⟨a, ha, rfl⟩, ⟨b, hb, rfl⟩, by simp⟩
  · rintro ⟨_, _, ⟨a, ha, rfl⟩, ⟨b, hb, rfl⟩, rfl⟩
    exact ⟨a ++ b, ha.append hb, by simp⟩

variable (h2 : ∀ v : V, v + v = 0)
include h2

theorem sub_eq_add' (x y : V) : x - y = x + y := by
  rw [sub_eq_iff_eq_add, add_assoc, h2, add_zero]

theorem IsSubSum.add {S : List V} {x y : V} (hx : IsSubSum S x) (hy : IsSubSum S y) :
    IsSubSum S (x + y) := by
  induction S generalizing x y with
  | nil => rw [isSubSum_nil] at *; simp [hx, hy]
  | cons g S ih =>
    rw [isSubSum_cons] at *
    rcases hx with hx | hx <;> rcases hy with hy | hy
    · exact .inl (ih hx hy)
    · refine .inr ?_
      have := ih hx hy
      rwa [← add_sub_assoc] at this
    · refine .inr ?_
      have := ih hx hy
      rwa [sub_add_eq_add_sub] at this
    · refine .inl ?_
      have := ih hx hy
      have e : x - g + (y - g) = x + y := by
        rw [sub_eq_add' h2, sub_eq_add' h2]
        have := h2 g
        calc x + g + (y + g) = x + y + (g + g) := by abel
          _ = x + y := by rw [this, add_zero]
      rwa [e] at this

theorem IsSubSum.sub {S : List V} {x y : V} (hx : IsSubSum S x) (hy : IsSubSum S y) :
    IsSubSum S (x - y) := by rw [sub_eq_add' h2]; exact hx.add h2 hy

/-- The walk visits every sum of a sublist (including the start). -/
theorem mem_cons_visited_seq (S : List V) (o x : V) :
    x ∈ o :: visited o (seq S) ↔ IsSubSum S (x - o) := by
  induction S using List.reverseRecOn generalizing o x with
  | nil => simp [seq_nil, visited, isSubSum_nil, sub_eq_zero]
  | append_singleton S g ih =>
    rw [seq_concat, List.append_assoc, visited_append]
    have hlast := last_visited o (seq S)
    rw [ih] at hlast
    have hs : IsSubSum S (seq S).sum := by simpa using hlast
    rw [List.singleton_append, visited, ← List.cons_append, List.mem_append, ih, ih,
      isSubSum_append]
    constructor
    · rintro (h | h)
      · exact ⟨_, 0, h, .zero _, by simp⟩
      · refine ⟨_, g, h.add h2 hs, ⟨[g], by simp, by simp⟩, ?_⟩
        abel
    · rintro ⟨y, z, hy, hz, hx⟩
      rw [isSubSum_cons, isSubSum_nil, isSubSum_nil] at hz
      rcases hz with rfl | hz
      · left; rw [hx]; simpa using hy
      · right
        have : z = g := by rwa [sub_eq_zero] at hz
        subst this
        have hx' : x - (o + (seq S).sum + z) = y - (seq S).sum := by
          have : x = y + z + o := by rw [← hx]; abel
          rw [this]; abel
        rw [hx']
        exact hy.sub h2 hs

/-- Without the start, the walk visits exactly the sums of nonempty sublists. -/
theorem mem_visited_seq (S : List V) (o x : V) :
    x ∈ visited o (seq S) ↔ ∃ t, t.Sublist S ∧ t ≠ [] ∧ x = o + t.sum := by
  induction S using List.reverseRecOn generalizing o x with
  | nil => simp [seq_nil, visited]
  | append_singleton S g ih =>
    rw [seq_concat, List.append_assoc, visited_append, List.mem_append, ih, List.singleton_append,
      visited, mem_cons_visited_seq h2]
    have hs : IsSubSum S (seq S).sum := by
      have hlast := last_visited o (seq S)
      rw [mem_cons_visited_seq h2] at hlast
      simpa using hlast
    constructor
    · rintro (⟨t, ht, hne, rfl⟩ | h)
      · exact ⟨t, ht.trans (List.sublist_append_left _ _), hne, rfl⟩
      · obtain ⟨t, ht, hx⟩ := h.add h2 hs
        refine ⟨t ++ [g], ht.append (List.Sublist.refl _), by simp, ?_⟩
        rw [List.sum_append, List.sum_singleton, ← hx]
        abel
    · rintro ⟨t, ht, hne, rfl⟩
      obtain ⟨a, b, rfl, ha, hb⟩ := List.sublist_append_iff.1 ht
      rcases List.sublist_singleton.1 hb with rfl | rfl
      · left
        exact ⟨a, ha, by simpa using hne, by simp⟩
      · right
        have : o + (a ++ [g]).sum - (o + (seq S).sum + g) = a.sum - (seq S).sum := by
          simp; abel
        rw [this]
        exact IsSubSum.sub h2 ⟨a, ha, rfl⟩ hs

/-- Inserting a full stabilizer walk after each logical step. -/
theorem mem_visited_flat (S : List V) (ls : List V) (o x : V) :
    x ∈ visited o (ls.flatMap fun l => l :: seq S) ↔
      ∃ y ∈ visited o ls, IsSubSum S (x - y) := by
  induction ls generalizing o x with
  | nil => simp [visited]
  | cons l ls ih =>
    rw [List.flatMap_cons, List.cons_append, visited, visited_append]
    have hs : IsSubSum S (seq S).sum := by
      have hlast := last_visited o (seq S)
      rw [mem_cons_visited_seq h2] at hlast
      simpa using hlast
    rw [← List.cons_append, List.mem_append, mem_cons_visited_seq h2, ih]
    simp only [visited, List.mem_cons, exists_eq_or_imp]
    apply or_congr Iff.rfl
    constructor
    · rintro ⟨y, hy, hx⟩
      rw [mem_visited_shift] at hy
      refine ⟨_, hy, ?_⟩
      have : x - (y - (seq S).sum) = x - y + (seq S).sum := by abel
      rw [this]
      exact hx.add h2 hs
    · rintro ⟨y, hy, hx⟩
      refine ⟨y + (seq S).sum, ?_, ?_⟩
      · rw [mem_visited_shift]; simpa using hy
      · have : x - (y + (seq S).sum) = x - y - (seq S).sum := by abel
        rw [this]
        exact hx.sub h2 hs

omit h2 in
/-- the doubling of the operational array -/
theorem stack_spec (ops : List V) (A : List V) :
    ∃ B, ops.foldl (fun A op => A ++ A.map (· + op)) A = A ++ B ∧
      (A ++ B).length = A.length * 2 ^ ops.length ∧
      ∀ x, x ∈ B ↔ ∃ a ∈ A, ∃ t, t.Sublist ops ∧ t ≠ [] ∧ x = a + t.sum := by
  induction ops generalizing A with
  | nil => exact ⟨[], by simp, by simp, by simp⟩
  | cons op ops ih =>
    obtain ⟨B, hB, hlen, hm⟩ := ih (A ++ A.map (· + op))
    refine ⟨A.map (· + op) ++ B, ?_, ?_, ?_⟩
    · rw [List.foldl_cons, hB, List.append_assoc]
    · rw [← List.append_assoc, hlen]
      simp [pow_succ]; ring
    · intro x
      rw [List.mem_append, hm]
      constructor
      · rintro (h | ⟨a, ha, t, ht, hne, rfl⟩)
        · obtain ⟨a, ha, rfl⟩ := List.mem_map.1 h
          exact ⟨a, ha, [op], by simp, by simp, by simp⟩
        · rcases List.mem_append.1 ha with h | h
          · exact ⟨a, h, t, ht.cons _, hne, rfl⟩
          · obtain ⟨b, hb, rfl⟩ := List.mem_map.1 h
            exact ⟨b, hb, op :: t, ht.cons_cons _, by simp, by simp [add_assoc]⟩
      · rintro ⟨a, ha, t, ht, hne, rfl⟩
        cases ht with
        | cons _ h => exact .inr ⟨a, by simp [ha], t, h, hne, rfl⟩
        | cons_cons _ h =>
          rename_i t
          by_cases h0 : t = []
          · subst h0
            left; exact List.mem_map.2 ⟨a, ha, by simp⟩
          · right
            exact ⟨a + op, List.mem_append.2 (.inr (List.mem_map.2 ⟨a, ha, rfl⟩)), t, h, h0, by simp [add_assoc]⟩

end Walk

/-! ## Simulation of the packed search -/

section Sim
variable {V : Type} [AddCommGroup V]

/-- the running minimum -/
def minOver (wt : V → ℕ) (m : ℕ) (l : List V) : ℕ := l.foldl (fun m v => min m (wt v)) m

theorem minOver_append (wt : V → ℕ) (m : ℕ) (l l' : List V) :
    minOver wt m (l ++ l') = minOver wt (minOver wt m l) l' := by simp [minOver]

theorem minOver_le (wt : V → ℕ) (m : ℕ) (l : List V) : minOver wt m l ≤ m := by
  induction l generalizing m with
  | nil => simp [minOver]
  | cons v l ih => exact le_trans (ih _) (min_le_left _ _)

theorem minOver_le_mem (wt : V → ℕ) (m : ℕ) (l : List V) : ∀ v ∈ l, minOver wt m l ≤ wt v := by
  induction l generalizing m with
  | nil => simp
  | cons v l ih =>
    intro x hx
    rcases List.mem_cons.1 hx with rfl | h
    · exact le_trans (minOver_le wt _ l) (min_le_right _ _)
    · exact ih _ x h

theorem minOver_attained (wt : V → ℕ) (m : ℕ) (l : List V) :
    minOver wt m l = m ∨ ∃ v ∈ l, minOver wt m l = wt v := by
  induction l generalizing m with
  | nil => simp [minOver]
  | cons v l ih =>
    rcases ih (min m (wt v)) with h | ⟨x, hx, h⟩
    · have e : minOver wt m (v :: l) = min m (wt v) := h
      rcases le_total m (wt v) with h' | h'
      · left; rw [e, min_eq_left h']
      · right; exact ⟨v, by simp, by rw [e, min_eq_right h']⟩
    · exact .inr ⟨x, by simp [hx], h⟩

/-- A packing of group elements into rows of 64-bit words on which the kernel computes `wt`. -/
structure IsPacking (kernel : BitVec 64 → BitVec 64) (words : ℕ) (wt : V → ℕ)
    (pack : V → List (BitVec 64)) : Prop where
  add : ∀ v w, pack (v + w) = xorRow (pack v) (pack w)
  zero : pack 0 = List.replicate words 0#64
  ne : ∀ v, pack v ≠ []
  weight : ∀ v, ((pack v).map fun x => (kernel x).toNat).sum = wt v

variable {kernel : BitVec 64 → BitVec 64} {words : ℕ} {wt : V → ℕ} {pack : V → List (BitVec 64)}

theorem IsPacking.map_xor (h : IsPacking kernel words wt pack) (A : List V) (op : V) :
    (A.map pack).map (xorRow · (pack op)) = (A.map (· + op)).map pack := by
  rw [List.map_map, List.map_map]
  apply List.map_congr_left
  intro v _
  simp only [Function.comp]
  rw [h.add]

theorem IsPacking.blockMin (h : IsPacking kernel words wt pack) (wb : ℕ)
    (A : List V) (hwt : ∀ v, wt v < 2 ^ wb) (m : ℕ) :
    QLDPC.blockMin kernel wb (A.map pack) m = some (minOver wt m A) := by
  unfold QLDPC.blockMin
  induction A generalizing m with
  | nil => rfl
  | cons v A ih =>
    rw [List.map_cons, List.foldlM_cons, inplaceRowsum_eq _ (by simpa using h.ne v)]
    simp only [Option.map_some, Option.bind_eq_bind, Option.bind_some]
    rw [toNat_sum_setWidth, h.weight, Nat.mod_eq_of_lt (hwt v), ih]
    rfl

theorem IsPacking.stackOps (h : IsPacking kernel words wt pack) (A ops : List V) :
    QLDPC.stackOps (A.map pack) (ops.map pack) =
      (ops.foldl (fun A op => A ++ A.map (· + op)) A).map pack := by
  unfold QLDPC.stackOps
  induction ops generalizing A with
  | nil => rfl
  | cons op ops ih =>
    rw [List.map_cons, List.foldl_cons, List.foldl_cons, h.map_xor, ← List.map_append, ih]

theorem IsPacking.searchStep (h : IsPacking kernel words wt pack) (h64 : ∀ v, wt v < 2 ^ 64)
    (op : V) (A : List V) (m : ℕ) :
    QLDPC.searchStep kernel (pack op) (A.map pack, m) =
      some ((A.map (· + op)).map pack, minOver wt m (A.map (· + op))) := by
  unfold QLDPC.searchStep
  simp only
  rw [h.map_xor, h.blockMin 64 _ h64]
  rfl

/-- Walking through a list of operators. -/
theorem IsPacking.walk (h : IsPacking kernel words wt pack) (h64 : ∀ v, wt v < 2 ^ 64)
    (T A : List V) (m : ℕ) :
    (T.map pack).foldlM (fun st op => QLDPC.searchStep kernel op st) (A.map pack, m) =
      some ((A.map (· + T.sum)).map pack,
        minOver wt m ((visited 0 T).flatMap fun o => A.map (· + o))) := by
  induction T generalizing A m with
  | nil => simp [visited, minOver]
  | cons t T ih =>
    rw [List.map_cons, List.foldlM_cons, h.searchStep h64]
    simp only [Option.bind_eq_bind, Option.bind_some]
    rw [ih]
    have e1 : (A.map (· + t)).map (· + T.sum) = A.map (· + (t :: T).sum) := by
      rw [List.map_map]
      apply List.map_congr_left
      intro v _
      simp [add_assoc]
    have e2 : ((visited 0 T).flatMap fun o => (A.map (· + t)).map (· + o)) =
        ((visited t T).flatMap fun o => A.map (· + o)) := by
      have : ∀ o : V, ((visited o T).flatMap fun o => (A.map (· + t)).map (· + o)) =
        ((visited (o + t) T).flatMap fun o => A.map (· + o)) := by
        clear ih
        induction T with
        | nil => intro o; simp [visited]
        | cons s T ih =>
          intro o
          simp only [visited, List.flatMap_cons]
          rw [ih (by rw [List.map_map]; apply List.map_congr_left; intro v _; simp [add_assoc])]
          congr 1
          · rw [List.map_map]
            apply List.map_congr_left
            intro v _
            simp only [Function.comp]; abel
          · rw [show o + t + s = o + s + t by abel]
      simpa using this 0
    rw [e1, e2]
    simp only [visited, zero_add, List.flatMap_cons, minOver_append]

theorem foldlM_index {α σ : Type} (f : α → σ → Option σ) (S : List α) (idx : List ℕ)
    (hidx : ∀ i ∈ idx, i < S.length) (st : σ) :
    idx.foldlM (fun st i => (S[i]?).bind fun op => f op st) st =
      (idx.filterMap (S[·]?)).foldlM (fun st op => f op st) st := by
  induction idx generalizing st with
  | nil => rfl
  | cons i idx ih =>
    have hi := hidx i (by simp)
    rw [List.foldlM_cons, List.filterMap_cons, List.getElem?_eq_getElem hi]
    simp only [Option.bind_some, List.foldlM_cons]
    congr 1
    funext st
    exact ih (fun j hj => hidx j (by simp [hj])) st

theorem foldlM_ctz {α σ : Type} (f : α → σ → Option σ) (S : List α) (st : σ) :
    (List.range' 1 (2 ^ S.length - 1)).foldlM
      (fun st i => (S[countTrailingZeros i]?).bind fun op => f op st) st =
      (seq S).foldlM (fun st op => f op st) st := by
  unfold seq
  rw [← foldlM_index f S _ (ctz_mem_lt S.length)]
  rw [List.foldlM_map]

theorem stabLoop_eq (S : List (List (BitVec 64))) (st : SearchState) :
    stabLoop kernel S st = (seq S).foldlM (fun st op => searchStep kernel op st) st := by
  unfold stabLoop
  exact foldlM_ctz (fun op st => searchStep kernel op st) S st

theorem logicalLoop_eq (L S : List (List (BitVec 64))) (st : SearchState) :
    logicalLoop kernel L S st =
      ((seq L).flatMap fun l => l :: seq S).foldlM (fun st op => searchStep kernel op st) st := by
  unfold logicalLoop
  rw [foldlM_ctz (fun op st => (searchStep kernel op st).bind (stabLoop kernel S)) L st]
  generalize seq L = ls
  induction ls generalizing st with
  | nil => rfl
  | cons l ls ih =>
    rw [List.flatMap_cons, List.cons_append, List.foldlM_cons, List.foldlM_cons]
    cases h : searchStep kernel l st with
    | none => rfl
    | some st' =>
      simp only [Option.bind_eq_bind, Option.bind_some]
      rw [List.foldlM_append, stabLoop_eq]
      simp only [Option.bind_eq_bind]
      congr 1
      funext st''
      exact ih st''

theorem pyTake_map {α β : Type} (f : α → β) (l : List α) (k : ℤ) :
    pyTake (l.map f) k = (pyTake l k).map f := by
  unfold pyTake
  split <;> simp [List.map_take]

theorem pyDrop_map {α β : Type} (f : α → β) (l : List α) (k : ℤ) :
    pyDrop (l.map f) k = (pyDrop l k).map f := by
  unfold pyDrop
  split <;> simp [List.map_drop]

theorem pyTake_append_pyDrop {α : Type} (l : List α) (k : ℤ) : pyTake l k ++ pyDrop l k = l := by
  unfold pyTake pyDrop
  split <;> exact List.take_append_drop _ _

/-- The packed search returns the minimum of `numBits` and the weights of all sums of a nonempty
sublist of the logical operators and a sublist of the stabilizers. -/
theorem IsPacking.search (h : IsPacking kernel words wt pack) (h2 : ∀ v : V, v + v = 0)
    (wb numBits : ℕ) (hwb : ∀ v, wt v < 2 ^ wb) (h64 : ∀ v, wt v < 2 ^ 64) (bs : ℤ)
    (L S : List V) :
    ∃ U : List V, searchPacked kernel wb numBits words bs (L.map pack) (S.map pack) =
        some (minOver wt numBits U) ∧
      ∀ x, x ∈ U ↔ ∃ t s : List V, t.Sublist L ∧ t ≠ [] ∧ s.Sublist S ∧ x = t.sum + s.sum := by
  unfold searchPacked
  simp only [List.length_map]
  generalize min (bs + 1 - (words : ℤ)) ((L.length : ℤ) + (S.length : ℤ)) = nv
  have h0 : [List.replicate words 0#64] = [(0 : V)].map pack := by simp [h.zero]
  rw [pyTake_map, pyDrop_map, pyTake_map, pyDrop_map, h0, h.stackOps]
  have hS := pyTake_append_pyDrop S nv
  obtain ⟨B, hB, hlen, hmem⟩ := stack_spec (pyTake S nv) [(0 : V)]
  rw [hB]
  by_cases hnv : nv > (S.length : ℤ)
  · rw [if_pos hnv, h.stackOps]
    simp only
    have hLsplit := pyTake_append_pyDrop L (nv - S.length)
    generalize pyTake L (nv - S.length) = L1 at hLsplit ⊢
    generalize pyDrop L (nv - S.length) = L2 at hLsplit ⊢
    obtain ⟨C, hC, hClen, hCmem⟩ := stack_spec L1 ([(0 : V)] ++ B)
    rw [hC]
    have hdrop : pyDrop S nv = [] := by
      unfold pyDrop; rw [if_pos (by omega)]; apply List.drop_of_length_le; omega
    have htake : pyTake S nv = S := by rw [hdrop] at hS; simpa using hS
    rw [htake] at hlen hmem
    rw [hdrop]
    have hlen' : ([(0 : V)] ++ B).length = 2 ^ S.length := by rw [hlen]; simp
    rw [← List.map_drop, List.drop_left' hlen', h.blockMin wb _ hwb, Option.bind_some,
      logicalLoop_eq, List.map_nil, seq_nil, seq_map]
    have hflat : ((seq L2).map pack).flatMap (fun l => [l]) = (seq L2).map pack := by simp
    rw [hflat, h.walk h64, Option.map_some, ← minOver_append]
    refine ⟨_, rfl, ?_⟩
    have hA : ∀ a, a ∈ [(0 : V)] ++ B ↔ ∃ s : List V, s.Sublist S ∧ a = s.sum := by
      intro a
      rw [List.mem_append, hmem]
      constructor
      · rintro (h | ⟨b, hb, t, ht, _, rfl⟩)
        · exact ⟨[], by simp, by simpa using h⟩
        · exact ⟨t, ht, by simp at hb; simp [hb]⟩
      · rintro ⟨s, hs, rfl⟩
        by_cases hne : s = []
        · left; simp [hne]
        · right; exact ⟨0, by simp, s, hs, hne, by simp⟩
    intro x
    simp only [List.mem_append, List.mem_flatMap, List.mem_map, mem_visited_seq h2, zero_add]
    rw [hCmem]
    constructor
    · rintro (⟨a, ha, t, ht, hne, rfl⟩ | ⟨_, ⟨t, ht, hne, rfl⟩, a, ha, rfl⟩)
      · obtain ⟨s, hs, rfl⟩ := (hA a).1 ha
        exact ⟨t, s, ht.trans (by rw [← hLsplit]; exact List.sublist_append_left _ _), hne, hs,
          by abel⟩
      · rw [← List.mem_append] at ha
        have : ∃ s t' : List V, s.Sublist S ∧ t'.Sublist L1 ∧ a = s.sum + t'.sum := by
          rcases ha with ha | ha
          · obtain ⟨s, hs, rfl⟩ := (hA a).1 (by simpa using ha)
            exact ⟨s, [], hs, by simp, by simp⟩
          · obtain ⟨b, hb, t', ht', _, rfl⟩ := (hCmem a).1 ha
            obtain ⟨s, hs, rfl⟩ := (hA b).1 hb
            exact ⟨s, t', hs, ht', rfl⟩
        obtain ⟨s, t', hs, ht', rfl⟩ := this
        refine ⟨t' ++ t, s, ?_, by simp [hne], hs, by simp; abel⟩
        rw [← hLsplit]
        exact ht'.append ht
    · rintro ⟨t, s, ht, hne, hs, rfl⟩
      rw [← hLsplit] at ht
      obtain ⟨t1, t2, rfl, h1, h3⟩ := List.sublist_append_iff.1 ht
      by_cases hne2 : t2 = []
      · left
        subst hne2
        exact ⟨s.sum, (hA _).2 ⟨s, hs, rfl⟩, t1, h1, by simpa using hne, by simp; abel⟩
      · right
        refine ⟨t2.sum, ⟨t2, h3, hne2, rfl⟩, s.sum + t1.sum, ?_, by simp; abel⟩
        rw [← List.mem_append, List.mem_append]
        by_cases hne1 : t1 = []
        · left; simpa [hne1] using (hA _).2 ⟨s, hs, rfl⟩
        · right; exact (hCmem _).2 ⟨s.sum, (hA _).2 ⟨s, hs, rfl⟩, t1, h1, hne1, rfl⟩
  · rw [if_neg hnv]
    simp only
    have hle : (pyTake S nv).length ≤ S.length := by
      conv_rhs => rw [← hS, List.length_append]
      omega
    have hdrop : (([(0 : V)] ++ B).map pack).drop (2 ^ S.length) = ([] : List V).map pack := by
      rw [List.map_nil]
      apply List.drop_of_length_le
      rw [List.length_map, hlen]
      simp only [List.length_singleton, one_mul]
      exact Nat.pow_le_pow_right (by omega) hle
    rw [hdrop, h.blockMin wb _ hwb, Option.bind_some, logicalLoop_eq, seq_map, seq_map]
    have hflat : ((seq L).map pack).flatMap (fun l => l :: (seq (pyDrop S nv)).map pack) =
        ((seq L).flatMap fun l => l :: seq (pyDrop S nv)).map pack := by
      rw [List.map_flatMap, List.flatMap_map]
      simp
    rw [hflat, h.walk h64, Option.map_some, ← minOver_append]
    refine ⟨_, rfl, ?_⟩
    generalize pyTake S nv = S1 at *
    generalize pyDrop S nv = S2 at *
    intro x
    simp only [List.nil_append, List.mem_flatMap, List.mem_map]
    have hA : ∀ a, a ∈ [(0 : V)] ++ B ↔ ∃ s : List V, s.Sublist S1 ∧ a = s.sum := by
      intro a
      rw [List.mem_append, hmem]
      constructor
      · rintro (h | ⟨b, hb, t, ht, _, rfl⟩)
        · exact ⟨[], by simp, by simpa using h⟩
        · exact ⟨t, ht, by simp at hb; simp [hb]⟩
      · rintro ⟨s, hs, rfl⟩
        by_cases hne : s = []
        · left; simp [hne]
        · right; exact ⟨0, by simp, s, hs, hne, by simp⟩
    constructor
    · rintro ⟨o, ho, a, ha, rfl⟩
      rw [mem_visited_flat h2] at ho
      obtain ⟨y, hy, s2, hs2, hoy⟩ := ho
      rw [mem_visited_seq h2] at hy
      obtain ⟨t, ht, hne, rfl⟩ := hy
      obtain ⟨s1, hs1, rfl⟩ := (hA a).1 ha
      refine ⟨t, s1 ++ s2, ht, hne, by rw [← hS]; exact hs1.append hs2, ?_⟩
      rw [List.sum_append, ← hoy]
      abel
    · rintro ⟨t, s, ht, hne, hs, rfl⟩
      rw [← hS] at hs
      obtain ⟨s1, s2, rfl, h1, h3⟩ := List.sublist_append_iff.1 hs
      refine ⟨t.sum + s2.sum, ?_, s1.sum, (hA _).2 ⟨s1, h1, rfl⟩, by simp; abel⟩
      rw [mem_visited_flat h2]
      refine ⟨t.sum, ?_, s2, h3, by abel⟩
      rw [mem_visited_seq h2]
      exact ⟨t, ht, hne, by simp⟩

end Sim

end QLDPC
