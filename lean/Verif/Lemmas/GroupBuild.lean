import Verif.Model.GroupBuild
import Mathlib.Algebra.Group.Subsemigroup.Basic
import Mathlib.Algebra.Group.Units.Basic
import Mathlib.Data.List.Nodup
import Mathlib.Data.List.NodupEquivFin
import Mathlib.Data.List.ProdSigma
import Mathlib.Data.Set.Finite.List
import Mathlib.Data.Set.Card

/-!
# Lemmas about `Group.from_generating_mats`
-/

namespace QLDPC

variable {M : Type} [Monoid M] [DecidableEq M]

theorem lookup_zipIdx_none {l : List M} {k : ℕ} {x : M} (h : (l.zipIdx k).lookup x = none) : x ∉ l := by
  induction l generalizing k with
  | nil => simp
  | cons y l ih =>
    rw [List.zipIdx_cons, List.lookup_cons] at h
    cases hxy : (x == y) with
    | true => rw [hxy] at h; simp at h
    | false =>
      rw [hxy] at h
      intro hx
      rcases List.mem_cons.1 hx with rfl | hx
      · simp at hxy
      · exact ih h hx

theorem lookup_zipIdx_some {l : List M} {k i : ℕ} {x : M} (h : (l.zipIdx k).lookup x = some i) :
    k ≤ i ∧ l[i - k]? = some x := by
  induction l generalizing k with
  | nil => simp at h
  | cons y l ih =>
    rw [List.zipIdx_cons, List.lookup_cons] at h
    cases hxy : (x == y) with
    | true =>
      rw [hxy] at h
      simp only [Option.some.injEq] at h
      subst h
      simp only [beq_iff_eq] at hxy
      simp [hxy]
    | false =>
      rw [hxy] at h
      obtain ⟨h1, h2⟩ := ih h
      refine ⟨by omega, ?_⟩
      rw [show i - k = (i - (k + 1)) + 1 by omega, List.getElem?_cons_succ]
      exact h2

theorem matKeys_aux (l : List M) : ∀ (done : List M), (done ++ l).Nodup →
    (l.zipIdx done.length).foldl (fun keys e =>
      if keys.any fun k => k.1 = e.1 then keys.map fun k => if k.1 = e.1 then e else k else keys ++ [e])
      done.zipIdx = (done ++ l).zipIdx := by
  induction l with
  | nil => simp
  | cons x l ih =>
    intro done h
    rw [List.zipIdx_cons, List.foldl_cons]
    have hx : x ∉ done := fun hx => (List.nodup_append.1 h).2.2 x hx x List.mem_cons_self rfl
    have hany : (done.zipIdx.any fun k => decide (k.1 = x)) = false := by
      rw [List.any_eq_false]
      rintro ⟨y, i⟩ hy
      have := List.mem_zipIdx hy
      simp only [decide_eq_true_eq]
      rintro rfl
      exact hx (by rw [this.2.2]; exact List.getElem_mem _)
    rw [hany]
    simp only [Bool.false_eq_true, if_false]
    have hz : done.zipIdx ++ [(x, done.length)] = (done ++ [x]).zipIdx := by
      rw [List.zipIdx_append]; simp
    have h' : (done ++ [x] ++ l).Nodup := by simpa using h
    have := ih (done ++ [x]) h'
    rw [List.length_append, List.length_singleton] at this
    rw [hz, this]
    simp

theorem matKeys_eq {gens : List M} (h : gens.Nodup) : matKeys gens = gens.zipIdx := by
  have := matKeys_aux gens [] (by simpa using h)
  simpa [matKeys] using this

/-- The table is right so far: entries are indices of products. -/
def TableSound (all : List M) (table : List ((ℕ × ℕ) × ℕ)) : Prop :=
  ∀ e ∈ table, ∃ x y, all[e.1.1]? = some x ∧ all[e.1.2]? = some y ∧ all[e.2]? = some (x * y)

theorem TableSound.append {all : List M} {table : List ((ℕ × ℕ) × ℕ)} (h : TableSound all table) (ext : List M) :
    TableSound (all ++ ext) table := by
  intro e he
  obtain ⟨x, y, h1, h2, h3⟩ := h e he
  have key : ∀ {i : ℕ} {z : M}, all[i]? = some z → (all ++ ext)[i]? = some z := by
    intro i z hz
    rw [List.getElem?_append_left (List.getElem?_eq_some_iff.1 hz).1]
    exact hz
  exact ⟨x, y, key h1, key h2, key h3⟩

/-- Invariant of the inner loop: `ext` are the members found in this round. -/
structure RoundInv (gens mats : List M) (st : MatState M) (ext : List M) : Prop where
  nodup : (mats ++ ext).Nodup
  keys : st.keys = (mats ++ ext).zipIdx
  new : st.new = (ext.zipIdx mats.length).map fun e => (e.2, e.1)
  table : TableSound (mats ++ ext) st.table
  mem : ∀ x ∈ mats ++ ext, x ∈ Subsemigroup.closure {x | x ∈ gens}

theorem RoundInv.account {gens mats : List M} {st : MatState M} {ext : List M} (h : RoundInv gens mats st ext) {a b : ℕ}
    (ha : a < mats.length) (hb : b < mats.length) :
    ∃ ext', RoundInv gens mats (accountForProduct mats st a b) ext' ∧
      (∃ c, ((a, b), c) ∈ (accountForProduct mats st a b).table) ∧
      (∀ e ∈ st.table, e ∈ (accountForProduct mats st a b).table) := by
  unfold accountForProduct
  rw [List.getElem?_eq_getElem ha, List.getElem?_eq_getElem hb]
  simp only
  have hget : ∀ {i : ℕ} (hi : i < mats.length) (e : List M), (mats ++ e)[i]? = some mats[i] := fun hi e => by
    rw [List.getElem?_append_left hi, List.getElem?_eq_getElem hi]
  cases hl : st.keys.lookup (mats[a] * mats[b]) with
  | some i =>
    refine ⟨ext, ⟨h.nodup, h.keys, h.new, ?_, h.mem⟩, ⟨i, List.mem_cons_self⟩, fun e he => List.mem_cons_of_mem _ he⟩
    rw [h.keys] at hl
    intro e he
    rcases List.mem_cons.1 he with rfl | he
    · exact ⟨_, _, hget ha _, hget hb _, by simpa using (lookup_zipIdx_some hl).2⟩
    · exact h.table e he
  | none =>
    have hlen : st.keys.length = (mats ++ ext).length := by rw [h.keys, List.length_zipIdx]
    rw [h.keys] at hl
    have hnot := lookup_zipIdx_none hl
    refine ⟨ext ++ [mats[a] * mats[b]], ⟨?_, ?_, ?_, ?_, ?_⟩, ⟨_, List.mem_cons_self⟩,
      fun e he => List.mem_cons_of_mem _ he⟩
    · rw [← List.append_assoc]
      exact List.nodup_append.2 ⟨h.nodup, by simp, by
        rintro x hx y hy rfl
        simp only [List.mem_singleton] at hy
        exact hnot (hy ▸ hx)⟩
    · rw [← List.append_assoc, List.zipIdx_append, h.keys]
      simp
    · rw [List.zipIdx_append, List.map_append, h.new, hlen]
      simp
    · intro e he
      rw [← List.append_assoc]
      rcases List.mem_cons.1 he with rfl | he
      · refine ⟨mats[a], mats[b], ?_, ?_, ?_⟩
        · rw [List.append_assoc]; exact hget ha _
        · rw [List.append_assoc]; exact hget hb _
        · simp only [hlen]
          rw [List.getElem?_append_right le_rfl]
          simp
      · exact h.table.append _ e he
    · intro x hx
      rw [← List.append_assoc] at hx
      rcases List.mem_append.1 hx with hx | hx
      · exact h.mem x hx
      · rw [List.mem_singleton.1 hx]
        exact Subsemigroup.mul_mem _ (h.mem _ (List.mem_append_left _ (List.getElem_mem ha)))
          (h.mem _ (List.mem_append_left _ (List.getElem_mem hb)))

theorem RoundInv.fold {gens mats : List M} (pairs : List (ℕ × ℕ)) :
    ∀ {st : MatState M} {ext : List M}, RoundInv gens mats st ext →
    (∀ e ∈ pairs, e.1 < mats.length ∧ e.2 < mats.length) →
    ∃ ext', RoundInv gens mats (pairs.foldl (fun s e =>
        accountForProduct mats (accountForProduct mats s e.1 e.2) e.2 e.1) st) ext' ∧
      (∀ e ∈ st.table, e ∈ (pairs.foldl (fun s e =>
        accountForProduct mats (accountForProduct mats s e.1 e.2) e.2 e.1) st).table) ∧
      (∀ e ∈ pairs, (∃ c, ((e.1, e.2), c) ∈ (pairs.foldl (fun s e =>
        accountForProduct mats (accountForProduct mats s e.1 e.2) e.2 e.1) st).table) ∧
        (∃ c, ((e.2, e.1), c) ∈ (pairs.foldl (fun s e =>
        accountForProduct mats (accountForProduct mats s e.1 e.2) e.2 e.1) st).table)) := by
  induction pairs with
  | nil => exact fun h _ => ⟨_, h, fun _ h => h, by simp⟩
  | cons p pairs ih =>
    intro st ext h hp
    obtain ⟨hp1, hp2⟩ := hp p List.mem_cons_self
    obtain ⟨ext1, h1, ⟨c1, hc1⟩, hs1⟩ := h.account hp1 hp2
    obtain ⟨ext2, h2, ⟨c2, hc2⟩, hs2⟩ := h1.account hp2 hp1
    obtain ⟨ext3, h3, hs3, ht3⟩ := ih h2 fun e he => hp e (List.mem_cons_of_mem _ he)
    refine ⟨ext3, h3, fun e he => hs3 e (hs2 e (hs1 e he)), fun e he => ?_⟩
    rcases List.mem_cons.1 he with rfl | he
    · exact ⟨⟨c1, hs3 _ (hs2 _ hc1)⟩, ⟨c2, hs3 _ hc2⟩⟩
    · exact ht3 e he

theorem mergeMembers_eq (ext : List M) : ∀ mats : List M,
    mergeMembers mats ((ext.zipIdx mats.length).map fun e => (e.2, e.1)) = mats ++ ext := by
  induction ext with
  | nil => simp [mergeMembers]
  | cons x ext ih =>
    intro mats
    have h1 := ih (mats ++ [x])
    rw [List.length_append, List.length_singleton] at h1
    rw [List.zipIdx_cons, List.map_cons]
    unfold mergeMembers at h1 ⊢
    rw [List.foldl_cons]
    simp only [lt_irrefl, if_false]
    rw [h1]
    simp

/-- What holds between rounds: products of members with an index below `k` are in the table. -/
structure LoopInv (gens mats : List M) (k : ℕ) (keys : List (M × ℕ)) (table : List ((ℕ × ℕ) × ℕ)) : Prop where
  nodup : mats.Nodup
  keys_eq : keys = mats.zipIdx
  sound : TableSound mats table
  mem : ∀ x ∈ mats, x ∈ Subsemigroup.closure {x | x ∈ gens}
  prefix_gens : gens <+: mats
  le : k ≤ mats.length
  done : ∀ a < k, ∀ b < k, ∃ c, ((a, b), c) ∈ table

theorem LoopInv.round {gens mats : List M} {k : ℕ} {keys : List (M × ℕ)} {table : List ((ℕ × ℕ) × ℕ)}
    (h : LoopInv gens mats k keys table) :
    ∃ ext, (matRound mats (List.range' k (mats.length - k)) keys table).new =
        (ext.zipIdx mats.length).map (fun e => (e.2, e.1)) ∧
      LoopInv gens (mats ++ ext) mats.length (matRound mats (List.range' k (mats.length - k)) keys table).keys
        (matRound mats (List.range' k (mats.length - k)) keys table).table := by
  have h0 : RoundInv gens mats ⟨keys, [], table⟩ [] :=
    ⟨by simpa using h.nodup, by simpa using h.keys_eq, by simp, by simpa using h.sound, by simpa using h.mem⟩
  have hle := h.le
  obtain ⟨ext, h1, h2, h3⟩ := h0.fold ((List.range' k (mats.length - k)).product (List.range mats.length)) (by
    rintro ⟨a, b⟩ he
    rw [List.pair_mem_product, List.mem_range'_1, List.mem_range] at he
    simp only
    omega)
  refine ⟨ext, h1.new, h1.nodup, h1.keys, h1.table, h1.mem, h.prefix_gens.trans (List.prefix_append _ _), by simp, ?_⟩
  intro a ha b hb
  by_cases hak : a < k
  · by_cases hbk : b < k
    · obtain ⟨c, hc⟩ := h.done a hak b hbk
      exact ⟨c, h2 _ hc⟩
    · exact (h3 (b, a) (by
        rw [List.pair_mem_product, List.mem_range'_1, List.mem_range]; omega)).2
  · exact (h3 (a, b) (by
        rw [List.pair_mem_product, List.mem_range'_1, List.mem_range]; omega)).1

theorem todo_eq (ext mats : List M) :
    (((ext.zipIdx mats.length).map fun e => (e.2, e.1)).map Prod.fst : List ℕ) =
      List.range' mats.length ((mats ++ ext).length - mats.length) := by
  rw [List.map_map]
  have : (Prod.fst ∘ fun e : M × ℕ => (e.2, e.1)) = Prod.snd := rfl
  rw [this, List.zipIdx_map_snd]
  simp

theorem matLoop_spec {gens : List M} : ∀ (fuel : ℕ) {mats : List M} {k : ℕ} {keys : List (M × ℕ)}
    {table : List ((ℕ × ℕ) × ℕ)} {r : List M × List ((ℕ × ℕ) × ℕ)}, LoopInv gens mats k keys table →
    matLoop fuel mats (List.range' k (mats.length - k)) keys table = some r →
    ∃ keys', LoopInv gens r.1 r.1.length keys' r.2 := by
  intro fuel
  induction fuel with
  | zero => intro mats k keys table r _ h; simp [matLoop] at h
  | succ fuel ih =>
    intro mats k keys table r hinv h
    unfold matLoop at h
    split_ifs at h with ht
    · obtain rfl := Option.some.inj h
      rw [List.range'_eq_nil_iff] at ht
      have := hinv.le
      have hk : k = mats.length := by omega
      exact ⟨keys, hk ▸ hinv⟩
    · obtain ⟨ext, h1, h2⟩ := hinv.round
      simp only at h
      rw [h1, mergeMembers_eq, todo_eq] at h
      exact ih h2 h

theorem matLoop_terminates {gens : List M} {N : ℕ} (hfin : ∀ l : List M, l.Nodup →
      (∀ x ∈ l, x ∈ Subsemigroup.closure {x | x ∈ gens}) → l.length ≤ N) :
    ∀ (fuel : ℕ) {mats : List M} {k : ℕ} {keys : List (M × ℕ)} {table : List ((ℕ × ℕ) × ℕ)},
    LoopInv gens mats k keys table → (k < mats.length → N + 2 ≤ fuel + mats.length) → 1 ≤ fuel →
    ∃ r, matLoop fuel mats (List.range' k (mats.length - k)) keys table = some r := by
  intro fuel
  induction fuel with
  | zero => intro mats k keys table _ _ h; omega
  | succ fuel ih =>
    intro mats k keys table hinv hf _
    unfold matLoop
    split_ifs with ht
    · exact ⟨_, rfl⟩
    · obtain ⟨ext, h1, h2⟩ := hinv.round
      simp only
      rw [h1, mergeMembers_eq, todo_eq]
      have hk : k < mats.length := by
        rw [List.range'_eq_nil_iff] at ht
        omega
      have hle := hfin _ hinv.nodup hinv.mem
      have hf' := hf hk
      refine ih h2 (fun hlt => ?_) (by omega)
      omega

end QLDPC
