import Verif.Model.LinAlg
import Mathlib.Algebra.BigOperators.Fin
import Mathlib.LinearAlgebra.Span.Basic
import Mathlib.LinearAlgebra.LinearIndependent.Defs
import Mathlib.LinearAlgebra.Dimension.Constructions
import Mathlib.LinearAlgebra.FiniteDimensional.Basic
import Mathlib.Tactic.Ring
import Mathlib.Tactic.FieldSimp
import Mathlib.Tactic.LinearCombination

set_option linter.unusedSectionVars false

namespace QLDPC

variable {F : Type*} [Field F] [DecidableEq F] {n : ℕ}

/-- Row space of a list of rows. -/
def rowSpan (M : Rows F n) : Submodule F (Fin n → F) := Submodule.span F {v | v ∈ M}

/-- Kernel of a list of rows. -/
def kernel (M : Rows F n) : Submodule F (Fin n → F) where
  carrier := {x | ∀ r ∈ M, dot r x = 0}
  add_mem' := by
    intro a b ha hb r hr
    have h1 := ha r hr
    have h2 := hb r hr
    simp only [dot] at *
    simp [mul_add, Finset.sum_add_distrib, h1, h2]
  zero_mem' := by intro r _; simp [dot]
  smul_mem' := by
    intro c x hx r hr
    have h := hx r hr
    simp only [dot] at *
    have : ∑ i, r i * (c • x) i = c * ∑ i, r i * x i := by
      rw [Finset.mul_sum]; apply Finset.sum_congr rfl; intro i _; simp; ring
    rw [this, h, mul_zero]

@[simp] theorem mem_kernel {M : Rows F n} {x} : x ∈ kernel M ↔ ∀ r ∈ M, dot r x = 0 := Iff.rfl

theorem dot_comm (a b : Fin n → F) : dot a b = dot b a := by
  simp [dot, mul_comm]

theorem dot_add_left (a b x : Fin n → F) : dot (a + b) x = dot a x + dot b x := by
  simp [dot, add_mul, Finset.sum_add_distrib]

theorem dot_smul_left (c : F) (a x : Fin n → F) : dot (c • a) x = c * dot a x := by
  simp [dot, Finset.mul_sum, mul_assoc]

theorem dot_add_right (a b x : Fin n → F) : dot x (a + b) = dot x a + dot x b := by
  simp [dot, mul_add, Finset.sum_add_distrib]

theorem dot_smul_right (c : F) (a x : Fin n → F) : dot x (c • a) = c * dot x a := by
  rw [dot_comm, dot_smul_left, dot_comm]

theorem dot_zero_left (x : Fin n → F) : dot 0 x = 0 := by simp [dot]
theorem dot_zero_right (x : Fin n → F) : dot x 0 = 0 := by simp [dot]

theorem dot_sub_right (a b x : Fin n → F) : dot x (a - b) = dot x a - dot x b := by
  simp [dot, mul_sub, Finset.sum_sub_distrib]

theorem dot_sub_left (a b x : Fin n → F) : dot (a - b) x = dot a x - dot b x := by
  simp [dot, sub_mul, Finset.sum_sub_distrib]

theorem subset_rowSpan {M : Rows F n} {r} (h : r ∈ M) : r ∈ rowSpan M :=
  Submodule.subset_span h

theorem rowSpan_le {M : Rows F n} {S : Submodule F (Fin n → F)} :
    rowSpan M ≤ S ↔ ∀ r ∈ M, r ∈ S := by
  simp [rowSpan, Submodule.span_le, Set.subset_def]

theorem rowSpan_mono {M N : Rows F n} (h : ∀ r ∈ M, r ∈ N) : rowSpan M ≤ rowSpan N :=
  rowSpan_le.2 fun r hr => subset_rowSpan (h r hr)

/-- Vectors orthogonal to everything in the kernel's defining rows are orthogonal to the span. -/
theorem dot_eq_zero_of_mem_rowSpan {M : Rows F n} {v x} (hv : v ∈ rowSpan M)
    (hx : x ∈ kernel M) : dot v x = 0 := by
  induction hv using Submodule.span_induction with
  | mem r hr => exact hx r hr
  | zero => exact dot_zero_left x
  | add a b _ _ ha hb => rw [dot_add_left, ha, hb, add_zero]
  | smul c a _ ha => rw [dot_smul_left, ha, mul_zero]

theorem kernel_eq_of_rowSpan_eq {M N : Rows F n} (h : rowSpan M = rowSpan N) :
    kernel M = kernel N := by
  ext x; constructor
  · intro hx r hr
    exact dot_eq_zero_of_mem_rowSpan (h ▸ subset_rowSpan hr) hx
  · intro hx r hr
    exact dot_eq_zero_of_mem_rowSpan (h ▸ subset_rowSpan hr : r ∈ rowSpan N) hx

theorem elim_eq (j : Fin n) (p r : Fin n → F) : elim j p r = r - r j • p := by
  ext c; simp [elim]

/-- Shape of a reduced row echelon form given as `(pivot, row)` pairs. -/
structure IsRREF (d : List (Fin n × (Fin n → F))) : Prop where
  one : ∀ q ∈ d, q.2 q.1 = 1
  left : ∀ q ∈ d, ∀ c, c < q.1 → q.2 c = 0
  pair : d.Pairwise (fun q q' => q.1 < q'.1 ∧ q.2 q'.1 = 0)

/-- Invariant of the elimination after all columns `< k` have been handled. -/
structure RrefInv (M : Rows F n) (k : ℕ) (st : List (Fin n × (Fin n → F)) × Rows F n) : Prop where
  rref : IsRREF st.1
  lt : ∀ q ∈ st.1, q.1.val < k
  rest : ∀ r ∈ st.2, ∀ c : Fin n, c.val < k → r c = 0
  span : rowSpan (st.1.map Prod.snd ++ st.2) = rowSpan M
  len : st.1.length + st.2.length = M.length

theorem rrefStep_inv {M : Rows F n} {st} (j : Fin n) (h : RrefInv M j.val st) :
    RrefInv M (j.val + 1) (rrefStep st j) := by
  obtain ⟨d, rest⟩ := st
  unfold rrefStep
  cases hf : rest.find? (fun r => r j ≠ 0) with
  | none =>
    simp only [hf]
    have hall : ∀ r ∈ rest, r j = 0 := by
      intro r hr
      have := List.find?_eq_none.1 hf r hr
      simpa using this
    refine ⟨h.rref, fun q hq => Nat.lt_succ_of_lt (h.lt q hq), ?_, h.span, h.len⟩
    intro r hr c hc
    rcases Nat.lt_succ_iff_lt_or_eq.1 hc with hc | hc
    · exact h.rest r hr c hc
    · have : c = j := Fin.ext hc
      rw [this]; exact hall r hr
  | some r =>
    simp only [hf]
    have hr : r ∈ rest := List.mem_of_find?_eq_some hf
    have hrj : r j ≠ 0 := by simpa using List.find?_some hf
    set p : Fin n → F := fun c => (r j)⁻¹ * r c with hp
    have hpj : p j = 1 := by simp [hp, hrj]
    have hpl : ∀ c : Fin n, c.val < j.val → p c = 0 := by
      intro c hc; simp [hp, h.rest r hr c hc]
    have hpsmul : p = (r j)⁻¹ • r := by ext c; simp [hp]
    constructor
    · -- rref
      constructor
      · intro q hq
        rcases List.mem_append.1 hq with hq | hq
        · obtain ⟨q', hq', rfl⟩ := List.mem_map.1 hq
          have hlt := h.lt q' hq'
          simp [elim, h.rref.one q' hq', hpl q'.1 hlt]
        · simp only [List.mem_singleton] at hq; subst hq; exact hpj
      · intro q hq c hc
        rcases List.mem_append.1 hq with hq | hq
        · obtain ⟨q', hq', rfl⟩ := List.mem_map.1 hq
          have hlt := h.lt q' hq'
          have : c.val < j.val := lt_trans hc hlt
          simp [elim, h.rref.left q' hq' c hc, hpl c this]
        · simp only [List.mem_singleton] at hq; subst hq; exact hpl c hc
      · rw [List.pairwise_append]
        refine ⟨?_, List.pairwise_singleton _ _, ?_⟩
        · rw [List.pairwise_map]
          refine List.Pairwise.imp_of_mem ?_ h.rref.pair
          intro a b ha hb hab
          refine ⟨hab.1, ?_⟩
          simp [elim, hab.2, hpl b.1 (h.lt b hb)]
        · intro a ha b hb
          obtain ⟨a', ha', rfl⟩ := List.mem_map.1 ha
          simp only [List.mem_singleton] at hb; subst hb
          refine ⟨h.lt a' ha', ?_⟩
          simp [elim, hpj]
    · intro q hq
      rcases List.mem_append.1 hq with hq | hq
      · obtain ⟨q', hq', rfl⟩ := List.mem_map.1 hq
        exact Nat.lt_succ_of_lt (h.lt q' hq')
      · simp only [List.mem_singleton] at hq; subst hq; simp
    · intro r' hr' c hc
      obtain ⟨r'', hr'', rfl⟩ := List.mem_map.1 hr'
      have hmem : r'' ∈ rest := List.mem_of_mem_erase hr''
      rcases Nat.lt_succ_iff_lt_or_eq.1 hc with hc | hc
      · simp [elim, h.rest r'' hmem c hc, hpl c hc]
      · have : c = j := Fin.ext hc
        subst this; simp [elim, hpj]
    · rw [← h.span]
      apply le_antisymm
      · rw [rowSpan_le]
        have hpmem : p ∈ rowSpan (d.map Prod.snd ++ rest) := by
          rw [hpsmul]
          exact Submodule.smul_mem _ _ (subset_rowSpan (List.mem_append_right _ hr))
        intro v hv
        simp only [List.map_append, List.map_map, List.mem_append, List.mem_map,
          List.map_cons, List.map_nil, List.mem_singleton, Function.comp] at hv
        rcases hv with (⟨q, hq, rfl⟩ | rfl) | ⟨r', hr', rfl⟩
        · rw [elim_eq]
          exact Submodule.sub_mem _ (subset_rowSpan (List.mem_append_left _
            (List.mem_map.2 ⟨q, hq, rfl⟩))) (Submodule.smul_mem _ _ hpmem)
        · exact hpmem
        · rw [elim_eq]
          exact Submodule.sub_mem _ (subset_rowSpan (List.mem_append_right _
            (List.mem_of_mem_erase hr'))) (Submodule.smul_mem _ _ hpmem)
      · rw [rowSpan_le]
        set N := (d.map (fun q => (q.1, elim j p q.2)) ++ [(j, p)]).map Prod.snd ++
          (rest.erase r).map (elim j p) with hN
        have hpmem : p ∈ rowSpan N := by
          apply subset_rowSpan; simp [hN]
        have back : ∀ v, elim j p v ∈ rowSpan N → v ∈ rowSpan N := by
          intro v hv
          have : v = elim j p v + v j • p := by rw [elim_eq]; simp
          rw [this]; exact Submodule.add_mem _ hv (Submodule.smul_mem _ _ hpmem)
        intro v hv
        rcases List.mem_append.1 hv with hv | hv
        · obtain ⟨q, hq, rfl⟩ := List.mem_map.1 hv
          apply back; apply subset_rowSpan
          simp only [hN, List.mem_append, List.mem_map]
          exact Or.inl ⟨(q.1, elim j p q.2), Or.inl ⟨q, hq, rfl⟩, rfl⟩
        · by_cases hvr : v = r
          · have : v = r j • p := by
              rw [hvr, hpsmul, smul_smul, mul_inv_cancel₀ hrj, one_smul]
            rw [this]; exact Submodule.smul_mem _ _ hpmem
          · apply back; apply subset_rowSpan
            simp only [hN, List.mem_append, List.mem_map]
            exact Or.inr ⟨v, (List.mem_erase_of_ne hvr).2 hv, rfl⟩
    · have hlen : (rest.erase r).length = rest.length - 1 := List.length_erase_of_mem hr
      have hpos : 0 < rest.length := List.length_pos_of_mem hr
      have := h.len
      simp only [List.length_append, List.length_map, List.length_singleton] at *
      omega

theorem rrefState_inv (M : Rows F n) : RrefInv M n (rrefState M) := by
  have key : ∀ k (hk : k ≤ n),
      RrefInv M k (((List.finRange n).take k).foldl rrefStep ([], M)) := by
    intro k
    induction k with
    | zero =>
      intro _
      refine ⟨⟨by simp, by simp, by simp⟩, by simp, by simp, by simp, by simp⟩
    | succ k ih =>
      intro hk
      have hk' : k < n := hk
      have hlen : k < (List.finRange n).length := by simpa using hk'
      rw [List.take_add_one, List.getElem?_eq_getElem hlen]
      simp only [Option.toList_some, List.foldl_append, List.foldl_cons, List.foldl_nil]
      have hget : (List.finRange n)[k] = ⟨k, hk'⟩ := by simp
      rw [hget]
      exact rrefStep_inv ⟨k, hk'⟩ (ih (le_of_lt hk'))
  have h := key n le_rfl
  have : (List.finRange n).take n = List.finRange n := by
    apply List.take_of_length_le; simp
  rw [this] at h
  exact h

theorem rrefPairs_isRREF (M : Rows F n) : IsRREF (rrefPairs M) := (rrefState_inv M).rref

theorem rrefState_rest_zero (M : Rows F n) : ∀ r ∈ (rrefState M).2, r = 0 := by
  intro r hr; ext c; exact (rrefState_inv M).rest r hr c c.isLt

theorem rowSpan_rrefPairs (M : Rows F n) :
    rowSpan ((rrefPairs M).map Prod.snd) = rowSpan M := by
  rw [← (rrefState_inv M).span]
  apply le_antisymm
  · exact rowSpan_mono fun r hr => List.mem_append_left _ hr
  · rw [rowSpan_le]; intro r hr
    rcases List.mem_append.1 hr with hr | hr
    · exact subset_rowSpan hr
    · rw [rrefState_rest_zero M r hr]; exact Submodule.zero_mem _

theorem rowSpan_rowReduce (M : Rows F n) : rowSpan (rowReduce M) = rowSpan M :=
  (rrefState_inv M).span

theorem length_rowReduce (M : Rows F n) : (rowReduce M).length = M.length := by
  have := (rrefState_inv M).len
  simpa [rowReduce] using this

theorem IsRREF.ne_zero {d : List (Fin n × (Fin n → F))} (h : IsRREF d) {q} (hq : q ∈ d) :
    ∃ c, q.2 c ≠ 0 := ⟨q.1, by rw [h.one q hq]; exact one_ne_zero⟩

theorem dropZero_rowReduce (M : Rows F n) :
    dropZero (rowReduce M) = (rrefPairs M).map Prod.snd := by
  unfold dropZero rowReduce
  rw [List.filter_append]
  have h1 : ((rrefState M).1.map Prod.snd).filter (fun r => decide (∃ c, r c ≠ 0)) =
      (rrefState M).1.map Prod.snd := by
    rw [List.filter_eq_self]
    intro r hr
    obtain ⟨q, hq, rfl⟩ := List.mem_map.1 hr
    simpa using (rrefState_inv M).rref.ne_zero hq
  have h2 : ((rrefState M).2).filter (fun r => decide (∃ c, r c ≠ 0)) = [] := by
    rw [List.filter_eq_nil_iff]
    intro r hr
    rw [rrefState_rest_zero M r hr]; simp
  rw [h1, h2, List.append_nil]; rfl

/-- In a reduced form, an entry at another row's pivot column is zero. -/
theorem IsRREF.pivot_eq {d : List (Fin n × (Fin n → F))} (h : IsRREF d) :
    ∀ q ∈ d, ∀ q' ∈ d, q.2 q'.1 = if q = q' then 1 else 0 := by
  intro q hq q' hq'
  split_ifs with he
  · subst he; exact h.one q hq
  · have hp : d.Pairwise (fun a b => a.2 b.1 = 0 ∧ b.2 a.1 = 0) :=
      h.pair.imp_of_mem (fun {a b} ha hb hab => ⟨hab.2, h.left b hb a.1 hab.1⟩)
    have hsym : Std.Symm (fun a b : Fin n × (Fin n → F) => a.2 b.1 = 0 ∧ b.2 a.1 = 0) :=
      ⟨fun a b hab => ⟨hab.2, hab.1⟩⟩
    exact (hp.forall hq hq' he).1

theorem IsRREF.nodup_pivots {d : List (Fin n × (Fin n → F))} (h : IsRREF d) :
    (d.map Prod.fst).Pairwise (· < ·) := by
  rw [List.pairwise_map]; exact h.pair.imp fun hab => hab.1

theorem IsRREF.nodup {d : List (Fin n × (Fin n → F))} (h : IsRREF d) : d.Nodup := by
  refine h.pair.imp ?_
  intro a b hab he; subst he; exact lt_irrefl _ hab.1

theorem IsRREF.inj {d : List (Fin n × (Fin n → F))} (h : IsRREF d) {q q'} (hq : q ∈ d)
    (hq' : q' ∈ d) (he : q.1 = q'.1) : q = q' := by
  by_contra hne
  have h1 := h.pivot_eq q hq q' hq'
  rw [if_neg hne, ← he, h.one q hq] at h1
  exact one_ne_zero h1

/-- Sum of the rows weighted with coefficients that depend on the pair. -/
def combo (d : List (Fin n × (Fin n → F))) (a : Fin n → F) : Fin n → F :=
  (d.map fun q => a q.1 • q.2).sum

theorem combo_mem (d : List (Fin n × (Fin n → F))) (a : Fin n → F) :
    combo d a ∈ rowSpan (d.map Prod.snd) := by
  apply list_sum_mem
  intro x hx
  obtain ⟨q, hq, rfl⟩ := List.mem_map.1 hx
  exact Submodule.smul_mem _ _ (subset_rowSpan (List.mem_map.2 ⟨q, hq, rfl⟩))

theorem combo_add (d : List (Fin n × (Fin n → F))) (a b : Fin n → F) :
    combo d (a + b) = combo d a + combo d b := by
  induction d with
  | nil => simp [combo]
  | cons q d ih =>
    simp only [combo, List.map_cons, List.sum_cons] at *
    rw [ih]; simp only [Pi.add_apply, add_smul]; abel

theorem combo_smul (d : List (Fin n × (Fin n → F))) (c : F) (a : Fin n → F) :
    combo d (c • a) = c • combo d a := by
  induction d with
  | nil => simp [combo]
  | cons q d ih =>
    simp only [combo, List.map_cons, List.sum_cons] at *
    rw [ih]; simp [smul_add, mul_smul]

/-- Sum over a list with a single nonzero contribution. -/
theorem sum_map_eq_single {α M : Type*} [AddCommMonoid M] [DecidableEq α] {l : List α}
    (hn : l.Nodup) {a : α} (ha : a ∈ l) (f : α → M) (h0 : ∀ b ∈ l, b ≠ a → f b = 0) :
    (l.map f).sum = f a := by
  induction l with
  | nil => simp at ha
  | cons b l ih =>
    rw [List.nodup_cons] at hn
    rw [List.map_cons, List.sum_cons]
    rcases List.mem_cons.1 ha with rfl | ha'
    · have : (l.map f).sum = 0 := by
        apply List.sum_eq_zero
        intro x hx
        obtain ⟨c, hc, rfl⟩ := List.mem_map.1 hx
        exact h0 c (List.mem_cons_of_mem _ hc) (fun he => hn.1 (he ▸ hc))
      rw [this, add_zero]
    · have hne : b ≠ a := fun he => hn.1 (he ▸ ha')
      rw [h0 b (List.mem_cons_self) hne, zero_add]
      exact ih hn.2 ha' fun c hc => h0 c (List.mem_cons_of_mem _ hc)

theorem IsRREF.combo_pivot {d : List (Fin n × (Fin n → F))} (h : IsRREF d) (a : Fin n → F)
    {q} (hq : q ∈ d) : combo d a q.1 = a q.1 := by
  have : combo d a q.1 = (d.map fun q' => a q'.1 * q'.2 q.1).sum := by
    unfold combo
    clear hq h
    induction d with
    | nil => simp
    | cons b d ih => simp [ih]
  rw [this]
  rw [sum_map_eq_single h.nodup hq (fun q' => a q'.1 * q'.2 q.1)]
  · simp [h.one q hq]
  · intro b hb hne
    simp [h.pivot_eq b hb q hq, hne]

/-- A vector of the row space is determined by its entries at the pivots. -/
theorem IsRREF.eq_combo {d : List (Fin n × (Fin n → F))} (h : IsRREF d) {v}
    (hv : v ∈ rowSpan (d.map Prod.snd)) : v = combo d v := by
  induction hv using Submodule.span_induction with
  | mem r hr =>
    obtain ⟨q, hq, rfl⟩ := List.mem_map.1 hr
    unfold combo
    rw [sum_map_eq_single h.nodup hq]
    · simp [h.one q hq]
    · intro b hb hne
      rw [h.pivot_eq q hq b hb, if_neg (Ne.symm hne), zero_smul]
  | zero =>
    have := combo_smul d (0 : F) 0
    simpa using this.symm
  | add a b _ _ ha hb => rw [combo_add, ← ha, ← hb]
  | smul c a _ ha => rw [combo_smul, ← ha]

/-- A column is a pivot iff some vector of the row space starts there. -/
theorem IsRREF.mem_pivots_iff {d : List (Fin n × (Fin n → F))} (h : IsRREF d) (p : Fin n) :
    p ∈ d.map Prod.fst ↔
      ∃ v ∈ rowSpan (d.map Prod.snd), v p ≠ 0 ∧ ∀ c, c < p → v c = 0 := by
  constructor
  · intro hp
    obtain ⟨q, hq, rfl⟩ := List.mem_map.1 hp
    exact ⟨q.2, subset_rowSpan (List.mem_map.2 ⟨q, hq, rfl⟩),
      by rw [h.one q hq]; exact one_ne_zero, h.left q hq⟩
  · rintro ⟨v, hv, hvp, hvl⟩
    by_contra hp
    apply hvp
    rw [h.eq_combo hv]
    have : combo d v p = (d.map fun q' => v q'.1 * q'.2 p).sum := by
      unfold combo
      clear hv hp h
      induction d with
      | nil => simp
      | cons b d ih => simp [ih]
    rw [this]
    apply List.sum_eq_zero
    intro x hx
    obtain ⟨q, hq, rfl⟩ := List.mem_map.1 hx
    rcases lt_trichotomy q.1 p with hlt | heq | hgt
    · rw [hvl q.1 hlt, zero_mul]
    · exact absurd (List.mem_map.2 ⟨q, hq, heq⟩) hp
    · rw [h.left q hq p hgt, mul_zero]

/-- Uniqueness of the reduced row echelon form. -/
theorem rref_unique {d e : List (Fin n × (Fin n → F))} (hd : IsRREF d) (he : IsRREF e)
    (hs : rowSpan (d.map Prod.snd) = rowSpan (e.map Prod.snd)) : d = e := by
  have hpiv : d.map Prod.fst = e.map Prod.fst := by
    apply List.Pairwise.eq_of_mem_iff (r := (· < ·)) hd.nodup_pivots he.nodup_pivots
    intro p
    rw [hd.mem_pivots_iff, he.mem_pivots_iff, hs]
  have hrow : ∀ q ∈ d, ∀ q' ∈ e, q.1 = q'.1 → q = q' := by
    intro q hq q' hq' h1
    refine Prod.ext h1 ?_
    have hq2 : q.2 ∈ rowSpan (e.map Prod.snd) := by
      rw [← hs]; exact subset_rowSpan (List.mem_map.2 ⟨q, hq, rfl⟩)
    rw [he.eq_combo hq2]
    unfold combo
    rw [sum_map_eq_single he.nodup hq']
    · rw [← h1, hd.one q hq, one_smul]
    · intro b hb hne
      have hb' : b.1 ∈ d.map Prod.fst := by rw [hpiv]; exact List.mem_map.2 ⟨b, hb, rfl⟩
      obtain ⟨c, hc, hcb⟩ := List.mem_map.1 hb'
      rw [← hcb, hd.pivot_eq q hq c hc]
      rw [if_neg, zero_smul]
      intro hqc
      apply hne
      apply he.inj hb hq'
      rw [← hcb, ← hqc, h1]
  have hmem : ∀ q, q ∈ d ↔ q ∈ e := by
    intro q; constructor
    · intro hq
      have : q.1 ∈ e.map Prod.fst := by rw [← hpiv]; exact List.mem_map.2 ⟨q, hq, rfl⟩
      obtain ⟨q', hq', h1⟩ := List.mem_map.1 this
      rw [hrow q hq q' hq' h1.symm]; exact hq'
    · intro hq
      have : q.1 ∈ d.map Prod.fst := by rw [hpiv]; exact List.mem_map.2 ⟨q, hq, rfl⟩
      obtain ⟨q', hq', h1⟩ := List.mem_map.1 this
      rw [← hrow q' hq' q hq h1]; exact hq'
  exact List.Pairwise.eq_of_mem_iff (r := fun a b => a.1 < b.1)
    (hd.pair.imp fun h => h.1) (he.pair.imp fun h => h.1) hmem

end QLDPC
