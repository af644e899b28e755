import Verif.Model.Decoders
import Verif.Spec.Decoding
import Verif.Lemmas.Kernel
import Verif.Lemmas.Classical
import Verif.Lemmas.Tanner
import Mathlib.Data.List.Dedup
import Mathlib.Algebra.BigOperators.Field
import Mathlib.Tactic.LinearCombination

/-! # Lemmas on the generalized union-find decoder -/

namespace QLDPC

open Spec

set_option linter.unusedSectionVars false

variable {F : Type} [Field F] [DecidableEq F] {n N : ℕ}

theorem nth_eq (v : Fin N → F) (k : ℕ) : nth v k = entryAt v k := rfl

theorem cell_eq (H : Rows F N) (i j : ℕ) : cell H i j = matEntry H i j := rfl

/-! ### Placing a solution -/

theorem sum_gufPlace {bits : List ℕ} (hnd : bits.Nodup) (hlt : ∀ c ∈ bits, c < N) (r : Fin N → F)
    (v : Fin bits.length → F) : dot r (gufPlace N bits v) = ∑ j, nth r (bits.get j) * v j := by
  unfold dot
  have hinj : Function.Injective fun j : Fin bits.length => (⟨bits.get j, hlt _ (bits.get_mem j)⟩ : Fin N) := by
    intro a b h
    have := (Fin.mk.inj h)
    exact List.nodup_iff_injective_get.1 hnd this
  have hval : ∀ j : Fin bits.length, gufPlace N bits v ⟨bits.get j, hlt _ (bits.get_mem j)⟩ = v j := by
    intro j
    unfold gufPlace
    rw [if_pos (bits.get_mem j)]
    have : bits.idxOf (bits.get j) = j.val := by
      rw [List.get_eq_getElem]
      exact hnd.idxOf_getElem _ _
    simp only [this, nth, j.isLt, dite_true]
  rw [← Finset.sum_subset (Finset.subset_univ (Finset.univ.image fun j : Fin bits.length =>
    (⟨bits.get j, hlt _ (bits.get_mem j)⟩ : Fin N)))]
  · rw [Finset.sum_image (fun a _ b _ h => hinj h)]
    refine Finset.sum_congr rfl fun j _ => ?_
    rw [hval]
    congr 1
    unfold nth
    rw [dif_pos (hlt _ (bits.get_mem j))]
  · intro c _ hc
    have : c.val ∉ bits := by
      intro hm
      apply hc
      obtain ⟨k, hk, hk'⟩ := List.getElem_of_mem hm
      refine Finset.mem_image.2 ⟨⟨k, hk⟩, Finset.mem_univ _, ?_⟩
      exact Fin.ext (by simpa using hk')
    unfold gufPlace
    rw [if_neg this, mul_zero]

/-- Restriction to the columns `bits`. -/
def gufRestrict (bits : List ℕ) (e : Fin N → F) : Fin bits.length → F := fun j => nth e (bits.get j)

theorem gufPlace_restrict {bits : List ℕ} (e : Fin N → F) (h : ∀ c : Fin N, c.val ∉ bits → e c = 0) :
    gufPlace N bits (gufRestrict bits e) = e := by
  funext c
  unfold gufPlace
  split
  · rename_i hc
    have hlt : bits.idxOf c.val < bits.length := List.idxOf_lt_length_iff.2 hc
    simp only [nth, hlt, dite_true, gufRestrict, List.get_eq_getElem, List.getElem_idxOf, c.isLt]
  · rename_i hc
    exact (h c hc).symm

theorem gufPlace_support {bits : List ℕ} (v : Fin bits.length → F) (c : Fin N) (h : gufPlace N bits v c ≠ 0) :
    c.val ∈ bits := by
  unfold gufPlace at h
  split at h
  · assumption
  · exact absurd rfl h

/-! ### The linear problem -/

/-- The equations on the selected checks. -/
def Sub (H : Rows F N) (s : List F) (checks bits : List ℕ) (v : Fin bits.length → F) : Prop :=
  ∀ c ∈ checks, ∑ j, cell H c (bits.get j) * v j = s.getD c 0

theorem dot_snoc {m : ℕ} (a b : Fin m → F) (x y : F) :
    dot (Fin.snoc (α := fun _ => F) a x) (Fin.snoc (α := fun _ => F) b y) = dot a b + x * y := by
  unfold dot
  rw [Fin.sum_univ_castSucc]
  simp

theorem mem_kernel_augmented (H : Rows F N) (s : List F) (checks bits : List ℕ) (v : Fin bits.length → F) (x : F) :
    Fin.snoc (α := fun _ => F) v x ∈ kernel (augmented H s checks bits) ↔
      ∀ c ∈ checks, ∑ j, cell H c (bits.get j) * v j = s.getD c 0 * x := by
  rw [mem_kernel]
  unfold augmented
  constructor
  · intro h c hc
    have := h _ (List.mem_map.2 ⟨c, hc, rfl⟩)
    rw [dot_snoc] at this
    have h2 : ∑ j, cell H c (bits.get j) * v j + -(s.getD c 0) * x = 0 := this
    linear_combination h2
  · intro h r hr
    obtain ⟨c, hc, rfl⟩ := List.mem_map.1 hr
    rw [dot_snoc]
    have h2 : dot (fun j => cell H c (bits.get j)) v = s.getD c 0 * x := h c hc
    rw [h2]
    ring

theorem mem_kernel_subMatrix (H : Rows F N) (checks bits : List ℕ) (v : Fin bits.length → F) :
    v ∈ kernel (subMatrix H checks bits) ↔ ∀ c ∈ checks, ∑ j, cell H c (bits.get j) * v j = 0 := by
  rw [mem_kernel]
  unfold subMatrix
  constructor
  · intro h c hc
    exact h _ (List.mem_map.2 ⟨c, hc, rfl⟩)
  · intro h r hr
    obtain ⟨c, hc, rfl⟩ := List.mem_map.1 hr
    exact h c hc

theorem sub_of_mem_solutions {order2 : Bool} (h2 : order2 = true → ∀ x : F, x = 0 ∨ x = 1) {H : Rows F N}
    {s : List F} {checks bits : List ℕ} {v : Fin bits.length → F} (hv : v ∈ gufSolutions order2 H s checks bits) :
    Sub H s checks bits v := by
  unfold gufSolutions at hv
  obtain ⟨u, hu, rfl⟩ := List.mem_map.1 hv
  obtain ⟨hu, hlast⟩ := List.mem_filter.1 hu
  have hlast : u (Fin.last _) ≠ 0 := by simpa using hlast
  have hk : u ∈ kernel (augmented H s checks bits) := by
    rw [← rowSpan_nullSpace]
    exact Submodule.subset_span hu
  have hu' : u = Fin.snoc (α := fun _ => F) (fun j => u j.castSucc) (u (Fin.last _)) := by
    funext j
    refine Fin.lastCases ?_ (fun j => ?_) j <;> simp
  rw [hu', mem_kernel_augmented] at hk
  intro c hc
  have := hk c hc
  cases order2 with
  | true =>
    have h1 : u (Fin.last _) = 1 := (h2 rfl _).resolve_left hlast
    rw [h1, mul_one] at this
    simpa using this
  | false =>
    simp only [Bool.false_eq_true, if_false]
    rw [← mul_div_cancel_right₀ (s.getD c 0) hlast, ← this, Finset.sum_div]
    exact Finset.sum_congr rfl fun j _ => by ring

theorem solutions_ne_nil {order2 : Bool} {H : Rows F N} {s : List F} {checks bits : List ℕ}
    {v : Fin bits.length → F} (hv : Sub H s checks bits v) : gufSolutions order2 H s checks bits ≠ [] := by
  intro hnil
  have hk : Fin.snoc (α := fun _ => F) v 1 ∈ kernel (augmented H s checks bits) := by
    rw [mem_kernel_augmented]
    intro c hc
    rw [mul_one]
    exact hv c hc
  rw [← rowSpan_nullSpace] at hk
  have hzero : ∀ u ∈ rowSpan (nullSpace (augmented H s checks bits)), u (Fin.last _) = 0 := by
    intro u hu
    unfold rowSpan at hu
    induction hu using Submodule.span_induction with
    | mem u hu =>
      by_contra hne
      have : u ∈ (nullSpace (augmented H s checks bits)).filter fun v => v (Fin.last _) ≠ 0 :=
        List.mem_filter.2 ⟨hu, by simpa using hne⟩
      unfold gufSolutions at hnil
      rw [List.map_eq_nil_iff] at hnil
      rw [hnil] at this
      simp at this
    | zero => rfl
    | add a b _ _ ha hb => simp [ha, hb]
    | smul c a _ ha => simp [ha]
  have := hzero _ hk
  simp at this

/-! ### Choosing -/

theorem minBy_none {α : Type} {key : α → ℕ} {l : List α} : minBy key l = none ↔ l = [] := by
  cases l <;> simp [minBy]

theorem foldl_best_mem {α : Type} (key : α → ℕ) (l : List α) (x : α) :
    l.foldl (fun best y => if key y < key best then y else best) x = x ∨
      l.foldl (fun best y => if key y < key best then y else best) x ∈ l := by
  induction l generalizing x with
  | nil => simp
  | cons y l ih =>
    rw [List.foldl_cons]
    rcases ih (if key y < key x then y else x) with h | h
    · rw [h]
      split
      · exact .inr (by simp)
      · exact .inl rfl
    · exact .inr (by simp [h])

theorem minBy_mem {α : Type} {key : α → ℕ} {l : List α} {x : α} (h : minBy key l = some x) : x ∈ l := by
  cases l with
  | nil => simp [minBy] at h
  | cons y l =>
    rw [minBy] at h
    rw [← Option.some.inj h]
    rcases foldl_best_mem key l y with h | h
    · rw [h]; simp
    · simp [h]

theorem foldl_best_le {α : Type} (key : α → ℕ) (l : List α) (x : α) :
    key (l.foldl (fun best y => if key y < key best then y else best) x) ≤ key x ∧
      ∀ y ∈ l, key (l.foldl (fun best y => if key y < key best then y else best) x) ≤ key y := by
  induction l generalizing x with
  | nil => simp
  | cons y l ih =>
    rw [List.foldl_cons]
    obtain ⟨h1, h2⟩ := ih (if key y < key x then y else x)
    have hx : key (if key y < key x then y else x) ≤ key x ∧ key (if key y < key x then y else x) ≤ key y := by
      split <;> omega
    refine ⟨h1.trans hx.1, fun z hz => ?_⟩
    rcases List.mem_cons.1 hz with rfl | hz
    · exact h1.trans hx.2
    · exact h2 z hz

theorem minBy_le {α : Type} {key : α → ℕ} {l : List α} {x : α} (h : minBy key l = some x) :
    ∀ y ∈ l, key x ≤ key y := by
  cases l with
  | nil => simp [minBy] at h
  | cons z l =>
    rw [minBy] at h
    rw [← Option.some.inj h]
    intro y hy
    obtain ⟨h1, h2⟩ := foldl_best_le key l z
    rcases List.mem_cons.1 hy with rfl | hy
    · exact h1
    · exact h2 y hy

theorem gufImprove_spec {m : ℕ} (weight : (Fin m → F) → ℕ) (w : ℕ) (one : Fin m → F) (nulls : Rows F m)
    (cs : List (List F)) (best : Fin m → F) :
    (gufImprove weight w one nulls cs best = best ∨
      ∃ c ∈ cs, gufImprove weight w one nulls cs best = one + vecMat c nulls) ∧
    weight (gufImprove weight w one nulls cs best) ≤ weight best ∧
    (weight (gufImprove weight w one nulls cs best) ≤ w ∨
      ∀ c ∈ cs, weight (gufImprove weight w one nulls cs best) ≤ weight (one + vecMat c nulls)) := by
  induction cs generalizing best with
  | nil => simp [gufImprove]
  | cons c cs ih =>
    simp only [gufImprove]
    split
    · rename_i h1
      split
      · rename_i h2
        exact ⟨.inr ⟨c, by simp, rfl⟩, h1.le, .inl h2⟩
      · obtain ⟨a, b, d⟩ := ih (one + vecMat c nulls)
        refine ⟨?_, b.trans h1.le, ?_⟩
        · rcases a with a | ⟨c', hc', a⟩
          · exact .inr ⟨c, by simp, a⟩
          · exact .inr ⟨c', by simp [hc'], a⟩
        · rcases d with d | d
          · exact .inl d
          · refine .inr fun c' hc' => ?_
            rcases List.mem_cons.1 hc' with rfl | hc'
            · exact b
            · exact d c' hc'
    · rename_i h1
      obtain ⟨a, b, d⟩ := ih best
      refine ⟨?_, b, ?_⟩
      · rcases a with a | ⟨c', hc', a⟩
        · exact .inl a
        · exact .inr ⟨c', by simp [hc'], a⟩
      · rcases d with d | d
        · exact .inl d
        · refine .inr fun c' hc' => ?_
          rcases List.mem_cons.1 hc' with rfl | hc'
          · exact b.trans (by omega)
          · exact d c' hc'

theorem gufChoose_spec {els : List F} (hall : ∀ x : F, x ∈ 0 :: els) {H : Rows F N} {s : List F}
    {checks bits : List ℕ} (weight : (Fin bits.length → F) → ℕ) (maxWeight : Option ℕ)
    {first : Fin bits.length → F} (hf : Sub H s checks bits first) :
    Sub H s checks bits (gufChoose (0 :: els) weight maxWeight (subMatrix H checks bits) first) ∧
    ∀ w, maxWeight = some w →
      weight (gufChoose (0 :: els) weight maxWeight (subMatrix H checks bits) first) ≤ w ∨
      ∀ v, Sub H s checks bits v →
        weight (gufChoose (0 :: els) weight maxWeight (subMatrix H checks bits) first) ≤ weight v := by
  cases maxWeight with
  | none => exact ⟨hf, by simp⟩
  | some w =>
    simp only [gufChoose]
    split
    · set nulls := nullSpace (subMatrix H checks bits) with hn
      obtain ⟨l, hl⟩ := productRepeat_head (0 : F) els nulls.length
      obtain ⟨a, b, d⟩ := gufImprove_spec weight w first nulls (productRepeat (0 :: els) nulls.length).tail first
      constructor
      · rcases a with a | ⟨c, hcm, a⟩
        · rw [a]; exact hf
        · rw [a]
          have hcl := ((mem_productRepeat _ _ _).1 (List.mem_of_mem_tail hcm)).1
          have hk : vecMat c nulls ∈ kernel (subMatrix H checks bits) := by
            rw [← rowSpan_nullSpace]
            exact (mem_rowSpan_iff_vecMat _ _).2 ⟨c, hcl, rfl⟩
          rw [mem_kernel_subMatrix] at hk
          intro c' hc'
          simp only [Pi.add_apply, mul_add, Finset.sum_add_distrib]
          rw [hf c' hc', hk c' hc', add_zero]
      · intro w' hw'
        cases hw'
        rcases d with d | d
        · exact .inl d
        · refine .inr fun v hv => ?_
          have hk : v - first ∈ kernel (subMatrix H checks bits) := by
            rw [mem_kernel_subMatrix]
            intro c hc
            simp only [Pi.sub_apply, mul_sub, Finset.sum_sub_distrib]
            rw [hf c hc, hv c hc, sub_self]
          rw [← rowSpan_nullSpace, mem_rowSpan_iff_vecMat] at hk
          obtain ⟨c, hc, hc'⟩ := hk
          have hm : c ∈ productRepeat (0 :: els) nulls.length := (mem_productRepeat _ _ _).2 ⟨hc, fun x _ => hall x⟩
          have hv' : v = first + vecMat c nulls := by
            rw [hn, ← hc']
            abel
          rw [hl] at hm
          rcases List.mem_cons.1 hm with h0 | hm
          · rw [hv', h0, vecMat_replicate_zero, add_zero]
            exact b
          · rw [hv']
            exact d c (by rw [hl]; exact hm)
    · rename_i hw
      exact ⟨hf, fun w' hw' => .inl (by cases hw'; omega)⟩

end QLDPC
