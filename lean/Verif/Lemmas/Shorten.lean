import Verif.Lemmas.Classical
import Mathlib.Order.Fin.Basic
import Mathlib.Data.List.Sort
import Mathlib.Order.Fin.Basic

set_option linter.unusedSectionVars false

namespace QLDPC

variable {F : Type} [Field F] [DecidableEq F] {n m : ℕ}

/-- Reindexing of the columns as a linear map. -/
def reindex (e : Fin m → Fin n) : (Fin n → F) →ₗ[F] (Fin m → F) where
  toFun v := v ∘ e
  map_add' _ _ := rfl
  map_smul' _ _ := rfl

theorem mem_rowSpan_map (f : (Fin n → F) →ₗ[F] (Fin m → F)) (M : Rows F n) (w : Fin m → F) :
    w ∈ rowSpan (M.map f) ↔ ∃ v ∈ rowSpan M, w = f v := by
  have : rowSpan (M.map f) = (rowSpan M).map f := by
    unfold rowSpan
    rw [Submodule.map_span]
    congr 1
    ext x
    simp
  rw [this, Submodule.mem_map]
  constructor
  · rintro ⟨v, hv, rfl⟩; exact ⟨v, hv, rfl⟩
  · rintro ⟨v, hv, rfl⟩; exact ⟨v, hv, rfl⟩

/-- index map of `rollRow` -/
def rollIdx (n : ℕ) (shift : ℤ) (j : Fin n) : Fin n := ⟨((j.val - shift : ℤ) % n).toNat, by
    have hn : 0 < n := Nat.lt_of_le_of_lt (Nat.zero_le _) j.isLt
    have h1 := Int.emod_nonneg (j.val - shift : ℤ) (b := n) (by omega)
    have h2 := Int.emod_lt_of_pos (j.val - shift : ℤ) (b := n) (by omega)
    omega⟩

theorem rollRow_eq (shift : ℤ) (r : Fin n → F) : rollRow shift r = reindex (rollIdx n shift) r := rfl

theorem rollIdx_inv (shift : ℤ) (j : Fin n) : rollIdx n (-shift) (rollIdx n shift j) = j := by
  have hn : 0 < n := Nat.lt_of_le_of_lt (Nat.zero_le _) j.isLt
  apply Fin.ext
  have h1 := Int.emod_nonneg (j.val - shift : ℤ) (b := n) (by omega)
  simp only [rollIdx]
  rw [Int.toNat_of_nonneg h1, sub_neg_eq_add, Int.emod_add_emod, sub_add_cancel,
    Int.emod_eq_of_lt (by omega) (by exact_mod_cast j.isLt)]
  simp

/-- Row reduction of a matrix some row combination of which is nonzero in the first column. -/
theorem rowReduce_first {G : Rows F (n + 1)} (h : ∃ v ∈ rowSpan G, v 0 ≠ 0) (w : Fin (n + 1) → F) :
    w ∈ rowSpan ((rowReduce G).drop 1) ↔ w ∈ rowSpan G ∧ w 0 = 0 := by
  have hd := rrefPairs_isRREF G
  have hz := rrefState_rest_zero G
  have hspan := rowSpan_rrefPairs G
  have hrr : rowReduce G = (rrefPairs G).map Prod.snd ++ (rrefState G).2 := rfl
  obtain ⟨v, hv, hv0⟩ := h
  match hp : rrefPairs G with
  | [] =>
    rw [hp] at hspan
    rw [← hspan] at hv
    simp [rowSpan] at hv
    exact absurd (by rw [hv]; rfl) hv0
  | q :: rest =>
    rw [hp] at hd hspan hrr
    -- the first pivot is column 0
    have hq0 : q.1 = 0 := by
      by_contra hne
      apply hv0
      have hcomb := hd.eq_combo (v := v) (by rw [hspan]; exact hv)
      have := congrFun hcomb 0
      rw [combo_apply] at this
      rw [this]
      apply List.sum_eq_zero
      intro x hx
      obtain ⟨p, hp', rfl⟩ := List.mem_map.1 hx
      have hlt : (0 : Fin (n + 1)) < p.1 := by
        have hle : q.1 ≤ p.1 := by
          rcases List.mem_cons.1 hp' with rfl | hmem
          · exact le_rfl
          · have := (List.pairwise_cons.1 (List.pairwise_map.1 hd.nodup_pivots |>.imp fun h => h)).1 p hmem
            exact le_of_lt this
        exact lt_of_lt_of_le (Fin.pos_iff_ne_zero.2 hne) hle
      rw [hd.left p hp' 0 hlt, mul_zero]
    have hdrop : (rowReduce G).drop 1 = rest.map Prod.snd ++ (rrefState G).2 := by
      rw [hrr]; simp
    have hrest0 : ∀ p ∈ rest, p.2 0 = 0 := by
      intro p hp'
      have hmem : p ∈ q :: rest := by simp [hp']
      have := hd.pivot_eq p hmem q (by simp)
      rw [hq0] at this
      rw [this, if_neg]
      rintro rfl
      have := hd.nodup
      exact (List.nodup_cons.1 this).1 hp'
    have hsub : rowSpan (rest.map Prod.snd ++ (rrefState G).2) = rowSpan (rest.map Prod.snd) := by
      apply le_antisymm
      · rw [rowSpan_le]
        intro r hr
        rcases List.mem_append.1 hr with h | h
        · exact subset_rowSpan h
        · rw [hz r h]; exact Submodule.zero_mem _
      · exact rowSpan_mono fun r hr => List.mem_append_left _ hr
    rw [hdrop, hsub]
    constructor
    · intro hw
      refine ⟨?_, ?_⟩
      · rw [← hspan]
        exact rowSpan_mono (fun r hr => by simp at hr ⊢; tauto) hw
      · induction hw using Submodule.span_induction with
        | mem r hr =>
          obtain ⟨p, hp', rfl⟩ := List.mem_map.1 hr
          exact hrest0 p hp'
        | zero => rfl
        | add x y _ _ hx hy => rw [Pi.add_apply, hx, hy, add_zero]
        | smul c x _ hx => rw [Pi.smul_apply, hx, smul_zero]
    · rintro ⟨hw, hw0⟩
      have hcomb := hd.eq_combo (v := w) (by rw [hspan]; exact hw)
      rw [hcomb]
      unfold combo
      rw [List.map_cons, List.sum_cons, hq0, hw0, zero_smul, zero_add]
      apply list_sum_mem
      intro x hx
      obtain ⟨p, hp', rfl⟩ := List.mem_map.1 hx
      exact Submodule.smul_mem _ _ (subset_rowSpan (List.mem_map.2 ⟨p, hp', rfl⟩))

/-- where column `j` of the shortened matrix comes from -/
theorem shorten_index (bit : ℕ) (hb : bit < n + 1) (j : Fin n) :
    rollIdx (n + 1) (-(bit : ℤ)) (rollIdx n bit j).succ =
      Fin.succAbove (⟨bit, hb⟩ : Fin (n + 1)) j := by
  have hn : 0 < n := Nat.lt_of_le_of_lt (Nat.zero_le _) j.isLt
  have hj := j.isLt
  apply Fin.ext
  simp only [rollIdx, Fin.val_succ, sub_neg_eq_add]
  by_cases h : j.val < bit
  · have e1 : ((j.val : ℤ) - bit) % n = j.val - bit + n := by
      rw [← Int.add_emod_right (j.val - bit : ℤ) n]
      exact Int.emod_eq_of_lt (by omega) (by omega)
    rw [Fin.succAbove_of_castSucc_lt _ _ (by simpa [Fin.lt_def] using h), e1]
    have e2 : (((((j.val : ℤ) - bit + n).toNat + 1 : ℕ) : ℤ) + bit) % ((n + 1 : ℕ) : ℤ) = j.val := by
      have : (((((j.val : ℤ) - bit + n).toNat + 1 : ℕ) : ℤ) + bit) = j.val + ((n + 1 : ℕ) : ℤ) := by
        push_cast
        rw [Int.toNat_of_nonneg (by omega)]; ring
      rw [this, Int.add_emod_right]
      exact Int.emod_eq_of_lt (by omega) (by omega)
    rw [e2]; simp
  · have e1 : ((j.val : ℤ) - bit) % n = j.val - bit := Int.emod_eq_of_lt (by omega) (by omega)
    rw [Fin.succAbove_of_le_castSucc _ _ (by simpa [Fin.le_def] using h), e1]
    have e2 : (((((j.val : ℤ) - bit).toNat + 1 : ℕ) : ℤ) + bit) % ((n + 1 : ℕ) : ℤ) = j.val + 1 := by
      have : (((((j.val : ℤ) - bit).toNat + 1 : ℕ) : ℤ) + bit) = j.val + 1 := by
        push_cast
        rw [Int.toNat_of_nonneg (by omega)]; ring
      rw [this]
      exact Int.emod_eq_of_lt (by omega) (by omega)
    rw [e2]; simp

/-- One shortening step, when some word is nonzero at the bit. -/
theorem mem_shortenStep {G : Rows F (n + 1)} (bit : Fin (n + 1)) (h : ∃ v ∈ rowSpan G, v bit ≠ 0) :
    ∃ G' : Rows F n, shortenStep ⟨n + 1, G⟩ bit.val = ⟨n, G'⟩ ∧
      ∀ w, w ∈ rowSpan G' ↔ ∃ v ∈ rowSpan G, v bit = 0 ∧ w = v ∘ bit.succAbove := by
  refine ⟨_, rfl, ?_⟩
  intro w
  have e1 : (G.map (rollRow (-(bit.val : ℤ)))) = G.map (reindex (rollIdx (n + 1) (-(bit.val : ℤ)))) :=
    rfl
  have hroll0 : rollIdx (n + 1) (-(bit.val : ℤ)) 0 = bit := by
    apply Fin.ext
    simp only [rollIdx, Fin.val_zero, Nat.cast_zero, sub_neg_eq_add, zero_add]
    rw [Int.emod_eq_of_lt (by omega) (by omega)]
    simp
  have hfirst : ∃ v ∈ rowSpan (G.map (rollRow (-(bit.val : ℤ)))), v 0 ≠ 0 := by
    obtain ⟨v, hv, hv0⟩ := h
    refine ⟨reindex (rollIdx (n + 1) (-(bit.val : ℤ))) v, ?_, ?_⟩
    · rw [e1, mem_rowSpan_map]; exact ⟨v, hv, rfl⟩
    · show v (rollIdx (n + 1) (-(bit.val : ℤ)) 0) ≠ 0
      rw [hroll0]; exact hv0
  have e2 : ∀ M : Rows F (n + 1), (M.map fun r j => r j.succ) = M.map (reindex Fin.succ) := fun _ => rfl
  have e3 : ∀ M : Rows F n, M.map (rollRow (bit.val : ℤ)) = M.map (reindex (rollIdx n bit.val)) :=
    fun _ => rfl
  simp only [e2, e3]
  rw [mem_rowSpan_map]
  constructor
  · rintro ⟨x, hx, rfl⟩
    rw [mem_rowSpan_map] at hx
    obtain ⟨y, hy, rfl⟩ := hx
    rw [rowReduce_first hfirst] at hy
    obtain ⟨hy, hy0⟩ := hy
    rw [e1, mem_rowSpan_map] at hy
    obtain ⟨v, hv, rfl⟩ := hy
    refine ⟨v, hv, ?_, ?_⟩
    · have : v (rollIdx (n + 1) (-(bit.val : ℤ)) 0) = 0 := hy0
      rwa [hroll0] at this
    · funext j
      show v (rollIdx (n + 1) (-(bit.val : ℤ)) (rollIdx n bit.val j).succ) = _
      rw [shorten_index bit.val bit.isLt]
      rfl
  · rintro ⟨v, hv, hv0, rfl⟩
    refine ⟨reindex Fin.succ (reindex (rollIdx (n + 1) (-(bit.val : ℤ))) v), ?_, ?_⟩
    · rw [mem_rowSpan_map]
      refine ⟨_, ?_, rfl⟩
      rw [rowReduce_first hfirst]
      refine ⟨?_, ?_⟩
      · rw [e1, mem_rowSpan_map]; exact ⟨v, hv, rfl⟩
      · show v (rollIdx (n + 1) (-(bit.val : ℤ)) 0) = 0
        rw [hroll0]; exact hv0
    · funext j
      show _ = v (rollIdx (n + 1) (-(bit.val : ℤ)) (rollIdx n bit.val j).succ)
      rw [shorten_index bit.val bit.isLt]
      rfl

/-- The whole loop, for a strictly decreasing list of bits on which the code takes all patterns. -/
theorem shorten_fold (C : Submodule F (Fin n → F)) (all : List (Fin n))
    (hall : ∀ b ∈ all, ∃ v ∈ C, v b ≠ 0 ∧ ∀ b' ∈ all, b' ≠ b → v b' = 0)
    (done todo : List (Fin n)) (hdt : all = done ++ todo) (hsort : all.Pairwise (· > ·))
    (k : ℕ) (G : Rows F k) (e : Fin k → Fin n) (he : StrictMono e)
    (hran : ∀ i, (∃ j, e j = i) ↔ i ∉ done)
    (hsmall : ∀ b : Fin n, (∀ d ∈ done, b < d) → ∃ j : Fin k, j.val = b.val ∧ e j = b)
    (hG : ∀ w, w ∈ rowSpan G ↔ ∃ v ∈ C, (∀ d ∈ done, v d = 0) ∧ w = v ∘ e) :
    ∃ (k' : ℕ) (G' : Rows F k') (e' : Fin k' → Fin n),
      (todo.map Fin.val).foldl shortenStep ⟨k, G⟩ = ⟨k', G'⟩ ∧ StrictMono e' ∧
      (∀ i, (∃ j, e' j = i) ↔ i ∉ all) ∧
      ∀ w, w ∈ rowSpan G' ↔ ∃ v ∈ C, (∀ d ∈ all, v d = 0) ∧ w = v ∘ e' := by
  induction todo generalizing done k with
  | nil =>
    simp only [List.append_nil] at hdt
    subst hdt
    exact ⟨k, G, e, rfl, he, hran, hG⟩
  | cons b todo ih =>
    have hb : ∀ d ∈ done, b < d := by
      intro d hd
      rw [hdt] at hsort
      exact (List.pairwise_append.1 hsort).2.2 d hd b (by simp)
    obtain ⟨j, hj, hej⟩ := hsmall b hb
    obtain ⟨k, rfl⟩ : ∃ k', k = k' + 1 := ⟨k - 1, by have := j.isLt; omega⟩
    have hex : ∃ v ∈ rowSpan G, v j ≠ 0 := by
      obtain ⟨v, hv, hvb, hv'⟩ := hall b (by rw [hdt]; simp)
      refine ⟨v ∘ e, (hG _).2 ⟨v, hv, ?_, rfl⟩, by simpa [hej] using hvb⟩
      intro d hd
      exact hv' d (by rw [hdt]; simp [hd]) (ne_of_gt (hb d hd))
    obtain ⟨G', hstep, hG'⟩ := mem_shortenStep j hex
    rw [List.map_cons, List.foldl_cons, ← hj, hstep]
    refine ih (done ++ [b]) (by rw [hdt]; simp) k G' (e ∘ j.succAbove)
      (he.comp (Fin.strictMono_succAbove j)) ?_ ?_ ?_
    · intro i
      constructor
      · rintro ⟨l, rfl⟩ hmem
        rcases List.mem_append.1 hmem with h | h
        · exact (hran _).1 ⟨_, rfl⟩ h
        · rw [List.mem_singleton] at h
          simp only [Function.comp] at h
          rw [← hej] at h
          exact Fin.succAbove_ne j l (he.injective h)
      · intro hi
        rw [List.mem_append, not_or, List.mem_singleton] at hi
        obtain ⟨l, rfl⟩ := (hran i).2 hi.1
        have hne : l ≠ j := by rintro rfl; exact hi.2 hej
        obtain ⟨l', rfl⟩ := Fin.exists_succAbove_eq hne
        exact ⟨l', rfl⟩
    · intro b' hb'
      have hlt : b' < b := hb' b (by simp)
      obtain ⟨j', hj', hej'⟩ := hsmall b' fun d hd => hb' d (by simp [hd])
      have hj'k : j'.val < k := by
        have := j.isLt
        have : j'.val < j.val := by rw [hj', hj]; exact hlt
        omega
      refine ⟨⟨j'.val, hj'k⟩, hj', ?_⟩
      simp only [Function.comp]
      rw [Fin.succAbove_of_castSucc_lt]
      · rw [← hej']; congr 1
      · rw [Fin.lt_def]
        simp only [Fin.val_castSucc]
        rw [hj', hj]; exact hlt
    · intro w
      rw [hG']
      constructor
      · rintro ⟨x, hx, hx0, rfl⟩
        obtain ⟨v, hv, hvd, rfl⟩ := (hG x).1 hx
        refine ⟨v, hv, ?_, rfl⟩
        intro d hd
        rcases List.mem_append.1 hd with h | h
        · exact hvd d h
        · rw [List.mem_singleton.1 h, ← hej]; exact hx0
      · rintro ⟨v, hv, hvd, rfl⟩
        refine ⟨v ∘ e, (hG _).2 ⟨v, hv, fun d hd => hvd d (by simp [hd]), rfl⟩, ?_, rfl⟩
        simp only [Function.comp, hej]
        exact hvd b (by simp)

/-- A strictly increasing enumeration of the complement of `bits` is `bitsToKeep`. -/
theorem ofFn_eq_bitsToKeep {k : ℕ} (bits : List (Fin n)) (e : Fin k → Fin n) (he : StrictMono e)
    (hran : ∀ i, (∃ j, e j = i) ↔ i ∉ bits) : List.ofFn e = CCode.bitsToKeep n bits := by
  apply List.Perm.eq_of_pairwise (le := (· < ·))
  · intro a b _ _ h1 h2; exact absurd h1 (not_lt_of_gt h2)
  · rw [List.pairwise_ofFn]; exact fun i j h => he h
  · exact (List.pairwise_lt_finRange n).filter _
  · rw [List.perm_ext_iff_of_nodup]
    · intro a
      rw [List.mem_ofFn]
      simp [CCode.bitsToKeep, hran]
    · exact List.nodup_ofFn.2 he.injective
    · exact (List.nodup_finRange n).filter _

end QLDPC
