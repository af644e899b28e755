import Verif.Model.Qudit
import Verif.Lemmas.CssSector
import Mathlib.LinearAlgebra.Matrix.NonsingularInverse

/-!
# Inverse of a square matrix
-/

namespace QLDPC

open Spec

set_option linter.unusedSectionVars false

variable {F : Type} [Field F] [DecidableEq F] {k : ℕ}

/-- A list of rows as a matrix. -/
def toMat (A : Rows F k) : Matrix (Fin k) (Fin k) F := fun i j => A.getD i 0 j

/-- X part as a linear map. -/
def xLin (F : Type) [Field F] (k : ℕ) : (Fin (k + k) → F) →ₗ[F] (Fin k → F) where
  toFun := xPart
  map_add' _ _ := rfl
  map_smul' _ _ := rfl

/-- The rows `[A | I]`. -/
def augment (A : Rows F k) : Rows F (k + k) :=
  List.zipWith (fun a e => Fin.append a e) A ((List.finRange k).map fun i => Pi.single i 1)

theorem augment_length {A : Rows F k} (h : A.length = k) : (augment A).length = k := by
  simp [augment, h]

theorem augment_getElem {A : Rows F k} {i : ℕ} (hi : i < (augment A).length) (hi' : i < A.length)
    (hk : i < k) : (augment A)[i] = Fin.append A[i] (Pi.single ⟨i, hk⟩ 1) := by
  simp [augment]

/-- Vectors in the span of `[A | I]`: the left half is the right half times `A`. -/
theorem mem_span_augment {A : Rows F k} (h : A.length = k) {v : Fin (k + k) → F}
    (hv : v ∈ rowSpan (augment A)) (j : Fin k) : xPart v j = ∑ l, zPart v l * toMat A l j := by
  induction hv using Submodule.span_induction with
  | mem r hr =>
    obtain ⟨i, hi, rfl⟩ := List.mem_iff_getElem.1 hr
    have hik : i < k := by rw [← augment_length h]; exact hi
    rw [augment_getElem hi (by omega) hik, xPart_append, zPart_append,
      Finset.sum_eq_single ⟨i, hik⟩]
    · rw [Pi.single_eq_same, one_mul, toMat, List.getD_eq_getElem?_getD,
        List.getElem?_eq_getElem (by simp only; omega)]
      rfl
    · intro b _ hb; rw [Pi.single_eq_of_ne hb, zero_mul]
    · intro hh; exact absurd (Finset.mem_univ _) hh
  | zero => simp [xPart, zPart]
  | add a b _ _ ha hb =>
    have h1 : xPart (a + b) j = xPart a j + xPart b j := rfl
    have h2 : ∀ l, zPart (a + b) l = zPart a l + zPart b l := fun _ => rfl
    simp only [h1, h2, add_mul, Finset.sum_add_distrib, ha, hb]
  | smul c a _ ha =>
    have h1 : xPart (c • a) j = c * xPart a j := rfl
    have h2 : ∀ l, zPart (c • a) l = c * zPart a l := fun _ => rfl
    simp only [h1, h2, mul_assoc, ← Finset.mul_sum, ha]

/-- If the inverse is returned, it is one. -/
theorem invRows_mul {A B : Rows F k} (h : invRows A = some B) :
    A.length = k ∧ B.length = k ∧ toMat A * toMat B = 1 := by
  unfold invRows at h
  split at h
  · cases h
  rename_i hA
  rw [not_not] at hA
  dsimp only at h
  split at h
  · rename_i hR
    have hB := Option.some.inj h
    have hlen : (rowReduce (augment A)).length = k := by
      rw [length_rowReduce, augment_length hA]
    have hBlen : B.length = k := by
      rw [← hB, List.length_map]; exact hlen
    refine ⟨hA, hBlen, ?_⟩
    rw [mul_eq_one_comm]
    ext i j
    rw [Matrix.mul_apply]
    set r := (rowReduce (augment A))[i.val]'(by rw [hlen]; exact i.isLt) with hr
    have hx : xPart r = Pi.single i 1 := by
      have h1 := List.getElem_map (f := xPart) (l := rowReduce (augment A)) (i := i.val)
        (h := by rw [List.length_map, hlen]; exact i.isLt)
      rw [← hr] at h1
      rw [← h1]
      have hR' : (rowReduce (augment A)).map xPart =
        (List.finRange k).map fun i => (Pi.single i 1 : Fin k → F) := hR
      simp [hR']
    have hz : ∀ l, toMat B i l = zPart r l := by
      intro l
      have hB' : B = (rowReduce (augment A)).map zPart := hB.symm
      rw [toMat, List.getD_eq_getElem?_getD, hB', List.getElem?_map,
        List.getElem?_eq_getElem (by rw [hlen]; exact i.isLt)]
      rfl
    have hmem : r ∈ rowSpan (augment A) := by
      rw [← rowSpan_rowReduce]; exact subset_rowSpan (List.getElem_mem _)
    have := mem_span_augment hA hmem j
    simp only [hz]
    rw [← this, hx, Matrix.one_apply, Pi.single_apply]
    simp only [eq_comm]
  · cases h

/-- A square matrix with trivial kernel is inverted. -/
theorem invRows_isSome {A : Rows F k} (hA : A.length = k)
    (hker : ∀ c : Fin k → F, (∀ a ∈ A, dot a c = 0) → c = 0) : ∃ B, invRows A = some B := by
  have hrank : rank A = k := by
    have h1 := finrank_kernel A
    have h2 : kernel A = ⊥ := by
      rw [eq_bot_iff]
      intro c hc
      rw [Submodule.mem_bot]
      exact hker c hc
    rw [h2, finrank_bot] at h1
    omega
  have htop : rowSpan A = ⊤ := by
    apply Submodule.eq_top_of_finrank_eq
    rw [finrank_rowSpan, hrank]; simp
  have hD := rrefPairs_isRREF (augment A)
  set D := rrefPairs (augment A) with hDdef
  have hspan : rowSpan (D.map Prod.snd) = rowSpan (augment A) := rowSpan_rrefPairs _
  have hmapx : (augment A).map (xLin F k) = A := by
    apply List.ext_getElem
    · rw [List.length_map, augment_length hA, hA]
    · intro i h1 h2
      rw [List.getElem_map]
      have hi : i < (augment A).length := by simpa using h1
      rw [augment_getElem hi h2 (by omega)]
      exact xPart_append _ _
  have hsurj : ∀ e : Fin k → F, ∃ v ∈ rowSpan (augment A), xPart v = e := by
    intro e
    have : e ∈ rowSpan ((augment A).map (xLin F k)) := by rw [hmapx, htop]; trivial
    rw [rowSpan_map] at this
    obtain ⟨v, hv, he⟩ := this
    exact ⟨v, hv, he⟩
  have hpivs : ∀ j : Fin k, Fin.castAdd k j ∈ D.map Prod.fst := by
    intro j
    rw [hD.mem_pivots_iff]
    obtain ⟨v, hv, he⟩ := hsurj (Pi.single j 1)
    refine ⟨v, by rw [hspan]; exact hv, ?_, ?_⟩
    · have := congrFun he j
      rw [Pi.single_eq_same] at this
      show xPart v j ≠ 0
      rw [this]; exact one_ne_zero
    · intro c hc
      rw [Fin.lt_def, Fin.val_castAdd] at hc
      have hck : c.val < k := lt_trans hc j.isLt
      have := congrFun he ⟨c.val, hck⟩
      rw [Pi.single_eq_of_ne (by intro h; rw [Fin.ext_iff] at h; simp only at h; omega)] at this
      exact this
  have hDle : D.length ≤ k := by
    have h1 : D.length = rank (augment A) := rfl
    have h2 := rank_le_length (augment A)
    rw [augment_length hA] at h2
    omega
  have hDr : D.map (fun q => q.1.val) = List.range k := by
    have hpw : (D.map fun q => q.1.val).Pairwise (· < ·) := by
      rw [List.pairwise_map]; exact hD.pair.imp fun h => h.1
    -- contains `0, ..., k - 1` and has at most `k` entries
    have hsub : List.range k ⊆ D.map fun q => q.1.val := by
      intro i hi
      obtain ⟨q, hq, h1⟩ := List.mem_map.1 (hpivs ⟨i, List.mem_range.1 hi⟩)
      exact List.mem_map.2 ⟨q, hq, by rw [h1]; rfl⟩
    have hsp : (List.range k).Subperm (D.map fun q => q.1.val) :=
      List.subperm_of_subset List.nodup_range hsub
    have hperm : (List.range k).Perm (D.map fun q => q.1.val) :=
      hsp.perm_of_length_le (by simpa using hDle)
    apply eq_range_of_sorted hpw
    intro i; rw [← hperm.mem_iff, List.mem_range]
  have hDlen : D.length = k := by have := congrArg List.length hDr; simpa using this
  have hrr : rowReduce (augment A) = D.map Prod.snd :=
    rowReduce_of_rank (by
      rw [augment_length hA]; exact hDlen)
  refine ⟨(D.map Prod.snd).map zPart, ?_⟩
  unfold invRows
  rw [if_neg (not_not.2 hA)]
  have hm : rowReduce (List.zipWith (fun a e => Fin.append a e) A
      ((List.finRange k).map fun i => (Pi.single i 1 : Fin k → F))) = D.map Prod.snd := hrr
  simp only [hm]
  rw [if_pos]
  apply List.ext_getElem
  · simp [hDlen]
  · intro i h1 h2
    have hi : i < D.length := by simpa using h1
    have hval : ∀ j (hj : j < D.length), D[j].1.val = j := by
      intro j hj
      have h3 : (D.map (fun q => q.1.val))[j]'(by simpa using hj) = j := by simp [hDr]
      simpa using h3
    simp only [List.getElem_map, List.getElem_finRange]
    funext j
    have hj : j.val < D.length := by rw [hDlen]; exact j.isLt
    have hcol : Fin.castAdd k j = D[j.val].1 := Fin.ext (by rw [hval]; rfl)
    show D[i].2 (Fin.castAdd k j) = _
    rw [hcol, hD.pivot_eq _ (List.getElem_mem hi) _ (List.getElem_mem hj), Pi.single_apply]
    by_cases hij : i = j.val
    · rw [if_pos, if_pos]
      · apply Fin.ext; simp [hij]
      · simp [hij]
    · rw [if_neg, if_neg]
      · intro he; apply hij; rw [he]; simp
      · intro he; exact hij ((List.Nodup.getElem_inj_iff hD.nodup).1 he)

end QLDPC
