import Verif.Lemmas.InvRows

/-!
# Logical operators of CSS codes
-/

namespace QLDPC

open Spec

set_option linter.unusedSectionVars false

variable {F : Type} [Field F] [DecidableEq F] {n : ℕ}

/-- Product with a vector assigned on some columns of zero. -/
theorem dot_assign_zero {cols : List (Fin n)} (hn : cols.Nodup) (w : Fin cols.length → F)
    (r : Fin n → F) :
    dot r (assign cols (List.ofFn w) 0) = dot (CCode.selectCols cols r) w := by
  rw [dot_assign hn _ _ 0 (fun c _ => rfl), dot_zero_right, zero_add]
  unfold dot CCode.selectCols
  apply Finset.sum_congr rfl
  intro i _
  rw [List.getD_eq_getElem?_getD, List.getElem?_ofFn, dif_pos i.isLt]
  rfl

theorem selectCols_assign {cols : List (Fin n)} (hn : cols.Nodup) (w : Fin cols.length → F) :
    CCode.selectCols cols (assign cols (List.ofFn w) 0) = w := by
  funext i
  unfold CCode.selectCols
  rw [List.get_eq_getElem, assign_getElem hn, List.getD_eq_getElem?_getD, List.getElem?_ofFn,
    dif_pos i.isLt]
  rfl

/-- What `gaugeSeeds` returns, when it returns. -/
theorem gaugeSeeds_spec {gz gx : Rows F n} {cols : List (Fin n)} (hn : cols.Nodup) {k : ℕ}
    {sd : (ℕ → Fin n → F) × (ℕ → Fin n → F)} (h : gaugeSeeds gz gx cols k = some sd) :
    (∀ t c, c ∉ cols → sd.1 t c = 0) ∧ (∀ t c, c ∉ cols → sd.2 t c = 0) ∧
      (∀ s t, s < k → t < k → dot (sd.1 s) (sd.2 t) = if s = t then 1 else 0) ∧
      (∀ t, ∀ r ∈ gz, t < k → dot r (sd.1 t) = 0) ∧
      (∀ t, ∀ r ∈ gx, dot r (sd.2 t) = 0) := by
  unfold gaugeSeeds at h
  dsimp only at h
  set U := nullSpace (gz.map (CCode.selectCols cols)) with hU
  set W := nullSpace (gx.map (CCode.selectCols cols)) with hW
  split at h
  swap
  · cases h
  rename_i hk
  have hkW : W.length = k := hk
  obtain ⟨B, hB, hsd⟩ := Option.map_eq_some_iff.1 h
  obtain ⟨hlenA, hlenB, hAB⟩ := invRows_mul hB
  have hlenU : U.length = k := by simpa using hlenA
  rw [← hsd]
  have hWU : ∀ w ∈ rowSpan W, ∀ r ∈ gx, dot (CCode.selectCols cols r) w = 0 := by
    intro w hw r hr
    have : w ∈ kernel (gx.map (CCode.selectCols cols)) := by rw [← rowSpan_nullSpace]; exact hw
    exact this _ (List.mem_map.2 ⟨r, hr, rfl⟩)
  have hUz : ∀ w ∈ rowSpan U, ∀ r ∈ gz, dot (CCode.selectCols cols r) w = 0 := by
    intro w hw r hr
    have : w ∈ kernel (gz.map (CCode.selectCols cols)) := by rw [← rowSpan_nullSpace]; exact hw
    exact this _ (List.mem_map.2 ⟨r, hr, rfl⟩)
  -- columns of `mat_W @ mat_M`
  let col : ℕ → Fin cols.length → F := fun t c =>
    ((List.zip W B).map fun p => p.1 c * (List.ofFn p.2).getD t 0).sum
  have hcol : ∀ t, col t = vecMat (B.map fun b => (List.ofFn b).getD t 0) W := by
    intro t
    funext c
    simp only [col, vecMat]
    rw [← List.zip_swap, List.map_map, List.zip_map_left, List.map_map]
    congr 1
    apply List.map_congr_left
    intro p _
    simp [mul_comm]
  have hcolmem : ∀ t, col t ∈ rowSpan W := by
    intro t
    rw [hcol, mem_rowSpan_iff_vecMat]
    exact ⟨_, by rw [List.length_map, hlenB, hkW], rfl⟩
  refine ⟨?_, ?_, ?_, ?_, ?_⟩
  · intro t c hc; simp only; rw [assign_of_notMem hc]; rfl
  · intro t c hc; simp only; rw [assign_of_notMem hc]; rfl
  · intro s t hs ht
    show dot (assign cols (List.ofFn (U.getD s 0)) 0) (assign cols (List.ofFn (col t)) 0) = _
    rw [dot_assign_zero hn, selectCols_assign hn]
    have hentry := congrFun (congrFun hAB ⟨s, hs⟩) ⟨t, ht⟩
    rw [Matrix.mul_apply, Matrix.one_apply] at hentry
    have h1 : ∀ l : Fin k, toMat (U.map fun u => fun j : Fin k =>
        dot u (W[j.val]'(by have := j.isLt; omega))) ⟨s, hs⟩ l =
          dot (U.getD s 0) (W[l.val]'(by have := l.isLt; omega)) := by
      intro l
      have hsU : s < U.length := by omega
      simp only [toMat, List.getD_eq_getElem?_getD, List.getElem?_map,
        List.getElem?_eq_getElem hsU, Option.map_some, Option.getD_some]
    have h2 : dot (U.getD s 0) (col t) = ∑ l : Fin k, dot (U.getD s 0)
        (W[l.val]'(by have := l.isLt; omega)) * toMat B l ⟨t, ht⟩ := by
      unfold dot
      simp only [Finset.sum_mul]
      rw [Finset.sum_comm]
      apply Finset.sum_congr rfl
      intro c _
      simp only [col]
      have h3 : ((List.zip W B).map fun p => p.1 c * (List.ofFn p.2).getD t 0).sum =
          ∑ l : Fin k, (W[l.val]'(by have := l.isLt; omega)) c * toMat B l ⟨t, ht⟩ := by
        rw [← List.sum_ofFn]
        congr 1
        apply List.ext_getElem
        · simp [hkW, hlenB]
        · intro i hi1 hi2
          have hiB : i < B.length := by
            simp only [List.length_map, List.length_zip] at hi1; omega
          simp only [List.getElem_map, List.getElem_zip, List.getElem_ofFn, toMat]
          congr 1
          rw [List.getD_eq_getElem?_getD, List.getElem?_ofFn, dif_pos ht,
            List.getD_eq_getElem?_getD, List.getElem?_eq_getElem hiB]
          rfl
      rw [h3, Finset.mul_sum]
      exact Finset.sum_congr rfl fun l _ => by ring
    have h4 : (if (⟨s, hs⟩ : Fin k) = ⟨t, ht⟩ then (1 : F) else 0) = if s = t then 1 else 0 := by
      simp only [Fin.mk.injEq]
    rw [h2, ← h4, ← hentry]
    exact Finset.sum_congr rfl fun l _ => by rw [← h1]
  · intro t r hr ht
    show dot r (assign cols (List.ofFn (U.getD t 0)) 0) = 0
    rw [dot_assign_zero hn]
    apply hUz _ _ r hr
    rw [List.getD_eq_getElem?_getD, List.getElem?_eq_getElem (by omega)]
    exact subset_rowSpan (List.getElem_mem _)
  · intro t r hr
    show dot r (assign cols (List.ofFn (col t)) 0) = 0
    rw [dot_assign_zero hn]
    exact hWU _ (hcolmem t) r hr

theorem gaugeSeeds_isSome {gz gx : Rows F n} {cols : List (Fin n)} {k : ℕ}
    (hz : rank (gz.map (CCode.selectCols cols)) + k = cols.length)
    (hx : rank (gx.map (CCode.selectCols cols)) + k = cols.length)
    (hnd : ∀ w ∈ kernel (gx.map (CCode.selectCols cols)),
      (∀ u ∈ kernel (gz.map (CCode.selectCols cols)), dot u w = 0) → w = 0) :
    ∃ sd, gaugeSeeds gz gx cols k = some sd := by
  set U := nullSpace (gz.map (CCode.selectCols cols)) with hU
  set W := nullSpace (gx.map (CCode.selectCols cols)) with hW
  have hlU : U.length = k := by
    have h0 := length_nullSpace (gz.map (CCode.selectCols cols))
    rw [← hU] at h0; omega
  have hlW : W.length = k := by
    have h0 := length_nullSpace (gx.map (CCode.selectCols cols))
    rw [← hW] at h0; omega
  unfold gaugeSeeds
  dsimp only
  rw [dif_pos hlW]
  have hker : ∀ c : Fin k → F, (∀ a ∈ U.map (fun u => fun j : Fin k =>
      dot u (W[j.val]'(by have := j.isLt; omega))), dot a c = 0) → c = 0 := by
    intro c hc
    let w : Fin cols.length → F := ∑ j : Fin k, c j • (W[j.val]'(by have := j.isLt; omega))
    have hw : w ∈ rowSpan W := by
      apply Submodule.sum_mem
      intro j _
      exact Submodule.smul_mem _ _ (subset_rowSpan (List.getElem_mem _))
    have hdot : ∀ u : Fin cols.length → F, dot u w =
        dot (fun j : Fin k => dot u (W[j.val]'(by have := j.isLt; omega))) c := by
      intro u
      simp only [w, dot, Finset.sum_apply, Pi.smul_apply, smul_eq_mul, Finset.mul_sum, Finset.sum_mul]
      rw [Finset.sum_comm]
      exact Finset.sum_congr rfl fun j _ => Finset.sum_congr rfl fun i _ => by ring
    have hw0 : w = 0 := by
      apply hnd w (by rw [← rowSpan_nullSpace]; exact hw)
      intro u hu
      rw [← rowSpan_nullSpace] at hu
      apply dot_eq_zero_of_mem_rowSpan hu
      intro u' hu'
      rw [hdot]
      exact hc _ (List.mem_map.2 ⟨u', hu', rfl⟩)
    have hind := linearIndependent_nullSpace (gx.map (CCode.selectCols cols))
    rw [← hW] at hind
    rw [Fintype.linearIndependent_iff] at hind
    have hsum : ∑ i : Fin W.length, c ⟨i.val, by have := i.isLt; omega⟩ • W.get i = 0 := by
      rw [← hw0]
      apply Fintype.sum_equiv (finCongr hlW)
      intro i; rfl
    funext j
    exact hind (fun i => c ⟨i.val, by have := i.isLt; omega⟩) hsum
      ⟨j.val, by have := j.isLt; omega⟩
  obtain ⟨B, hB⟩ := invRows_isSome (by rw [List.length_map, hlU]) hker
  exact ⟨_, by rw [hB]; rfl⟩

end QLDPC
