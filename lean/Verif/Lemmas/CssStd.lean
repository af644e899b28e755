import Verif.Model.CSS
import Verif.Lemmas.StdStabilizer

/-!
# Lemmas about the standard form of CSS stabilizer codes
-/

namespace QLDPC

open Spec

set_option linter.unusedSectionVars false

variable {F : Type} [Field F] [DecidableEq F] {n : ℕ}

/-- Stabilizer rows in standard form: `mx` is the identity on the columns `sx`, `mz` on `sz`, and `gl`
are the remaining columns. -/
structure IsCssStd (mx mz : Rows F n) (gl sx sz : List (Fin n)) : Prop where
  perm : (gl ++ sx ++ sz).Perm (List.finRange n)
  lenX : mx.length = sx.length
  lenZ : mz.length = sz.length
  eyeX : ∀ (i j : ℕ) (hi : i < mx.length) (hj : j < sx.length), mx[i] sx[j] = if i = j then 1 else 0
  eyeZ : ∀ (i j : ℕ) (hi : i < mz.length) (hj : j < sz.length), mz[i] sz[j] = if i = j then 1 else 0

/-- One completed column of logical operators, before qudits are moved back. -/
def fillCol (rows : Rows F n) (cols : List (Fin n)) (seed : Fin n → F) : Fin n → F :=
  assign cols (rows.map fun r => - dot r seed) seed

section
variable {mx mz : Rows F n} {gl sx sz : List (Fin n)}

theorem IsCssStd.symm (h : IsCssStd mx mz gl sx sz) : IsCssStd mz mx gl sz sx where
  perm := by
    refine List.Perm.trans ?_ h.perm
    rw [List.append_assoc, List.append_assoc]
    exact List.Perm.append_left _ List.perm_append_comm
  lenX := h.lenZ
  lenZ := h.lenX
  eyeX := h.eyeZ
  eyeZ := h.eyeX

variable (h : IsCssStd mx mz gl sx sz)
include h

theorem IsCssStd.nodup : (gl ++ sx ++ sz).Nodup := h.perm.nodup_iff.2 (List.nodup_finRange n)

theorem IsCssStd.nodupGL : gl.Nodup := by
  have := h.nodup; rw [List.append_assoc] at this; exact (List.nodup_append.1 this).1

theorem IsCssStd.nodupZ : sz.Nodup := (List.nodup_append.1 h.nodup).2.1

theorem IsCssStd.GL_not_Z {c} (hc : c ∈ gl) : c ∉ sz := fun hx =>
  (List.nodup_append.1 h.nodup).2.2 c (List.mem_append_left _ hc) c hx rfl

theorem IsCssStd.X_not_Z {c} (hc : c ∈ sx) : c ∉ sz := fun hx =>
  (List.nodup_append.1 h.nodup).2.2 c (List.mem_append_right _ hc) c hx rfl

theorem IsCssStd.cover (c : Fin n) : c ∈ gl ∨ c ∈ sx ∨ c ∈ sz := by
  have := h.perm.mem_iff.2 (List.mem_finRange c)
  simp only [List.mem_append] at this
  tauto

theorem IsCssStd.fill_check {a : Fin n → F} (ha : ∀ c, c ∉ gl → a c = 0) :
    ∀ r ∈ mz, dot r (fillCol mz sz a) = 0 := by
  intro r hr
  rw [fillCol, dot_assign_eye h.nodupZ h.lenZ (fun r => r) _ _
    (fun c hc => ha c fun hg => h.GL_not_Z hg hc) h.eyeZ r hr, add_neg_cancel]

theorem IsCssStd.fill_other {a : Fin n → F} {c : Fin n} (hc : c ∉ sz) : fillCol mz sz a c = a c :=
  assign_of_notMem hc

theorem IsCssStd.fill_X {a : Fin n → F} (ha : ∀ c, c ∉ gl → a c = 0) {c : Fin n} (hc : c ∈ sx) :
    fillCol mz sz a c = 0 := by
  rw [h.fill_other (h.X_not_Z hc)]
  exact ha c fun hg => h.symm.GL_not_Z hg hc

theorem IsCssStd.fill_dot {a r : Fin n → F} (ha : ∀ c, c ∉ gl → a c = 0)
    (hr : ∀ c ∈ sz, r c = 0) : dot r (fillCol mz sz a) = dot r a := by
  unfold dot
  apply Finset.sum_congr rfl
  intro c _
  by_cases hc : c ∈ sz
  · rw [hr c hc, zero_mul, zero_mul]
  · rw [h.fill_other hc]

theorem IsCssStd.fill_pair {a b : Fin n → F} (ha : ∀ c, c ∉ gl → a c = 0)
    (hb : ∀ c, c ∉ gl → b c = 0) :
    dot (fillCol mz sz a) (fillCol mx sx b) = dot a b := by
  unfold dot
  apply Finset.sum_congr rfl
  intro c _
  by_cases hg : c ∈ gl
  · rw [h.fill_other (h.GL_not_Z hg), h.symm.fill_other (h.symm.GL_not_Z hg)]
  · rw [ha c hg, zero_mul]
    rcases h.cover c with hl | hx | hz
    · exact absurd hl hg
    · rw [h.fill_X ha hx, zero_mul]
    · rw [h.symm.fill_X hb hz, mul_zero]

end

/-- The seed in the logical columns. -/
theorem dot_eye_seed {gl : List (Fin n)} (hn : gl.Nodup) {k s t : ℕ} (hl : gl.length = k)
    (ht : t < k) :
    dot (assign gl (eyeRow k s : List F) 0) (assign gl (eyeRow k t) 0) = if s = t then 1 else 0 := by
  rw [dot_assign hn _ _ 0 (fun c _ => rfl), dot_zero_right, zero_add,
    Finset.sum_eq_single ⟨t, hl ▸ ht⟩]
  · simp only [Fin.getElem_fin]
    rw [assign_getElem hn, eyeRow_getD ht, eyeRow_getD ht, if_pos rfl, mul_one]
    simp only [eq_comm]
  · intro b _ hb
    rw [eyeRow_getD (hl ▸ b.isLt), if_neg, mul_zero]
    intro he; exact hb (Fin.ext he)
  · intro hh; exact absurd (Finset.mem_univ _) hh

theorem rowReduce_of_rank {M : Rows F n} (h : rank M = M.length) :
    rowReduce M = (rrefPairs M).map Prod.snd := by
  have hl := (rrefState_inv M).len
  have hr : (rrefState M).2 = [] := by
    apply List.eq_nil_of_length_eq_zero
    unfold rank rrefPairs at h
    omega
  simp [rowReduce, hr, rrefPairs]

/-- The standard form of a CSS stabilizer code has the required shape. -/
theorem stdCss_spec (hx hz : Rows F n) (hc : ∀ x ∈ hx, ∀ z ∈ hz, dot x z = 0) :
    let d := stdCss hx hz
    IsCssStd d.mx d.mz d.colsLX d.colsSX d.colsSZ ∧
      d.colsLX.length + rank hx + rank hz = n ∧
      d.colsLZ = d.colsLX ∧ d.mx.length = rank hx ∧ d.mz.length = rank hz ∧
      d.rowsSX = (0, rank hx) ∧ d.rowsSZ = (0, rank hz) ∧
      (∃ p : List (Fin n), p.Perm (List.finRange n) ∧ d.locs = takeAt p id) ∧
      rowSpan d.mx = rowSpan (hx.map fun r => r ∘ d.locs) ∧
      rowSpan d.mz = rowSpan (hz.map fun r => r ∘ d.locs) ∧
      d.colsLX.Pairwise (· < ·) ∧
      d.colsLX = pySlice (List.finRange n) (0, n - rank hx - rank hz) := by
  have hD := rrefPairs_isRREF hx
  set D := rrefPairs hx with hDdef
  have hDr : rank hx = D.length := rfl
  have hB := rrefPairs_isRREF hz
  set B := rrefPairs hz with hBdef
  have hBr : rank hz = B.length := rfl
  have hpxnd : (D.map Prod.fst).Nodup := hD.nodup_pivots.imp fun h => ne_of_lt h
  have hp1 := moveToBack_perm hpxnd
  obtain ⟨-, -, hperm1get⟩ := moveToBack_getElem hpxnd (le_refl n) (fun p _ => p.isLt)
  set perm1 := moveToBack (D.map Prod.fst) with hperm1
  set A := D.length with hA
  simp only [List.length_map, ← hA] at hperm1get
  have hAn : A ≤ n := by have := rank_le hx; omega
  set LZ := (B.map Prod.snd).map (takeAt perm1) with hLZ
  have hE := rrefPairs_isRREF LZ
  set E := rrefPairs LZ with hEdef
  have hBspan : rowSpan (B.map Prod.snd) = rowSpan hz := rowSpan_rrefPairs hz
  have hDspan : rowSpan (D.map Prod.snd) = rowSpan hx := rowSpan_rrefPairs hx
  have hrLZ : rank LZ = B.length := by
    rw [hLZ, rank_takeAt hp1, ← hBr]; exact rank_eq_of_rowSpan_eq hBspan
  have hElen : E.length = B.length := hrLZ
  have hcommZ : ∀ q ∈ D, ∀ z ∈ rowSpan LZ, dot (takeAt perm1 q.2) z = 0 := by
    intro q hq z hz'
    rw [dot_comm]
    refine dot_eq_zero_of_mem_rowSpan hz' ?_
    intro r hr
    obtain ⟨z0, hz0, rfl⟩ := List.mem_map.1 hr
    rw [dot_takeAt hp1]
    have h1 : z0 ∈ rowSpan hz := by rw [← hBspan]; exact subset_rowSpan hz0
    have h2 : q.2 ∈ rowSpan hx := by
      rw [← hDspan]; exact subset_rowSpan (List.mem_map.2 ⟨q, hq, rfl⟩)
    refine dot_eq_zero_of_mem_rowSpan h1 ?_
    intro z hzz
    rw [dot_comm]
    exact dot_eq_zero_of_mem_rowSpan h2 fun x hxx => hc x hxx z hzz
  have hElt : ∀ q ∈ E, q.1.val < n - A := by
    intro q hq
    by_contra hge
    obtain ⟨i, hi⟩ : ∃ i, q.1.val = n - A + i := ⟨q.1.val - (n - A), by omega⟩
    have hiA : i < A := by have := q.1.isLt; omega
    have h0 := hcommZ D[i] (List.getElem_mem hiA) q.2 (by
      rw [← rowSpan_rrefPairs LZ]; exact subset_rowSpan (List.mem_map.2 ⟨q, hq, rfl⟩))
    have hsum : dot (takeAt perm1 D[i].2) q.2 = q.2 q.1 := by
      unfold dot
      rw [Finset.sum_eq_single q.1]
      · have : takeAt perm1 D[i].2 q.1 = 1 := by
          have hq1 : q.1 = ⟨n - A + i, by omega⟩ := Fin.ext hi
          rw [hq1, takeAt_getElem? (hperm1get i hiA), List.getElem_map]
          exact hD.one _ (List.getElem_mem hiA)
        rw [this, one_mul]
      · intro c _ hc
        by_cases hlt : c < q.1
        · rw [hE.left q hq c hlt, mul_zero]
        · obtain ⟨i', hi'⟩ : ∃ i', c.val = n - A + i' := ⟨c.val - (n - A), by
            rw [Fin.lt_def] at hlt; omega⟩
          have hiA' : i' < A := by have := c.isLt; omega
          have : takeAt perm1 D[i].2 c = 0 := by
            have hq1 : c = ⟨n - A + i', by omega⟩ := Fin.ext hi'
            rw [hq1, takeAt_getElem? (hperm1get i' hiA'), List.getElem_map,
              hD.pivot_eq _ (List.getElem_mem hiA) _ (List.getElem_mem hiA'), if_neg]
            intro he
            have := (List.Nodup.getElem_inj_iff hD.nodup).1 he
            apply hc; apply Fin.ext; omega
          rw [this, zero_mul]
      · intro h; exact absurd (Finset.mem_univ _) h
    rw [hsum, hE.one q hq] at h0
    exact one_ne_zero h0
  have hpznd : (E.map Prod.fst).Nodup := hE.nodup_pivots.imp fun h => ne_of_lt h
  obtain ⟨hEm, hperm2mid, hperm2get⟩ := moveToBack_getElem hpznd (m := n - A) (by omega) (by
    intro p hp
    obtain ⟨q, hq, rfl⟩ := List.mem_map.1 hp
    exact hElt q hq)
  have hp2 := moveToBack_perm hpznd
  set perm2 := moveToBack (E.map Prod.fst) with hperm2
  simp only [List.length_map] at hEm hperm2mid hperm2get
  set k := n - A - E.length with hk
  have hkn : k + A + E.length = n := by omega
  have hrr : rowReduce LZ = E.map Prod.snd := rowReduce_of_rank (by rw [hrLZ, hLZ]; simp)
  have hd : stdCss hx hz =
      { mx := ((D.map Prod.snd).map (takeAt perm1)).map (takeAt perm2),
        mz := (E.map Prod.snd).map (takeAt perm2), locs := takeAt perm2 (takeAt perm1 id),
        rowsSX := (0, A), rowsSZ := (0, E.length), rowsGX := (0, 0), rowsGZ := (0, 0),
        colsLX := pySlice (List.finRange n) (0, k), colsLZ := pySlice (List.finRange n) (0, k),
        colsSX := pySlice (List.finRange n) (k, k + A),
        colsSZ := pySlice (List.finRange n) (k + A, k + A + E.length),
        colsGX := [], colsGZ := [] } := by
    unfold stdCss
    simp only [dropZero_rowReduce, ← hDdef, ← hBdef, firstNonzeroCols_rref hD, ← hperm1, ← hLZ, hrr,
      firstNonzeroCols_rref hE, ← hperm2, List.length_map, ← hA, ← hk]
  intro d
  have hlocs : d.locs = takeAt perm2 (takeAt perm1 id) := by simp only [d, hd]
  have hcomp : ∀ r : Fin n → F, r ∘ d.locs = takeAt perm2 (takeAt perm1 r) := by
    intro r; rw [hlocs]; rfl
  have hpp : ∃ p : List (Fin n), p.Perm (List.finRange n) ∧ d.locs = takeAt p id := by
    refine ⟨(List.finRange n).map d.locs, ?_, ?_⟩
    · have hinj : Function.Injective d.locs := by
        rw [hlocs, takeAt_eq hp2, takeAt_eq hp1]
        exact (Function.injective_id.comp (permEquiv hp1).injective).comp (permEquiv hp2).injective
      apply (List.perm_ext_iff_of_nodup ((List.nodup_finRange n).map hinj)
        (List.nodup_finRange n)).2
      intro a
      obtain ⟨b, rfl⟩ := (Finite.injective_iff_surjective.1 hinj) a
      simp
    · funext j; simp [takeAt]
  have hspan : ∀ L : Rows F n, rowSpan ((L.map (takeAt perm1)).map (takeAt perm2)) =
      Submodule.map (permLin F hp2).toLinearMap
        (Submodule.map (permLin F hp1).toLinearMap (rowSpan L)) := by
    intro L; rw [← rowSpan_map, ← rowSpan_map]; rfl
  have hspan' : ∀ L : Rows F n, (L.map fun r => r ∘ d.locs) =
      (L.map (takeAt perm1)).map (takeAt perm2) := by
    intro L; rw [List.map_map]; exact List.map_congr_left fun r _ => hcomp r
  have hcl : d.colsLX = pySlice (List.finRange n) (0, k) := by simp only [d, hd]
  refine ⟨?_, ?_, by simp only [d, hd], by simp [d, hd, hDr, hA], by simp [d, hd, hBr, hElen],
    by simp [d, hd, hDr], by simp [d, hd, hBr, hElen], hpp, ?_, ?_, ?_, ?_⟩
  · simp only [d, hd]
    constructor
    · rw [slices_perm hkn]
    · rw [slice_length (by omega) (by omega)]; simp [hA]
    · rw [slice_length (by omega) (by omega)]; simp
    · intro i j hi hj
      have hi' : i < A := by simpa using hi
      have hj' : j < A := by rw [slice_length (by omega) (by omega)] at hj; omega
      simp only [List.getElem_map]
      have hcol : (pySlice (List.finRange n) (k, k + A))[j] = ⟨k + j, by omega⟩ :=
        Fin.ext (slice_getElem hj)
      rw [hcol, takeAt_getElem? (hperm2mid j (by omega)), takeAt_getElem? (hperm1get j hj'),
        List.getElem_map, hD.pivot_eq _ (List.getElem_mem hi') _ (List.getElem_mem hj')]
      by_cases hij : i = j
      · subst hij; simp
      · rw [if_neg, if_neg hij]
        intro he; exact hij ((List.Nodup.getElem_inj_iff hD.nodup).1 he)
    · intro i j hi hj
      have hi' : i < E.length := by simpa using hi
      have hj' : j < E.length := by rw [slice_length (by omega) (by omega)] at hj; omega
      simp only [List.getElem_map]
      have hcol : (pySlice (List.finRange n) (k + A, k + A + E.length))[j] =
          ⟨n - E.length + j, by omega⟩ := by
        apply Fin.ext; rw [slice_getElem hj]; simp only; omega
      rw [hcol, takeAt_getElem? (hperm2get j hj'), List.getElem_map,
        hE.pivot_eq _ (List.getElem_mem hi') _ (List.getElem_mem hj')]
      by_cases hij : i = j
      · subst hij; simp
      · rw [if_neg, if_neg hij]
        intro he; exact hij ((List.Nodup.getElem_inj_iff hE.nodup).1 he)
  · rw [hcl, slice_length (by omega) (by omega), hDr, hBr, ← hElen]; omega
  · rw [hspan' hx, hspan hx, ← hDspan, ← hspan]; simp only [d, hd]
  · rw [hspan' hz, hspan hz, ← hBspan, ← rowSpan_map]
    have h1 : (B.map Prod.snd).map (permLin F hp1).toLinearMap = LZ := rfl
    rw [h1, ← rowSpan_rrefPairs LZ, ← hEdef, ← rowSpan_map]
    simp only [d, hd]; rfl
  · rw [hcl]
    simp only [pySlice, List.drop_zero]
    exact (List.pairwise_lt_finRange n).sublist (List.take_sublist _ _)
  · rw [hcl, hk, hDr, hBr, hElen]

end QLDPC
