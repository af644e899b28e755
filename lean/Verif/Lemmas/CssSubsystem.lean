import Verif.Lemmas.CssLogicals
import Verif.Spec.CSS

/-!
# Logical operators of CSS stabilizer and subsystem codes
-/

namespace QLDPC

open Spec

set_option linter.unusedSectionVars false

variable {F : Type} [Field F] [DecidableEq F] {n : ℕ}

theorem dot_restrict {gl : List (Fin n)} (hn : gl.Nodup) {a b : Fin n → F}
    (h : ∀ c, c ∉ gl → a c = 0 ∨ b c = 0) :
    dot a b = dot (CCode.selectCols gl a) (CCode.selectCols gl b) := by
  rw [← dot_assign_zero hn]
  unfold dot
  apply Finset.sum_congr rfl
  intro c _
  by_cases hc : c ∈ gl
  · obtain ⟨i, hi, rfl⟩ := List.getElem_of_mem hc
    rw [assign_getElem hn, List.getD_eq_getElem?_getD, List.getElem?_ofFn, dif_pos hi]
    rfl
  · rw [assign_of_notMem hc]
    rcases h c hc with h0 | h0 <;> simp [h0]

/-- The inverse in the code exists. -/
theorem css_nondegenerate {mx mz Gx Gz Cx Cz : Rows F n} {gl sx sz : List (Fin n)}
    (h : IsCssStd mx mz gl sx sz) (hCx : rowSpan (mx ++ Gx) = rowSpan Cx)
    (hCz : rowSpan (mz ++ Gz) = rowSpan Cz) (hGx : ∀ g ∈ Gx, ∀ c ∈ sx, g c = 0)
    (hGz : ∀ g ∈ Gz, ∀ c ∈ sz, g c = 0) (hmx : ∀ m ∈ mx, ∀ c ∈ Cz, dot m c = 0)
    (hst : ∀ v ∈ rowSpan Cz, v ∈ kernel Cx → v ∈ rowSpan mz)
    (w : Fin gl.length → F) (hw : w ∈ kernel (Gx.map (CCode.selectCols gl)))
    (hu : ∀ u ∈ kernel (Gz.map (CCode.selectCols gl)), dot u w = 0) : w = 0 := by
  set a : Fin n → F := assign gl (List.ofFn w) 0 with ha
  have ha0 : ∀ c, c ∉ gl → a c = 0 := fun c hc => by rw [ha, assign_of_notMem hc]; rfl
  have hsa : CCode.selectCols gl a = w := selectCols_assign h.nodupGL w
  set v := fillCol mx sx a with hv
  have hvgl : CCode.selectCols gl v = w := by
    rw [← hsa]
    funext i
    exact h.symm.fill_other (h.symm.GL_not_Z (List.getElem_mem _))
  have hvsz : ∀ c ∈ sz, v c = 0 := fun c hc => h.symm.fill_X ha0 hc
  have hvm : ∀ r ∈ mx, dot r v = 0 := h.symm.fill_check ha0
  have hvx : v ∈ kernel Cx := by
    rw [← kernel_eq_of_rowSpan_eq hCx]
    intro r hr
    rcases List.mem_append.1 hr with hr | hr
    · exact hvm r hr
    · rw [hv, h.symm.fill_dot ha0 (hGx r hr), ha, dot_assign_zero h.nodupGL]
      exact hw _ (List.mem_map.2 ⟨r, hr, rfl⟩)
  have hvz : v ∈ rowSpan Cz := by
    rw [mem_rowSpan_iff]
    intro x hx
    set y : Fin n → F := ∑ i : Fin mx.length, x (sx[i.val]'(by rw [← h.lenX]; exact i.isLt)) • mx.get i
      with hy
    have hyC : y ∈ kernel Cz := by
      apply Submodule.sum_mem
      intro i _
      apply Submodule.smul_mem
      intro c hc
      rw [dot_comm]
      exact hmx _ (List.getElem_mem _) c hc
    have hx' : x - y ∈ kernel Cz := Submodule.sub_mem _ hx hyC
    have hysx : ∀ c ∈ sx, (x - y) c = 0 := by
      intro c hc
      obtain ⟨j, hj, rfl⟩ := List.getElem_of_mem hc
      have hj' : j < mx.length := by rw [h.lenX]; exact hj
      rw [Pi.sub_apply, hy, Finset.sum_apply, Finset.sum_eq_single ⟨j, hj'⟩]
      · simp only [Pi.smul_apply, List.get_eq_getElem, smul_eq_mul]
        rw [h.eyeX j j hj' hj, if_pos rfl, mul_one, sub_self]
      · intro i _ hi
        simp only [Pi.smul_apply, List.get_eq_getElem, smul_eq_mul]
        rw [h.eyeX i.val j i.isLt hj, if_neg fun he => hi (Fin.ext he), mul_zero]
      · intro hh; exact absurd (Finset.mem_univ _) hh
    have hvy : dot v y = 0 := by
      have : y ∈ rowSpan mx := Submodule.sum_mem _ fun i _ =>
        Submodule.smul_mem _ _ (subset_rowSpan (List.getElem_mem _))
      rw [dot_comm]
      exact dot_eq_zero_of_mem_rowSpan this hvm
    have hmem : CCode.selectCols gl (x - y) ∈ kernel (Gz.map (CCode.selectCols gl)) := by
      intro r hr
      obtain ⟨g, hg, rfl⟩ := List.mem_map.1 hr
      rw [← dot_restrict h.nodupGL]
      · rw [← kernel_eq_of_rowSpan_eq hCz] at hx'
        exact hx' g (List.mem_append_right _ hg)
      · intro c hc
        rcases h.cover c with hh | hh | hh
        · exact absurd hh hc
        · exact Or.inr (hysx c hh)
        · exact Or.inl (hGz g hg c hh)
    have h1 : dot v (x - y) = 0 := by
      rw [dot_restrict h.nodupGL, hvgl, dot_comm]
      · exact hu _ hmem
      · intro c hc
        rcases h.cover c with hh | hh | hh
        · exact absurd hh hc
        · exact Or.inr (hysx c hh)
        · exact Or.inl (hvsz c hh)
    rw [dot_sub_right, hvy, sub_zero] at h1
    exact h1
  obtain ⟨c, hc⟩ := (mem_rowSpan_iff_exists mz v).1 (hst v hvz hvx)
  have hc0 : ∀ j : Fin mz.length, c j = 0 := by
    intro j
    have hj : j.val < sz.length := by rw [← h.lenZ]; exact j.isLt
    have h1 := hvsz _ (List.getElem_mem hj)
    rw [hc, Finset.sum_apply, Finset.sum_eq_single j] at h1
    · simp only [Pi.smul_apply, List.get_eq_getElem, smul_eq_mul] at h1
      rwa [h.eyeZ j.val j.val j.isLt hj, if_pos rfl, mul_one] at h1
    · intro i _ hi
      simp only [Pi.smul_apply, List.get_eq_getElem, smul_eq_mul]
      rw [h.eyeZ i.val j.val i.isLt hj, if_neg fun he => hi (Fin.ext he), mul_zero]
    · intro hh; exact absurd (Finset.mem_univ _) hh
  have hv0 : v = 0 := by rw [hc]; exact Finset.sum_eq_zero fun i _ => by rw [hc0 i, zero_smul]
  rw [← hvgl, hv0]; rfl

/-! ## Stabilizers of a subsystem code -/

theorem rowSpan_dropZero_rowReduce (M : Rows F n) : rowSpan (dropZero (rowReduce M)) = rowSpan M := by
  rw [dropZero_rowReduce, rowSpan_rrefPairs]

theorem length_dropZero_rowReduce (M : Rows F n) : (dropZero (rowReduce M)).length = rank M := by
  rw [dropZero_rowReduce, List.length_map]; rfl

theorem kernel_append' (A B : Rows F n) : kernel (A ++ B) = kernel A ⊓ kernel B := by
  ext x
  constructor
  · intro h
    exact ⟨fun r hr => h r (List.mem_append_left _ hr), fun r hr => h r (List.mem_append_right _ hr)⟩
  · rintro ⟨h1, h2⟩ r hr
    rcases List.mem_append.1 hr with hr | hr
    · exact h1 r hr
    · exact h2 r hr

theorem rowSpan_append' (A B : Rows F n) : rowSpan (A ++ B) = rowSpan A ⊔ rowSpan B := by
  unfold rowSpan
  rw [← Submodule.span_union]
  congr 1
  ext v; simp

theorem rowSpan_cssStabs (hx hz : Rows F n) : rowSpan (cssStabs hx hz) = rowSpan hx ⊓ kernel hz := by
  unfold cssStabs
  rw [rowSpan_nullSpace, kernel_append', kernel_nullSpace, rowSpan_dropZero_rowReduce,
    kernel_eq_of_rowSpan_eq (rowSpan_dropZero_rowReduce hz), inf_comm]

theorem length_cssStabs (hx hz : Rows F n) : (cssStabs hx hz).length = rank (cssStabs hx hz) := by
  have h1 := length_nullSpace (dropZero (rowReduce hz) ++ nullSpace (dropZero (rowReduce hx)))
  have h2 := finrank_kernel (dropZero (rowReduce hz) ++ nullSpace (dropZero (rowReduce hx)))
  rw [← rowSpan_nullSpace, finrank_rowSpan] at h2
  unfold cssStabs; omega

theorem cssStabs_dims (hx hz : Rows F n) :
    rank hx + rank (cssStabs hz hx) = rank hz + rank (cssStabs hx hz) := by
  have h1 := finrank_kernel (dropZero (rowReduce hz) ++ nullSpace (dropZero (rowReduce hx)))
  rw [← rowSpan_nullSpace, finrank_rowSpan] at h1
  rw [← finrank_rowSpan (_ ++ _), rowSpan_append', rowSpan_nullSpace, rowSpan_dropZero_rowReduce,
    kernel_eq_of_rowSpan_eq (rowSpan_dropZero_rowReduce hx)] at h1
  have h2 := Submodule.finrank_sup_add_finrank_inf_eq (rowSpan hz) (kernel hx)
  have h3 := finrank_kernel hx
  rw [← rowSpan_cssStabs, finrank_rowSpan, finrank_rowSpan] at h2
  change rank (cssStabs hx hz) + _ = n at h1
  omega

theorem rank_cssStabs_le (hx hz : Rows F n) : rank (cssStabs hx hz) ≤ rank hx := by
  rw [← finrank_rowSpan, ← finrank_rowSpan, rowSpan_cssStabs]
  exact Submodule.finrank_mono inf_le_left

theorem cssStabs_comm (hx hz : Rows F n) :
    ∀ x ∈ cssStabs hx hz, ∀ z ∈ cssStabs hz hx, dot x z = 0 := by
  intro x hx' z hz'
  have h1 : x ∈ rowSpan hx ⊓ kernel hz := by rw [← rowSpan_cssStabs]; exact subset_rowSpan hx'
  have h2 : z ∈ rowSpan hz ⊓ kernel hx := by rw [← rowSpan_cssStabs]; exact subset_rowSpan hz'
  exact dot_eq_zero_of_mem_rowSpan h1.1 h2.2

/-! ## Completeness from dimension counting -/

/-- A subspace orthogonal to the Z operators and the X operators together span `K`, if dimensions
match. -/
theorem finrank_sup_paired {S : Submodule F (Fin n → F)} {LX LZ : Rows F n} (hlen : LX.length = LZ.length)
    (hSZ : ∀ s ∈ S, ∀ z ∈ LZ, dot s z = 0)
    (hpair : ∀ (i j : ℕ) (hi : i < LX.length) (hj : j < LZ.length),
      dot LX[i] LZ[j] = if i = j then 1 else 0) :
    Module.finrank F (S ⊔ rowSpan LX : Submodule F (Fin n → F)) = Module.finrank F S + LX.length := by
  have hcoef : ∀ c : Fin LX.length → F, ∀ j (hj : j < LX.length),
      dot (∑ i, c i • LX.get i) (LZ[j]'(hlen ▸ hj)) = c ⟨j, hj⟩ := by
    intro c j hj
    have h1 : dot (∑ i, c i • LX.get i) (LZ[j]'(hlen ▸ hj)) =
        ∑ i, c i * dot (LX.get i) (LZ[j]'(hlen ▸ hj)) := by
      unfold dot
      simp only [Finset.sum_apply, Pi.smul_apply, smul_eq_mul, Finset.sum_mul, Finset.mul_sum]
      rw [Finset.sum_comm]
      exact Finset.sum_congr rfl fun _ _ => Finset.sum_congr rfl fun _ _ => by ring
    rw [h1, Finset.sum_eq_single ⟨j, hj⟩]
    · rw [List.get_eq_getElem, hpair j j hj, if_pos rfl, mul_one]
    · intro i _ hi
      rw [List.get_eq_getElem, hpair i.val j i.isLt, if_neg fun he => hi (Fin.ext he), mul_zero]
    · intro hh; exact absurd (Finset.mem_univ _) hh
  have hinf : S ⊓ rowSpan LX = ⊥ := by
    rw [eq_bot_iff]
    rintro v ⟨hvS, hvL⟩
    obtain ⟨c, rfl⟩ := (mem_rowSpan_iff_exists LX v).1 hvL
    have : ∀ i, c i = 0 := by
      intro i
      rw [← hcoef c i.val i.isLt]
      exact hSZ _ hvS _ (List.getElem_mem _)
    rw [Submodule.mem_bot]
    exact Finset.sum_eq_zero fun i _ => by rw [this i, zero_smul]
  have hrk : Module.finrank F (rowSpan LX) = LX.length := by
    have hli : LinearIndependent F LX.get := by
      rw [Fintype.linearIndependent_iff]
      intro c hc i
      rw [← hcoef c i.val i.isLt, hc, dot_zero_left]
    have : rowSpan LX = Submodule.span F (Set.range LX.get) := by
      unfold rowSpan; congr 1; ext v
      simp only [Set.mem_setOf_eq, Set.mem_range]
      exact List.mem_iff_get
    rw [this, finrank_span_eq_card hli]; simp
  have := Submodule.finrank_sup_add_finrank_inf_eq S (rowSpan LX)
  rw [hinf, finrank_bot, hrk] at this
  omega

theorem css_complete {S K : Submodule F (Fin n → F)} {LX LZ : Rows F n} (hlen : LX.length = LZ.length)
    (hS : S ≤ K) (hL : ∀ l ∈ LX, l ∈ K) (hSZ : ∀ s ∈ S, ∀ z ∈ LZ, dot s z = 0)
    (hpair : ∀ (i j : ℕ) (hi : i < LX.length) (hj : j < LZ.length),
      dot LX[i] LZ[j] = if i = j then 1 else 0)
    (hdim : Module.finrank F S + LX.length = Module.finrank F K) : S ⊔ rowSpan LX = K := by
  refine Submodule.eq_of_le_of_finrank_le (sup_le hS (rowSpan_le.2 hL)) ?_
  rw [finrank_sup_paired hlen hSZ hpair, hdim]

/-! ## Moving qudits -/

theorem dot_comp_locs {locs : Fin n → Fin n} (h : Function.Injective locs) (a b : Fin n → F) :
    dot (a ∘ locs) (b ∘ locs) = dot a b := by
  rw [← dot_comp_argsort h]
  congr 1
  funext q
  exact congrArg b (argsort_spec h q)

theorem comp_mem_rowSpan {locs : Fin n → Fin n} {L : Rows F n} {v : Fin n → F} (hv : v ∈ rowSpan L) :
    v ∘ locs ∈ rowSpan (L.map fun r => r ∘ locs) := by
  have : L.map (fun r => r ∘ locs) = L.map (LinearMap.funLeft F F locs) := rfl
  rw [this, rowSpan_map]
  exact ⟨v, hv, rfl⟩

theorem mem_rowSpan_comp {locs : Fin n → Fin n} {L : Rows F n} {w : Fin n → F}
    (hw : w ∈ rowSpan (L.map fun r => r ∘ locs)) : ∃ v ∈ rowSpan L, w = v ∘ locs := by
  have : L.map (fun r => r ∘ locs) = L.map (LinearMap.funLeft F F locs) := rfl
  rw [this, rowSpan_map] at hw
  obtain ⟨v, hv, rfl⟩ := hw
  exact ⟨v, hv, rfl⟩

/-- Completed and permuted columns satisfy the checks and keep the pairing of the seeds. -/
theorem cssFill_spec {mx mz Gx Gz hx hz : Rows F n} {gl sx sz : List (Fin n)} {locs : Fin n → Fin n}
    (hl : Function.Injective locs) (h : IsCssStd mx mz gl sx sz)
    (hCx : rowSpan (mx ++ Gx) = rowSpan (hx.map fun r => r ∘ locs))
    (hCz : rowSpan (mz ++ Gz) = rowSpan (hz.map fun r => r ∘ locs))
    (hGx : ∀ g ∈ Gx, ∀ c ∈ sx, g c = 0) (hGz : ∀ g ∈ Gz, ∀ c ∈ sz, g c = 0) {k : ℕ}
    {a b : ℕ → Fin n → F} (ha : ∀ t c, c ∉ gl → a t c = 0) (hb : ∀ t c, c ∉ gl → b t c = 0)
    (hab : ∀ s t, s < k → t < k → dot (a s) (b t) = if s = t then 1 else 0)
    (haz : ∀ t, ∀ r ∈ Gz, t < k → dot r (a t) = 0) (hbx : ∀ t, ∀ r ∈ Gx, t < k → dot r (b t) = 0) :
    IsCssLogicalBasis hx hz ((List.range k).map fun t => cssFill mz sz locs (a t))
      ((List.range k).map fun t => cssFill mx sx locs (b t)) := by
  constructor
  · simp
  · intro l hl' r hr
    obtain ⟨t, ht, rfl⟩ := List.mem_map.1 hl'
    show dot r (takeAt (argsort locs) (fillCol mz sz (a t))) = 0
    rw [dot_comp_argsort hl]
    have hm : r ∘ locs ∈ rowSpan (mz ++ Gz) := by
      rw [hCz]; exact comp_mem_rowSpan (subset_rowSpan hr)
    apply dot_eq_zero_of_mem_rowSpan hm
    intro g hg
    rcases List.mem_append.1 hg with hg | hg
    · exact h.fill_check (ha t) g hg
    · rw [h.fill_dot (ha t) (hGz g hg)]
      exact haz t g hg (List.mem_range.1 ht)
  · intro l hl' r hr
    obtain ⟨t, ht, rfl⟩ := List.mem_map.1 hl'
    show dot r (takeAt (argsort locs) (fillCol mx sx (b t))) = 0
    rw [dot_comp_argsort hl]
    have hm : r ∘ locs ∈ rowSpan (mx ++ Gx) := by
      rw [hCx]; exact comp_mem_rowSpan (subset_rowSpan hr)
    apply dot_eq_zero_of_mem_rowSpan hm
    intro g hg
    rcases List.mem_append.1 hg with hg | hg
    · exact h.symm.fill_check (hb t) g hg
    · rw [h.symm.fill_dot (hb t) (hGx g hg)]
      exact hbx t g hg (List.mem_range.1 ht)
  · intro i j hi hj
    simp only [List.getElem_map, List.getElem_range]
    show dot (takeAt (argsort locs) (fillCol mz sz (a i))) (takeAt (argsort locs) (fillCol mx sx (b j))) = _
    rw [dot_takeAt (argsort_perm locs), h.fill_pair (ha i) (hb j),
      hab i j (by simpa using hi) (by simpa using hj)]

theorem pySlice_left {α : Type} {A B : List α} {a : ℕ} (h : A.length = a) :
    pySlice (A ++ B) (0, a) = A := by
  subst h; simp [pySlice]

theorem pySlice_right {α : Type} {A B : List α} {a b : ℕ} (h : A.length = a) (hb : B.length = b) :
    pySlice (A ++ B) (a, a + b) = B := by
  subst h hb
  rw [pySlice, List.take_of_length_le (by simp), List.drop_left]

theorem pySlice_all {α : Type} {A : List α} {a : ℕ} (h : A.length = a) : pySlice A (0, a) = A := by
  subst h; simp [pySlice]

theorem takeAt_order (locs : Fin n → Fin n) (r : Fin n → F) :
    takeAt ((List.finRange n).map locs) r = r ∘ locs := by
  funext j
  simp [takeAt]

theorem insertionSort_split {gl A : List (Fin n)} (hs : gl.Pairwise (· < ·)) (hA : A.Nodup)
    (hsub : ∀ c ∈ A, c ∈ gl) :
    (A ++ gl.filter (fun q => q ∉ A)).insertionSort (· ≤ ·) = gl := by
  have hn : gl.Nodup := hs.imp fun h => ne_of_lt h
  have hperm : (A ++ gl.filter (fun q => q ∉ A)).Perm gl := by
    rw [List.perm_ext_iff_of_nodup _ hn]
    · intro c
      simp only [List.mem_append, List.mem_filter, decide_eq_true_eq]
      constructor
      · rintro (h | h)
        · exact hsub c h
        · exact h.1
      · intro h
        by_cases hc : c ∈ A
        · exact Or.inl hc
        · exact Or.inr ⟨h, hc⟩
    · rw [List.nodup_append]
      refine ⟨hA, hn.filter _, ?_⟩
      rintro a ha b hb rfl
      simp only [List.mem_filter, decide_eq_true_eq] at hb
      exact hb.2 ha
  apply List.Perm.eq_of_pairwise (le := (· ≤ ·))
  · intro a b _ _ h1 h2; exact le_antisymm h1 h2
  · exact List.pairwise_insertionSort _ _
  · exact hs.imp le_of_lt
  · exact (List.perm_insertionSort _ _).trans hperm

/-- Logical operators of a CSS stabilizer code. -/
theorem cssLogicals_stabilizer (hx hz : Rows F n) (hc : ∀ x ∈ hx, ∀ z ∈ hz, dot x z = 0) :
    ∃ LX LZ, cssLogicals hx hz false = some (LX, LZ) ∧ IsCssLogicalBasis hx hz LX LZ ∧
      LX.length = cssDimension hx hz false ∧ LX.length + rank hx + rank hz = n := by
  obtain ⟨h, hk, hLZ, hmx, hmz, hrx, hrz, ⟨p, hp, hlocs⟩, hsx, hsz, hpw, hgl⟩ := stdCss_spec hx hz hc
  set d := stdCss hx hz with hd
  have hkd : cssDimension hx hz false = d.colsLX.length := by
    simp only [cssDimension, length_dropZero_rowReduce]
    simp only [Bool.false_eq_true, if_false]
    omega
  have hinj : Function.Injective d.locs := by
    rw [hlocs, takeAt_eq hp]; exact Function.injective_id.comp (permEquiv hp).injective
  refine ⟨_, _, by unfold cssLogicals; simp only [Bool.false_eq_true, if_false]; rfl, ?_, by simp, ?_⟩
  · rw [← hd, hrx, hrz, pySlice_all hmx, pySlice_all hmz, hLZ]
    have h0 : ∀ t c, c ∉ d.colsLX →
        assign d.colsLX (eyeRow (cssDimension hx hz false) t : List F) 0 c = 0 :=
      fun t c hc => by rw [assign_of_notMem hc]; rfl
    apply cssFill_spec (Gx := []) (Gz := []) hinj h (by rw [List.append_nil]; exact hsx)
      (by rw [List.append_nil]; exact hsz) (by simp) (by simp) h0 h0
    · intro s t _ ht
      exact dot_eye_seed h.nodupGL hkd.symm ht
    · simp
    · simp
  · rw [List.length_map, List.length_range]; omega

/-- Logical operators of a CSS subsystem code: the computation never fails. -/
theorem cssLogicals_subsystem (hx hz : Rows F n) :
    ∃ LX LZ, cssLogicals hx hz true = some (LX, LZ) ∧ IsCssLogicalBasis hx hz LX LZ ∧
      LX.length = cssDimension hx hz true ∧
      LX.length + rank hz + rank (cssStabs hx hz) = n ∧ LX.length + rank hx + rank (cssStabs hz hx) = n := by
  obtain ⟨h, hk, hLZ, hmx, hmz, hrx, hrz, ⟨p, hp, hlocs⟩, hsx, hsz, hpw, hgl⟩ :=
    stdCss_spec _ _ (cssStabs_comm hx hz)
  set d := stdCss (cssStabs hx hz) (cssStabs hz hx) with hd
  have hinj : Function.Injective d.locs := by
    rw [hlocs, takeAt_eq hp]; exact Function.injective_id.comp (permEquiv hp).injective
  set order := (List.finRange n).map d.locs with horder
  have hordp : takeAt (α := F) order = fun r => r ∘ d.locs := by
    funext r; exact takeAt_order d.locs r
  set Cx := (dropZero (rowReduce hx)).map (takeAt order) with hCx
  set Cz := (dropZero (rowReduce hz)).map (takeAt order) with hCz
  have hspanX : rowSpan Cx = rowSpan (hx.map fun r => r ∘ d.locs) := by
    have e : ∀ L : Rows F n, L.map (fun r => r ∘ d.locs) = L.map (LinearMap.funLeft F F d.locs) :=
      fun _ => rfl
    rw [hCx, hordp, e, e, rowSpan_map, rowSpan_map, rowSpan_dropZero_rowReduce]
  have hspanZ : rowSpan Cz = rowSpan (hz.map fun r => r ∘ d.locs) := by
    have e : ∀ L : Rows F n, L.map (fun r => r ∘ d.locs) = L.map (LinearMap.funLeft F F d.locs) :=
      fun _ => rfl
    rw [hCz, hordp, e, e, rowSpan_map, rowSpan_map, rowSpan_dropZero_rowReduce]
  have hrkX : rank Cx = rank hx := by
    rw [hCx, horder]
    have hperm : ((List.finRange n).map d.locs).Perm (List.finRange n) := by
      rw [List.perm_ext_iff_of_nodup ((List.nodup_finRange n).map hinj) (List.nodup_finRange n)]
      intro a
      simp only [List.mem_map, List.mem_finRange, true_and, iff_true]
      exact Finite.surjective_of_injective hinj a
    rw [rank_takeAt hperm]
    exact rank_eq_of_rowSpan_eq (rowSpan_dropZero_rowReduce hx)
  have hrkZ : rank Cz = rank hz := by
    rw [hCz, horder]
    have hperm : ((List.finRange n).map d.locs).Perm (List.finRange n) := by
      rw [List.perm_ext_iff_of_nodup ((List.nodup_finRange n).map hinj) (List.nodup_finRange n)]
      intro a
      simp only [List.mem_map, List.mem_finRange, true_and, iff_true]
      exact Finite.surjective_of_injective hinj a
    rw [rank_takeAt hperm]
    exact rank_eq_of_rowSpan_eq (rowSpan_dropZero_rowReduce hz)
  -- stabilizers in the new frame
  have hmxC : ∀ m ∈ d.mx, ∃ v ∈ rowSpan hx ⊓ kernel hz, m = v ∘ d.locs := by
    intro m hm
    have : m ∈ rowSpan d.mx := subset_rowSpan hm
    rw [hsx] at this
    obtain ⟨v, hv, rfl⟩ := mem_rowSpan_comp this
    rw [rowSpan_cssStabs] at hv
    exact ⟨v, hv, rfl⟩
  have hmzC : ∀ m ∈ d.mz, ∃ v ∈ rowSpan hz ⊓ kernel hx, m = v ∘ d.locs := by
    intro m hm
    have : m ∈ rowSpan d.mz := subset_rowSpan hm
    rw [hsz] at this
    obtain ⟨v, hv, rfl⟩ := mem_rowSpan_comp this
    rw [rowSpan_cssStabs] at hv
    exact ⟨v, hv, rfl⟩
  have hCxmem : ∀ c ∈ Cx, ∃ v ∈ rowSpan hx, c = v ∘ d.locs := by
    intro c hc
    have : c ∈ rowSpan Cx := subset_rowSpan hc
    rw [hspanX] at this
    exact mem_rowSpan_comp this
  have hCzmem : ∀ c ∈ Cz, ∃ v ∈ rowSpan hz, c = v ∘ d.locs := by
    intro c hc
    have : c ∈ rowSpan Cz := subset_rowSpan hc
    rw [hspanZ] at this
    exact mem_rowSpan_comp this
  have hmxCz : ∀ m ∈ d.mx, ∀ c ∈ Cz, dot m c = 0 := by
    intro m hm c hc
    obtain ⟨v, hv, rfl⟩ := hmxC m hm
    obtain ⟨u, hu, rfl⟩ := hCzmem c hc
    rw [dot_comp_locs hinj, dot_comm]
    exact dot_eq_zero_of_mem_rowSpan hu hv.2
  have hmzCx : ∀ m ∈ d.mz, ∀ c ∈ Cx, dot m c = 0 := by
    intro m hm c hc
    obtain ⟨v, hv, rfl⟩ := hmzC m hm
    obtain ⟨u, hu, rfl⟩ := hCxmem c hc
    rw [dot_comp_locs hinj, dot_comm]
    exact dot_eq_zero_of_mem_rowSpan hu hv.2
  have hglv : ∀ i (hi : i < d.colsLX.length), (d.colsLX[i]).val = i := by
    intro i hi
    simp only [hgl, pySlice]
    simp
  obtain ⟨Gx, cGx, heqX, hspX, hGx0, hlenGx, hnX, hsubX, hrGx⟩ :=
    cssSector_spec (C := Cx) h hglv (fun m hm => by
      obtain ⟨v, hv, rfl⟩ := hmxC m hm
      rw [hspanX]; exact comp_mem_rowSpan hv.1) hmzCx
  obtain ⟨Gz, cGz, heqZ, hspZ, hGz0, hlenGz, hnZ, hsubZ, hrGz⟩ :=
    cssSector_spec (C := Cz) h.symm hglv (fun m hm => by
      obtain ⟨v, hv, rfl⟩ := hmzC m hm
      rw [hspanZ]; exact comp_mem_rowSpan hv.1) hmxCz
  -- dimensions
  have hdim := cssStabs_dims hx hz
  have hleX := rank_cssStabs_le hx hz
  have hleZ := rank_cssStabs_le hz hx
  have hg : cssGaugeDimension hx hz = Gx.length := by
    simp only [cssGaugeDimension, length_dropZero_rowReduce, length_cssStabs]; omega
  have hgz : Gz.length = Gx.length := by omega
  have hkk : cssDimension hx hz true + Gx.length = d.colsLX.length := by
    have hle : Gx.length ≤ d.colsLX.length := by rw [← hrGx]; exact rank_le _
    simp only [cssDimension, length_dropZero_rowReduce, length_cssStabs, if_true]; omega
  have hstd : stdCssSubsystem hx hz = some
      { mx := d.mx ++ Gx, mz := d.mz ++ Gz, locs := d.locs, rowsSX := d.rowsSX, rowsSZ := d.rowsSZ,
        rowsGX := (d.rowsSX.2, d.rowsSX.2 + cssGaugeDimension hx hz),
        rowsGZ := (d.rowsSZ.2, d.rowsSZ.2 + cssGaugeDimension hx hz),
        colsSX := d.colsSX, colsSZ := d.colsSZ, colsGX := cGx, colsGZ := cGz,
        colsLX := d.colsLZ.filter (fun q => q ∉ cGx),
        colsLZ := d.colsLZ.filter (fun q => q ∉ cGz) } := by
    unfold stdCssSubsystem
    simp only [← hd, ← horder, ← hCx, ← hCz]
    rw [hLZ, heqX, heqZ]
    rfl
  have hsort : (cGx ++ d.colsLZ.filter (fun q => q ∉ cGx)).insertionSort (· ≤ ·) = d.colsLX := by
    rw [hLZ]; exact insertionSort_split hpw hnX hsubX
  obtain ⟨sd, hsd⟩ := gaugeSeeds_isSome (gz := Gz) (gx := Gx) (cols := d.colsLX)
    (k := cssDimension hx hz true) (by rw [hrGz]; omega) (by rw [hrGx]; omega)
    (fun w hw hu => css_nondegenerate h hspX hspZ hGx0 hGz0 hmxCz (by
      intro v hv hvk
      rw [hspanZ] at hv
      obtain ⟨u, hu, rfl⟩ := mem_rowSpan_comp hv
      rw [hsz]
      apply comp_mem_rowSpan
      rw [rowSpan_cssStabs]
      refine ⟨hu, ?_⟩
      intro r hr
      rw [kernel_eq_of_rowSpan_eq hspanX] at hvk
      have := hvk _ (List.mem_map.2 ⟨r, hr, rfl⟩)
      rwa [dot_comp_locs hinj] at this) w hw hu)
  obtain ⟨s1, s2, s3, s4, s5⟩ := gaugeSeeds_spec h.nodupGL hsd
  refine ⟨(List.range (cssDimension hx hz true)).map fun t => cssFill d.mz d.colsSZ d.locs (sd.1 t),
    (List.range (cssDimension hx hz true)).map fun t => cssFill d.mx d.colsSX d.locs (sd.2 t),
    ?_, ?_, by simp, ?_, ?_⟩
  · unfold cssLogicals
    simp only [if_true]
    rw [hstd]
    simp only [Option.bind_eq_bind, Option.bind_some]
    rw [hsort, hrx, hrz, hg]
    simp only
    rw [pySlice_right hmx rfl, pySlice_right hmz hgz, pySlice_left hmx, pySlice_left hmz, hsd]
    rfl
  · exact cssFill_spec hinj h (hspX.trans hspanX) (hspZ.trans hspanZ) hGx0 hGz0 s1 s2 s3 s4
      (fun t r hr _ => s5 t r hr)
  · rw [List.length_map, List.length_range]; omega
  · rw [List.length_map, List.length_range]; omega

end QLDPC
