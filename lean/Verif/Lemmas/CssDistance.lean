import Verif.Model.CssDistance
import Verif.Lemmas.CssSubsystem
import Verif.Props.ClassicalDistance

/-! Brute force distance of products, and operators of a CSS code by type. -/

set_option linter.unusedSectionVars false

namespace QLDPC

open Spec Props

variable {F : Type} [Field F] [DecidableEq F] {n : ℕ}

theorem linearIndependent_ne_zero {L : Rows F n} (hL : L ≠ [])
    (hind : LinearIndependent F (fun i => L.get i)) : ∃ l ∈ L, l ≠ 0 := by
  obtain ⟨l, L', rfl⟩ := List.exists_cons_of_ne_nil hL
  exact ⟨l, by simp, hind.ne_zero (⟨0, by simp⟩ : Fin (l :: L').length)⟩

theorem sublist_sum_any (hF : IsBinary F) (G : Rows F n) (v : Fin n → F) :
    (∃ t : Rows F n, t.Sublist G ∧ v = t.sum) ↔ v ∈ rowSpan G := by
  constructor
  · rintro ⟨t, ht, rfl⟩
    obtain ⟨c, hc, hs, _⟩ := sublist_sum_vecMat ht
    exact (mem_rowSpan_iff_vecMat G _).2 ⟨c, hc, hs⟩
  · intro hv
    obtain ⟨c, hc, rfl⟩ := (mem_rowSpan_iff_vecMat G v).1 hv
    obtain ⟨t, ht, hs⟩ := vecMat_sublist_sum hF G c hc
    exact ⟨t, ht, hs.symm⟩

/-- The brute force minimum is the least weight of a nontrivial product of rows of `L` times any product
of rows of `S`. -/
theorem productDistance_spec (wb : ℕ) (els : List F) (hnd : (0 :: els).Nodup)
    (hall : ∀ x, x ∈ 0 :: els) (hn : 0 < n) (hwb : n < 2 ^ wb) (h64 : n < 2 ^ 64) {L : Rows F n}
    (hL : L ≠ []) (hind : LinearIndependent F (fun i => L.get i)) (S : Rows F n) :
    ∃ d, productDistance wb (0 :: els) L S = some d ∧
      IsLeast {k | ∃ l ∈ rowSpan L, l ≠ 0 ∧ ∃ s ∈ rowSpan S, k = hammingNorm (l + s)} d := by
  unfold productDistance
  split
  · rename_i h2
    have hF := isBinary_of_list hnd hall h2
    have hG : ∀ M : Rows F n, (M.map fun r => List.ofFn fun i => decide (r i ≠ 0)) =
        (M.map toZ2).map bitsOf := by
      intro M
      rw [List.map_map]
      exact List.map_congr_left fun r _ => (bitsOf_toZ2 r).symm
    obtain ⟨d, hd, _, hmin⟩ := C15_homogeneous_width wb n hn hwb h64 15 (L.map toZ2) (S.map toZ2)
    refine ⟨d, by rw [hG, hG]; exact hd, ?_⟩
    have hset : {w | ∃ t s : List (Fin n → ZMod 2), t.Sublist (L.map toZ2) ∧ t ≠ [] ∧
          s.Sublist (S.map toZ2) ∧ w = hammingNorm (t.sum + s.sum)} =
        {k | ∃ l ∈ rowSpan L, l ≠ 0 ∧ ∃ s ∈ rowSpan S, k = hammingNorm (l + s)} := by
      ext k
      constructor
      · rintro ⟨t, s, ht, htne, hs, rfl⟩
        obtain ⟨t', ht', rfl⟩ := List.sublist_map_iff.1 ht
        obtain ⟨s', hs', rfl⟩ := List.sublist_map_iff.1 hs
        obtain ⟨h1, h2⟩ := (sublist_sum_iff hF hind t'.sum).1
          ⟨t', ht', by rintro rfl; exact htne rfl, rfl⟩
        refine ⟨t'.sum, h1, h2, s'.sum, (sublist_sum_any hF S _).1 ⟨s', hs', rfl⟩, ?_⟩
        rw [← toZ2_sum hF, ← toZ2_sum hF, ← toZ2_add hF, hammingNorm_toZ2]
      · rintro ⟨l, hl, h0, s, hs, rfl⟩
        obtain ⟨t, ht, htne, rfl⟩ := (sublist_sum_iff hF hind l).2 ⟨hl, h0⟩
        obtain ⟨s', hs', rfl⟩ := (sublist_sum_any hF S s).2 hs
        refine ⟨t.map toZ2, s'.map toZ2, ht.map _, by simpa using htne, hs'.map _, ?_⟩
        rw [← toZ2_sum hF, ← toZ2_sum hF, ← toZ2_add hF, hammingNorm_toZ2]
    have := hmin (by simpa using hL)
    unfold IsMinProductWeight at this
    rwa [hset] at this
  · have hmem : ∀ M : Rows F n, ∀ v, IsWord (CCode.fromGenerator M).matrix v ↔ v ∈ rowSpan M := by
      intro M v
      rw [C04_from_generator, isCombination_iff]
    have gen : ∀ M : Rows F n, GenBasis (CCode.fromGenerator M) := fun M => genBasis_of_fresh rfl
    obtain ⟨_, hmL⟩ := C03_skip_zero els hnd hall _ (gen L)
    obtain ⟨_, hmS, _⟩ := C03_iter_words (0 :: els) hnd hall _ (gen S)
    have hset : ∀ k, k ∈ (((CCode.fromGenerator L).iterWords (0 :: els) true).flatMap fun l =>
        ((CCode.fromGenerator S).iterWords (0 :: els) false).map fun s => countNonzero (l + s)) ↔
        k ∈ {k | ∃ l ∈ rowSpan L, l ≠ 0 ∧ ∃ s ∈ rowSpan S, k = hammingNorm (l + s)} := by
      intro k
      simp only [List.mem_flatMap, List.mem_map, hmL, hmS, hmem, countNonzero_eq, Set.mem_setOf_eq]
      constructor
      · rintro ⟨l, ⟨h1, h2⟩, s, h3, rfl⟩; exact ⟨l, h1, h2, s, h3, rfl⟩
      · rintro ⟨l, h1, h2, s, h3, rfl⟩; exact ⟨l, ⟨h1, h2⟩, s, h3, rfl⟩
    obtain ⟨l, hl, hl0⟩ := linearIndependent_ne_zero hL hind
    obtain ⟨d, hd, hdm, hmin⟩ := pyMin_spec (((CCode.fromGenerator L).iterWords (0 :: els)
        true).flatMap fun l =>
        ((CCode.fromGenerator S).iterWords (0 :: els) false).map fun s => countNonzero (l + s))
      (by
        intro h
        have := (hset (hammingNorm (l + 0))).2 ⟨l, subset_rowSpan hl, hl0, 0, Submodule.zero_mem _, rfl⟩
        rw [h] at this
        simp at this)
    exact ⟨d, hd, (hset d).1 hdm, fun k hk => hmin k ((hset k).2 hk)⟩

/-! ## Operators by type -/

theorem firstNonzeroCols_eq {N : ℕ} (hN : 0 < N) (M : Rows F N) : firstNonzeroCols M =
    M.map fun r => ((List.finRange N).find? fun c => decide (r c ≠ 0)).getD ⟨0, hN⟩ := by
  cases N with
  | zero => omega
  | succ N => rfl

theorem mem_zip_map {α β : Type} (f : α → β) (l : List α) (p : β × α) :
    p ∈ List.zip (l.map f) l ↔ ∃ a ∈ l, p = (f a, a) := by
  induction l with
  | nil => simp
  | cons a l ih =>
    simp [ih]

namespace CssCode

theorem mem_stabOps {c : CssCode F n} {A B : Rows F n} (h : c.stabMatrix = blockDiag2 A B)
    (hn : 0 < n) (p : PauliXZ) (v : Fin n → F) : v ∈ c.stabOps p ↔
      match p with
      | .X => v ∈ A ∨ (v = 0 ∧ v ∈ B)
      | .Z => v ∈ B ∧ v ≠ 0 := by
  have hf : ∀ r : Fin (n + n) → F, ∀ c : Fin (n + n),
      ((List.finRange (n + n)).find? fun c => decide (r c ≠ 0)).getD ⟨0, by omega⟩ = c →
      (r = 0 ∧ c.val = 0) ∨ r c ≠ 0 := by
    intro r c hc
    cases hfd : (List.finRange (n + n)).find? fun c => decide (r c ≠ 0) with
    | none =>
      rw [hfd] at hc
      left
      refine ⟨?_, by rw [← hc]; rfl⟩
      rw [List.find?_eq_none] at hfd
      funext i
      simpa using hfd i (List.mem_finRange i)
    | some d =>
      rw [hfd] at hc
      right
      have := List.find?_some hfd
      rw [← hc]
      simpa using this
  have hm : v ∈ c.stabOps p ↔ ∃ r ∈ blockDiag2 A B,
      ((match p with
        | .X => (((List.finRange (n + n)).find? fun c => decide (r c ≠ 0)).getD
            ⟨0, by omega⟩).val < n
        | .Z => ¬ (((List.finRange (n + n)).find? fun c => decide (r c ≠ 0)).getD
            ⟨0, by omega⟩).val < n) : Prop) ∧
      v = match p with
        | .X => xPart r
        | .Z => zPart r := by
    unfold stabOps
    rw [h, firstNonzeroCols_eq (by omega)]
    simp only [List.mem_map, List.mem_filter, mem_zip_map]
    constructor
    · rintro ⟨_, ⟨⟨r, hr, rfl⟩, h2⟩, rfl⟩
      refine ⟨r, hr, ?_, by cases p <;> rfl⟩
      cases p <;> simpa using h2
    · rintro ⟨r, hr, h2, rfl⟩
      refine ⟨_, ⟨⟨r, hr, rfl⟩, ?_⟩, by cases p <;> rfl⟩
      cases p <;> simpa using h2
  have hA : ∀ a : Fin n → F, ∀ c : Fin (n + n), Fin.append a (0 : Fin n → F) c ≠ 0 → c.val < n := by
    intro a c
    refine Fin.addCases (fun i _ => by simp) (fun i hi => ?_) c
    rw [Fin.append_right] at hi; exact absurd rfl hi
  have hB : ∀ b : Fin n → F, ∀ c : Fin (n + n), Fin.append (0 : Fin n → F) b c ≠ 0 → ¬ c.val < n := by
    intro b c
    refine Fin.addCases (fun i hi => ?_) (fun i _ => by simp) c
    simp at hi
  have hz : ∀ a b : Fin n → F, (Fin.append a b : Fin (n + n) → F) = 0 → a = 0 ∧ b = 0 := by
    intro a b hab
    constructor
    · funext i
      simpa using congrFun hab (Fin.castAdd n i)
    · funext i
      have := congrFun hab (Fin.natAdd n i)
      rwa [Fin.append_right] at this
  rw [hm]
  cases p with
  | X =>
    constructor
    · rintro ⟨r, hr, h1, rfl⟩
      rcases List.mem_append.1 hr with hr | hr <;> obtain ⟨u, hu, rfl⟩ := List.mem_map.1 hr
      · left; rw [xPart_append]; exact hu
      · right
        rcases hf (Fin.append 0 u) _ rfl with ⟨h0, _⟩ | h0
        · rw [xPart_append]
          exact ⟨rfl, by rw [← (hz _ _ h0).2]; exact hu⟩
        · exact absurd h1 (hB u _ h0)
    · rintro (hv | ⟨rfl, hv⟩)
      · refine ⟨Fin.append v 0, List.mem_append_left _ (List.mem_map.2 ⟨v, hv, rfl⟩), ?_,
          (xPart_append _ _).symm⟩
        rcases hf (Fin.append v 0) _ rfl with ⟨_, h0⟩ | h0
        · simp only; omega
        · exact hA v _ h0
      · refine ⟨Fin.append 0 0, List.mem_append_right _ (List.mem_map.2 ⟨0, hv, rfl⟩), ?_,
          (xPart_append _ _).symm⟩
        rcases hf (Fin.append (0 : Fin n → F) 0) _ rfl with ⟨_, h0⟩ | h0
        · simp only; omega
        · exact hA 0 _ h0
  | Z =>
    constructor
    · rintro ⟨r, hr, h1, rfl⟩
      rcases List.mem_append.1 hr with hr | hr <;> obtain ⟨u, hu, rfl⟩ := List.mem_map.1 hr
      · rcases hf (Fin.append u 0) _ rfl with ⟨_, h0⟩ | h0
        · simp only at h1; omega
        · exact absurd (hA u _ h0) h1
      · simp only [zPart_append]
        refine ⟨hu, ?_⟩
        rintro rfl
        rcases hf (Fin.append (0 : Fin n → F) 0) _ rfl with ⟨_, h0⟩ | h0
        · simp only at h1; omega
        · exact h1 (hA 0 _ h0)
    · rintro ⟨hv, h0⟩
      refine ⟨Fin.append 0 v, List.mem_append_right _ (List.mem_map.2 ⟨v, hv, rfl⟩), ?_,
        (zPart_append _ _).symm⟩
      rcases hf (Fin.append (0 : Fin n → F) v) _ rfl with ⟨h1, _⟩ | h1
      · exact absurd (hz _ _ h1).2 h0
      · exact hB v _ h1

theorem rowSpan_stabOps {c : CssCode F n} {A B : Rows F n} (h : c.stabMatrix = blockDiag2 A B) :
    rowSpan (c.stabOps .X) = rowSpan A ∧ rowSpan (c.stabOps .Z) = rowSpan B := by
  rcases Nat.eq_zero_or_pos n with rfl | hn
  · exact ⟨Subsingleton.elim _ _, Subsingleton.elim _ _⟩
  · constructor
    · apply le_antisymm <;> rw [rowSpan_le]
      · intro v hv
        rcases (mem_stabOps h hn .X v).1 hv with hv | ⟨rfl, _⟩
        · exact subset_rowSpan hv
        · exact Submodule.zero_mem _
      · intro v hv
        exact subset_rowSpan ((mem_stabOps h hn .X v).2 (.inl hv))
    · apply le_antisymm <;> rw [rowSpan_le]
      · intro v hv
        exact subset_rowSpan ((mem_stabOps h hn .Z v).1 hv).1
      · intro v hv
        by_cases h0 : v = 0
        · rw [h0]; exact Submodule.zero_mem _
        · exact subset_rowSpan ((mem_stabOps h hn .Z v).2 ⟨hv, h0⟩)

end CssCode

/-! ## Complete sets of logical operators -/

/-- Logical operators that, with the stabilizers, generate everything that commutes with the checks. -/
structure CssComplete (hx hz LX LZ : Rows F n) : Prop where
  basis : IsCssLogicalBasis hx hz LX LZ
  x : rowSpan hx ⊓ kernel hz ⊔ rowSpan LX = kernel hz
  z : rowSpan hz ⊓ kernel hx ⊔ rowSpan LZ = kernel hx

theorem _root_.QLDPC.Spec.IsCssLogicalBasis.symm {hx hz LX LZ : Rows F n}
    (h : IsCssLogicalBasis hx hz LX LZ) : IsCssLogicalBasis hz hx LZ LX where
  len := h.len.symm
  commX := h.commZ
  commZ := h.commX
  pair := fun i j hi hj => by
    have := h.pair j i hj hi
    rw [← show (if j = i then (1 : F) else 0) = if i = j then 1 else 0 by simp [eq_comm], ← this]
    exact Finset.sum_congr rfl fun _ _ => mul_comm _ _

theorem CssComplete.symm {hx hz LX LZ : Rows F n} (h : CssComplete hx hz LX LZ) :
    CssComplete hz hx LZ LX := ⟨h.basis.symm, h.z, h.x⟩

/-- A logical basis of the right size is complete. -/
theorem cssComplete_of_dim {hx hz LX LZ : Rows F n} {sub : Bool}
    (hsub : sub = false → ∀ x ∈ hx, ∀ z ∈ hz, dot x z = 0) (h : IsCssLogicalBasis hx hz LX LZ)
    (hdim : LX.length = cssDimension hx hz sub) : CssComplete hx hz LX LZ := by
  have hd : Module.finrank F (rowSpan hx ⊓ kernel hz : Submodule F (Fin n → F)) + LX.length =
        Module.finrank F (kernel hz) ∧
      Module.finrank F (rowSpan hz ⊓ kernel hx : Submodule F (Fin n → F)) + LX.length =
        Module.finrank F (kernel hx) := by
    have fx := finrank_kernel hx
    have fz := finrank_kernel hz
    cases sub with
    | true =>
      obtain ⟨A, B, _, _, h3, h4, h5⟩ := cssLogicals_subsystem hx hz
      rw [← rowSpan_cssStabs, ← rowSpan_cssStabs, finrank_rowSpan, finrank_rowSpan]
      omega
    | false =>
      obtain ⟨A, B, _, _, h3, h4⟩ := cssLogicals_stabilizer hx hz (hsub rfl)
      have e1 : rowSpan hx ⊓ kernel hz = rowSpan hx := inf_eq_left.2 (rowSpan_le.2
        fun x hx' z hz' => by rw [dot_comm]; exact hsub rfl x hx' z hz')
      have e2 : rowSpan hz ⊓ kernel hx = rowSpan hz := inf_eq_left.2 (rowSpan_le.2
        fun z hz' x hx' => hsub rfl x hx' z hz')
      rw [e1, e2, finrank_rowSpan, finrank_rowSpan]
      omega
  refine ⟨h, ?_, ?_⟩
  · exact css_complete h.len inf_le_right h.commX
      (fun s hs z hz' => dot_eq_zero_of_mem_rowSpan hs.1 (h.commZ z hz')) h.pair hd.1
  · exact css_complete h.symm.len inf_le_right h.commZ
      (fun s hs z hz' => dot_eq_zero_of_mem_rowSpan hs.1 (h.commX z hz')) h.symm.pair
      (by rw [h.symm.len]; exact hd.2)

theorem kernel_cssStabs (hx hz : Rows F n) : kernel (cssStabs hz hx) = rowSpan hx ⊔ kernel hz := by
  unfold cssStabs
  rw [kernel_nullSpace, rowSpan_append', rowSpan_nullSpace, rowSpan_dropZero_rowReduce,
    kernel_eq_of_rowSpan_eq (rowSpan_dropZero_rowReduce hz)]

theorem isNontrivialX_iff (hx hz : Rows F n) (v : Fin n → F) :
    IsNontrivialX hx hz v ↔ v ∈ rowSpan hx ⊔ kernel hz ∧ v ∉ rowSpan hx := by
  rw [IsNontrivialX, isCombination_iff, ← kernel_cssStabs]
  refine and_congr_left fun _ => ⟨fun h z hz' => ?_, fun h z hz' => ?_⟩
  · have : z ∈ rowSpan hz ⊓ kernel hx := by rw [← rowSpan_cssStabs]; exact subset_rowSpan hz'
    exact h z ⟨(isCombination_iff _ _).2 this.1, this.2⟩
  · refine dot_eq_zero_of_mem_rowSpan (M := cssStabs hz hx) ?_ h
    rw [rowSpan_cssStabs]
    exact ⟨(isCombination_iff _ _).1 hz'.1, hz'.2⟩

namespace CssComplete

variable {hx hz LX LZ : Rows F n}

theorem dot_combination (h : CssComplete hx hz LX LZ) (c : Fin LX.length → F) (j : ℕ)
    (hj : j < LX.length) :
    dot (∑ i, c i • LX.get i) (LZ[j]'(h.basis.len ▸ hj)) = c ⟨j, hj⟩ := by
  have h1 : dot (∑ i, c i • LX.get i) (LZ[j]'(h.basis.len ▸ hj)) =
      ∑ i, c i * dot (LX.get i) (LZ[j]'(h.basis.len ▸ hj)) := by
    unfold dot
    simp only [Finset.sum_apply, Pi.smul_apply, smul_eq_mul, Finset.sum_mul, Finset.mul_sum]
    rw [Finset.sum_comm]
    exact Finset.sum_congr rfl fun _ _ => Finset.sum_congr rfl fun _ _ => by ring
  have hp : ∀ (i j : ℕ) (hi : i < LX.length) (hj : j < LZ.length),
      dot LX[i] LZ[j] = if i = j then 1 else 0 := h.basis.pair
  rw [h1, Finset.sum_eq_single ⟨j, hj⟩]
  · rw [List.get_eq_getElem, hp j j hj, if_pos rfl, mul_one]
  · intro i _ hi
    rw [List.get_eq_getElem, hp i.val j i.isLt, if_neg fun he => hi (Fin.ext he), mul_zero]
  · intro hh; exact absurd (Finset.mem_univ _) hh

/-- a combination of logical operators that commutes with the opposite ones is zero -/
theorem eq_zero (h : CssComplete hx hz LX LZ) {l : Fin n → F} (hl : l ∈ rowSpan LX)
    (h0 : ∀ z ∈ LZ, dot l z = 0) : l = 0 := by
  obtain ⟨c, rfl⟩ := (mem_rowSpan_iff_exists LX l).1 hl
  have : ∀ i, c i = 0 := by
    intro i
    rw [← h.dot_combination c i.val i.isLt]
    exact h0 _ (List.getElem_mem _)
  exact Finset.sum_eq_zero fun i _ => by rw [this i, zero_smul]

theorem independent (h : CssComplete hx hz LX LZ) :
    LinearIndependent F (fun i => LX.get i) := by
  rw [Fintype.linearIndependent_iff]
  intro c hc i
  rw [← h.dot_combination c i.val i.isLt, hc, dot_zero_left]

theorem eq_zero_of_gauge (h : CssComplete hx hz LX LZ) {l : Fin n → F} (hl : l ∈ rowSpan LX)
    (h0 : l ∈ rowSpan hx) : l = 0 :=
  h.eq_zero hl fun z hz' => dot_eq_zero_of_mem_rowSpan h0 (h.basis.commZ z hz')

theorem rowSpan_le_kernel (h : CssComplete hx hz LX LZ) : rowSpan LX ≤ kernel hz :=
  rowSpan_le.2 h.basis.commX

/-- everything that commutes with the stabilizers is a product of gauge and logical operators -/
theorem sup_eq (h : CssComplete hx hz LX LZ) : rowSpan hx ⊔ rowSpan LX = rowSpan hx ⊔ kernel hz := by
  apply le_antisymm
  · exact sup_le_sup_left h.rowSpan_le_kernel _
  · refine sup_le le_sup_left ?_
    rw [← h.x]
    exact sup_le (inf_le_left.trans le_sup_left) le_sup_right

/-- The nontrivial logical operators are the products of a nontrivial combination of logical operators
with gauge operators. -/
theorem nontrivial_iff (h : CssComplete hx hz LX LZ) (v : Fin n → F) :
    IsNontrivialX hx hz v ↔ ∃ l ∈ rowSpan LX, l ≠ 0 ∧ ∃ s ∈ rowSpan hx, v = l + s := by
  rw [isNontrivialX_iff, ← h.sup_eq]
  constructor
  · rintro ⟨h1, h2⟩
    obtain ⟨s, hs, l, hl, rfl⟩ := Submodule.mem_sup.1 h1
    refine ⟨l, hl, ?_, s, hs, add_comm _ _⟩
    rintro rfl
    exact h2 (by rwa [add_zero])
  · rintro ⟨l, hl, h0, s, hs, rfl⟩
    refine ⟨?_, fun h1 => h0 (h.eq_zero_of_gauge hl ?_)⟩
    · rw [add_comm]
      exact Submodule.add_mem_sup hs hl
    · simpa using Submodule.sub_mem _ h1 hs

theorem exists_nontrivial (h : CssComplete hx hz LX LZ) (hL : LX ≠ []) :
    ∃ v, IsNontrivialX hx hz v := by
  obtain ⟨l, hl, hl0⟩ := linearIndependent_ne_zero hL h.independent
  exact ⟨l + 0, (h.nontrivial_iff _).2 ⟨l, subset_rowSpan hl, hl0, 0, Submodule.zero_mem _, rfl⟩⟩

theorem not_nontrivial (h : CssComplete hx hz LX LZ) (hL : LX = []) (v : Fin n → F) :
    ¬ IsNontrivialX hx hz v := by
  rw [h.nontrivial_iff]
  rintro ⟨l, hl, h0, _⟩
  subst hL
  apply h0
  simpa [rowSpan] using hl

theorem pos (h : CssComplete hx hz LX LZ) (hL : LX ≠ []) : 0 < n := by
  obtain ⟨l, hl, hl0⟩ := linearIndependent_ne_zero hL h.independent
  rcases Nat.eq_zero_or_pos n with rfl | hn
  · exact absurd (Subsingleton.elim l 0) hl0
  · exact hn

/-- A change by an operator that commutes with all checks and all opposite logical operators is a
change by a stabilizer. -/
theorem stab_of_commute (h : CssComplete hx hz LX LZ) {v : Fin n → F} (hv : v ∈ kernel hz)
    (h0 : ∀ z ∈ LZ, dot v z = 0) : v ∈ rowSpan hx ⊓ kernel hz := by
  rw [← h.x] at hv
  obtain ⟨s, hs, l, hl, rfl⟩ := Submodule.mem_sup.1 hv
  have : l = 0 := by
    apply h.eq_zero hl
    intro z hz'
    have h1 := h0 z hz'
    rw [dot_add_left, dot_eq_zero_of_mem_rowSpan hs.1 (h.basis.commZ z hz'), zero_add] at h1
    exact h1
  rw [this, add_zero]
  exact hs

end CssComplete

/-! ## Pauli strings and operators by type -/

theorem mem_rowSpan_blockDiag2 (A B : Rows F n) (p : Fin (n + n) → F) :
    p ∈ rowSpan (blockDiag2 A B) ↔ xPart p ∈ rowSpan A ∧ zPart p ∈ rowSpan B := by
  constructor
  · intro h
    induction h using Submodule.span_induction with
    | mem r hr =>
      rcases List.mem_append.1 hr with hr | hr <;> obtain ⟨u, hu, rfl⟩ := List.mem_map.1 hr
      · rw [xPart_append, zPart_append]; exact ⟨subset_rowSpan hu, Submodule.zero_mem _⟩
      · rw [xPart_append, zPart_append]; exact ⟨Submodule.zero_mem _, subset_rowSpan hu⟩
    | zero => exact ⟨Submodule.zero_mem _, Submodule.zero_mem _⟩
    | add a b _ _ ha hb => exact ⟨Submodule.add_mem _ ha.1 hb.1, Submodule.add_mem _ ha.2 hb.2⟩
    | smul c a _ ha => exact ⟨Submodule.smul_mem _ c ha.1, Submodule.smul_mem _ c ha.2⟩
  · rintro ⟨h1, h2⟩
    have e : p = Fin.append (xPart p) (0 : Fin n → F) + Fin.append (0 : Fin n → F) (zPart p) := by
      conv_lhs => rw [← append_parts p]
      funext i
      refine Fin.addCases (fun i => ?_) (fun i => ?_) i <;> simp [-Fin.natAdd_eq_addNat]
    rw [e]
    generalize xPart p = a at h1
    generalize zPart p = b at h2
    refine Submodule.add_mem _ ?_ ?_
    · induction h1 using Submodule.span_induction with
      | mem r hr => exact subset_rowSpan (List.mem_append_left _ (List.mem_map.2 ⟨r, hr, rfl⟩))
      | zero =>
        convert Submodule.zero_mem _
        funext i
        refine Fin.addCases (fun i => ?_) (fun i => ?_) i <;> simp [-Fin.natAdd_eq_addNat]
      | add a b _ _ ha hb =>
        convert Submodule.add_mem _ ha hb
        funext i
        refine Fin.addCases (fun i => ?_) (fun i => ?_) i <;> simp [-Fin.natAdd_eq_addNat]
      | smul c a _ ha =>
        convert Submodule.smul_mem _ c ha
        funext i
        refine Fin.addCases (fun i => ?_) (fun i => ?_) i <;> simp [-Fin.natAdd_eq_addNat]
    · induction h2 using Submodule.span_induction with
      | mem r hr => exact subset_rowSpan (List.mem_append_right _ (List.mem_map.2 ⟨r, hr, rfl⟩))
      | zero =>
        convert Submodule.zero_mem _
        funext i
        refine Fin.addCases (fun i => ?_) (fun i => ?_) i <;> simp [-Fin.natAdd_eq_addNat]
      | add a b _ _ ha hb =>
        convert Submodule.add_mem _ ha hb
        funext i
        refine Fin.addCases (fun i => ?_) (fun i => ?_) i <;> simp [-Fin.natAdd_eq_addNat]
      | smul c a _ ha =>
        convert Submodule.smul_mem _ c ha
        funext i
        refine Fin.addCases (fun i => ?_) (fun i => ?_) i <;> simp [-Fin.natAdd_eq_addNat]

theorem forall_blockDiag2 (A B : Rows F n) (p : Fin (n + n) → F) :
    (∀ r ∈ blockDiag2 A B, sform r p = 0) ↔ zPart p ∈ kernel A ∧ xPart p ∈ kernel B := by
  constructor
  · intro h
    constructor
    · intro a ha
      have := h _ (List.mem_append_left _ (List.mem_map.2 ⟨a, ha, rfl⟩))
      rwa [sform_eq, xPart_append, zPart_append, dot_zero_left, sub_zero] at this
    · intro b hb
      have := h _ (List.mem_append_right _ (List.mem_map.2 ⟨b, hb, rfl⟩))
      rwa [sform_eq, xPart_append, zPart_append, dot_zero_left, zero_sub, neg_eq_zero] at this
  · rintro ⟨h1, h2⟩ r hr
    rcases List.mem_append.1 hr with hr | hr <;> obtain ⟨u, hu, rfl⟩ := List.mem_map.1 hr
    · rw [sform_eq, xPart_append, zPart_append, dot_zero_left, sub_zero]; exact h1 u hu
    · rw [sform_eq, xPart_append, zPart_append, dot_zero_left, zero_sub, neg_eq_zero]; exact h2 u hu

/-- A Pauli string is a nontrivial logical operator of a CSS code iff both parts commute with the
stabilizers and one of them is nontrivial. -/
theorem nontrivial_css (hx hz : Rows F n) (p : Fin (n + n) → F) :
    IsNontrivialLogical (blockDiag2 hx hz) p ↔
      (xPart p ∈ rowSpan hx ⊔ kernel hz ∧ zPart p ∈ rowSpan hz ⊔ kernel hx) ∧
        ¬ (xPart p ∈ rowSpan hx ∧ zPart p ∈ rowSpan hz) := by
  rw [IsNontrivialLogical, isCombination_iff, mem_rowSpan_blockDiag2, ← kernel_cssStabs,
    ← kernel_cssStabs]
  refine and_congr_left fun _ => ⟨fun h => ⟨fun z hz' => ?_, fun x hx' => ?_⟩, ?_⟩
  · have hm : z ∈ rowSpan hz ⊓ kernel hx := by rw [← rowSpan_cssStabs]; exact subset_rowSpan hz'
    have := h (Fin.append 0 z)
      (by rw [isCombination_iff, mem_rowSpan_blockDiag2, xPart_append, zPart_append]
          exact ⟨Submodule.zero_mem _, hm.1⟩)
      (by rw [forall_blockDiag2, xPart_append, zPart_append]; exact ⟨hm.2, Submodule.zero_mem _⟩)
    rwa [sform_eq, xPart_append, zPart_append, dot_zero_left, zero_sub, neg_eq_zero] at this
  · have hm : x ∈ rowSpan hx ⊓ kernel hz := by rw [← rowSpan_cssStabs]; exact subset_rowSpan hx'
    have := h (Fin.append x 0)
      (by rw [isCombination_iff, mem_rowSpan_blockDiag2, xPart_append, zPart_append]
          exact ⟨hm.1, Submodule.zero_mem _⟩)
      (by rw [forall_blockDiag2, xPart_append, zPart_append]; exact ⟨Submodule.zero_mem _, hm.2⟩)
    rwa [sform_eq, xPart_append, zPart_append, dot_zero_left, sub_zero] at this
  · rintro ⟨h1, h2⟩ s hs hc
    rw [isCombination_iff, mem_rowSpan_blockDiag2] at hs
    rw [forall_blockDiag2] at hc
    rw [sform_eq, dot_eq_zero_of_mem_rowSpan (M := cssStabs hx hz) _ h2,
      dot_eq_zero_of_mem_rowSpan (M := cssStabs hz hx) _ h1, sub_zero]
    · rw [rowSpan_cssStabs]; exact ⟨hs.2, hc.1⟩
    · rw [rowSpan_cssStabs]; exact ⟨hs.1, hc.2⟩

theorem hammingNorm_xPart_le (p : Fin (n + n) → F) : hammingNorm (xPart p) ≤ sweight p := by
  unfold hammingNorm sweight
  apply Finset.card_le_card
  intro i hi
  simp only [Finset.mem_filter, Finset.mem_univ, true_and] at hi ⊢
  exact .inl hi

theorem hammingNorm_zPart_le (p : Fin (n + n) → F) : hammingNorm (zPart p) ≤ sweight p := by
  unfold hammingNorm sweight
  apply Finset.card_le_card
  intro i hi
  simp only [Finset.mem_filter, Finset.mem_univ, true_and] at hi ⊢
  exact .inr hi

theorem sweight_append_left (v : Fin n → F) : sweight (Fin.append v 0) = hammingNorm v := by
  unfold hammingNorm sweight
  simp

theorem sweight_append_right (v : Fin n → F) : sweight (Fin.append 0 v) = hammingNorm v := by
  unfold hammingNorm sweight
  simp

/-- The distance of a CSS code is the smaller one of its X- and Z-distance. -/
theorem codeDistance_css {hx hz : Rows F n} {dx dz : ℕ} (h1 : IsXDistance hx hz dx)
    (h2 : IsXDistance hz hx dz) : IsCodeDistance (blockDiag2 hx hz) (min dx dz) := by
  obtain ⟨⟨v, hv, hdx⟩, hminx⟩ := h1
  obtain ⟨⟨w, hw, hdz⟩, hminz⟩ := h2
  constructor
  · rcases le_total dx dz with h | h
    · rw [min_eq_left h]
      refine ⟨Fin.append v 0, ?_, by rw [sweight_append_left]; exact hdx⟩
      rw [isNontrivialX_iff] at hv
      rw [nontrivial_css, xPart_append, zPart_append]
      exact ⟨⟨hv.1, Submodule.zero_mem _⟩, fun h => hv.2 h.1⟩
    · rw [min_eq_right h]
      refine ⟨Fin.append 0 w, ?_, by rw [sweight_append_right]; exact hdz⟩
      rw [isNontrivialX_iff] at hw
      rw [nontrivial_css, xPart_append, zPart_append]
      exact ⟨⟨Submodule.zero_mem _, hw.1⟩, fun h => hw.2 h.2⟩
  · rintro k ⟨p, hp, rfl⟩
    rw [nontrivial_css] at hp
    obtain ⟨⟨ha, hb⟩, hc⟩ := hp
    by_cases hx' : xPart p ∈ rowSpan hx
    · have hz' : zPart p ∉ rowSpan hz := fun h => hc ⟨hx', h⟩
      exact (min_le_right _ _).trans ((hminz ⟨_, (isNontrivialX_iff _ _ _).2 ⟨hb, hz'⟩, rfl⟩).trans
        (hammingNorm_zPart_le p))
    · exact (min_le_left _ _).trans ((hminx ⟨_, (isNontrivialX_iff _ _ _).2 ⟨ha, hx'⟩, rfl⟩).trans
        (hammingNorm_xPart_le p))

theorem no_nontrivial_css {hx hz : Rows F n} (h1 : ∀ v, ¬ IsNontrivialX hx hz v)
    (h2 : ∀ v, ¬ IsNontrivialX hz hx v) (p : Fin (n + n) → F) :
    ¬ IsNontrivialLogical (blockDiag2 hx hz) p := by
  rw [nontrivial_css]
  rintro ⟨⟨ha, hb⟩, hc⟩
  refine hc ⟨?_, ?_⟩
  · by_contra h
    exact h1 _ ((isNontrivialX_iff _ _ _).2 ⟨ha, h⟩)
  · by_contra h
    exact h2 _ ((isNontrivialX_iff _ _ _).2 ⟨hb, h⟩)

end QLDPC
