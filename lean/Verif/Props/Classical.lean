import Verif.Lemmas.Stack
import Mathlib.Algebra.Field.ZMod

/-!
# Properties C01 – C09: classical linear codes
-/

namespace QLDPC.Props

open QLDPC QLDPC.Spec

set_option linter.unusedSectionVars false

variable {F : Type} [Field F] [DecidableEq F] {n m : ℕ}

/-- rows given by lists, for examples -/
def rows {n : ℕ} (M : List (Fin n → ZMod 2)) : Rows (ZMod 2) n := M

/-! ## C01 -/

/-- Membership test of the API against the specification. -/
theorem C01_contains (c : CCode F n) (w : Fin n → F) : c.contains w = true ↔ IsWord c.matrix w := by
  unfold CCode.contains IsWord
  simp only [Bool.not_eq_true', List.any_eq_false, decide_eq_true_eq, not_not]
  rfl

/-- **C01**: `equiv` decides equality of code spaces. -/
theorem C01_equiv (a b : CCode F n) :
    CCode.equiv a b = true ↔ ∀ w, IsWord a.matrix w ↔ IsWord b.matrix w := by
  unfold CCode.equiv
  rw [decide_eq_true_eq]
  constructor
  · intro h w
    rw [isWord_iff, isWord_iff, ← CCode.kernel_canonicalized, h, CCode.kernel_canonicalized]
  · intro h
    have hk : kernel a.matrix = kernel b.matrix := by ext w; exact h w
    rw [CCode.canonicalized_matrix, CCode.canonicalized_matrix,
      rrefPairs_eq_of_rowSpan_eq ((rowSpan_eq_iff_kernel_eq _ _).2 hk)]

/-- **C01**: canonicalizing does not change the words. -/
theorem C01_canonicalized (c : CCode F n) (w : Fin n → F) :
    IsWord c.canonicalized.matrix w ↔ IsWord c.matrix w := by
  rw [isWord_iff, isWord_iff, CCode.kernel_canonicalized]

/-- **C01**: canonicalizing twice is canonicalizing once. -/
theorem C01_idempotent (c : CCode F n) :
    c.canonicalized.canonicalized.matrix = c.canonicalized.matrix := by
  have : CCode.equiv c.canonicalized c = true := (C01_equiv _ _).2 (C01_canonicalized c)
  exact of_decide_eq_true this

/-- **C01**: the canonical matrix has linearly independent rows, in particular no zero row. -/
theorem C01_independent (c : CCode F n) :
    LinearIndependent F (fun i : Fin c.canonicalized.matrix.length => c.canonicalized.matrix.get i) := by
  have h := linearIndependent_of_isRREF (rrefPairs_isRREF c.matrix)
  have hm := CCode.canonicalized_matrix c
  have hlen : c.canonicalized.matrix.length = (rrefPairs c.matrix).length := by rw [hm]; simp
  have e : (fun i : Fin c.canonicalized.matrix.length => c.canonicalized.matrix.get i) =
      (fun i : Fin (rrefPairs c.matrix).length => ((rrefPairs c.matrix).get i).2) ∘
        (finCongr hlen) := by
    funext i; simp [hm]
  rw [e]
  exact h.comp _ (finCongr hlen).injective

-- two check matrices with different, dependent rows and the same words; and one with other words
example : CCode.equiv (CCode.ofMatrix (rows [![1, 1, 0], ![0, 1, 1], ![1, 0, 1]]))
    (CCode.ofMatrix (rows [![1, 0, 1], ![0, 0, 0], ![0, 1, 1]])) = true := by decide +kernel
example : CCode.equiv (CCode.ofMatrix (rows [![1, 1, 0], ![0, 1, 1]]))
    (CCode.ofMatrix (rows [![1, 0, 1]])) = false := by decide +kernel

/-! ## C02 -/

/-- **C02**: the generator of a code is a basis of the code: independent rows, all of them words, all
words combinations of them, as many as `len(code) - rank`. -/
theorem C02_generator (c : CCode F n) (h : c.gen? = none) :
    LinearIndependent F (fun i : Fin c.generator.length => c.generator.get i) ∧
      (∀ g ∈ c.generator, IsWord c.matrix g) ∧
      (∀ w, IsWord c.matrix w → IsCombination c.generator w) ∧
      c.generator.length + c.canonicalized.matrix.length = n := by
  have hg : c.generator = nullSpace c.matrix := by unfold CCode.generator; rw [h]
  have hspan := CCode.genOk_of_fresh h
  unfold CCode.GenOk at hspan
  refine ⟨by rw [hg]; exact linearIndependent_nullSpace _, ?_, ?_, ?_⟩
  · intro g hgm
    rw [isWord_iff, ← hspan]; exact subset_rowSpan hgm
  · intro w hw
    rw [isCombination_iff, hspan]; exact hw
  · rw [hg, CCode.canonicalized_matrix, List.length_map]; exact length_nullSpace _

/-- **C02**: asking for the generator stores it and changes nothing else, so later calls see the same
basis. -/
theorem C02_cached (c : CCode F n) :
    c.withGenerator.generator = c.generator ∧ c.withGenerator.matrix = c.matrix :=
  ⟨rfl, rfl⟩

/-- **C02**: `dimension` is the dimension of the code space. -/
theorem C02_dimension (c : CCode F n) (h : c.dim? = none) : c.dimension = codeDim c.matrix := by
  rw [codeDim_eq]; exact CCode.dimension_eq (by intro k hk; rw [h] at hk; cases hk)

example : (CCode.ofMatrix (rows [![1, 1, 0], ![0, 1, 1]])).generator = [![1, 1, 1]] := by
  decide +kernel

/-! ## C03 -/

/-- The rows of the generator used for the enumeration form a basis of the code.  Holds for every
code whose generator was not set by the user (`C02_generator`). -/
def GenBasis (c : CCode F n) : Prop :=
  LinearIndependent F (fun i : Fin c.generator.length => c.generator.get i) ∧
    ∀ w, IsWord c.matrix w ↔ IsCombination c.generator w

theorem genBasis_of_fresh {c : CCode F n} (h : c.gen? = none) : GenBasis c := by
  obtain ⟨h1, h2, h3, _⟩ := C02_generator c h
  refine ⟨h1, fun w => ⟨h3 w, fun hw => ?_⟩⟩
  rw [isCombination_iff] at hw
  rw [isWord_iff]
  exact (rowSpan_le.2 h2) hw

/-- **C03**: `iter_words` yields every word exactly once. -/
theorem C03_iter_words (els : List F) (hnd : els.Nodup) (hall : ∀ x, x ∈ els)
    (c : CCode F n) (hc : GenBasis c) :
    (c.iterWords els false).Nodup ∧ (∀ w, w ∈ c.iterWords els false ↔ IsWord c.matrix w) ∧
      (c.iterWords els false).length = els.length ^ codeDim c.matrix := by
  obtain ⟨hind, hspan⟩ := hc
  have hdim : codeDim c.matrix = c.generator.length := by
    rw [codeDim_eq]
    have : kernel c.matrix =
        Submodule.span F (Set.range fun i : Fin c.generator.length => c.generator.get i) := by
      ext w
      rw [← isWord_iff, hspan, isCombination_iff]
      unfold rowSpan
      have : {x | x ∈ c.generator} = Set.range fun i : Fin c.generator.length => c.generator.get i := by
        ext x; simp [List.mem_iff_get]
      rw [this]
    rw [this, finrank_span_eq_card hind, Fintype.card_fin]
  refine ⟨?_, ?_, ?_⟩
  · unfold CCode.iterWords
    simp only [Bool.false_eq_true, if_false]
    refine List.Nodup.map_on ?_ (nodup_productRepeat els hnd _)
    intro x hx y hy hxy
    exact vecMat_injective hind ((mem_productRepeat _ _ _).1 hx).1 ((mem_productRepeat _ _ _).1 hy).1 hxy
  · intro w
    rw [hspan, isCombination_iff, mem_rowSpan_iff_vecMat]
    unfold CCode.iterWords
    simp only [Bool.false_eq_true, if_false, List.mem_map, mem_productRepeat]
    constructor
    · rintro ⟨v, ⟨hv, _⟩, rfl⟩; exact ⟨v, hv, rfl⟩
    · rintro ⟨v, hv, rfl⟩; exact ⟨v, ⟨hv, fun x _ => hall x⟩, rfl⟩
  · unfold CCode.iterWords
    simp only [Bool.false_eq_true, if_false, List.length_map, length_productRepeat, hdim]

/-- **C03**: with `skip_zero=True` it yields exactly the nonzero words, once each.  `field.elements`
starts with `0`. -/
theorem C03_skip_zero (els : List F) (hnd : (0 :: els).Nodup) (hall : ∀ x, x ∈ 0 :: els)
    (c : CCode F n) (hc : GenBasis c) :
    (c.iterWords (0 :: els) true).Nodup ∧
      (∀ w, w ∈ c.iterWords (0 :: els) true ↔ IsWord c.matrix w ∧ w ≠ 0) := by
  obtain ⟨h1, h2, _⟩ := C03_iter_words (0 :: els) hnd hall c hc
  obtain ⟨l, hl⟩ := productRepeat_head (0 : F) els c.generator.length
  have hfull : c.iterWords (0 :: els) false = 0 :: c.iterWords (0 :: els) true := by
    unfold CCode.iterWords
    simp only [Bool.false_eq_true, if_false, if_true, hl, List.map_cons, List.drop_succ_cons,
      List.drop_zero, vecMat_replicate_zero]
  rw [hfull] at h1 h2
  refine ⟨(List.nodup_cons.1 h1).2, fun w => ?_⟩
  rw [← h2, List.mem_cons]
  constructor
  · intro hw
    refine ⟨.inr hw, ?_⟩
    rintro rfl
    exact (List.nodup_cons.1 h1).1 hw
  · rintro ⟨h | h, h0⟩
    · exact absurd h h0
    · exact h

example : GenBasis (CCode.ofMatrix (rows [![1, 1, 0], ![0, 1, 1]])) := genBasis_of_fresh rfl
example : (CCode.ofMatrix (rows [![1, 1, 1]])).iterWords [0, 1] false =
    [![0, 0, 0], ![0, 1, 1], ![1, 0, 1], ![1, 1, 0]] := by decide +kernel

/-- The hypothesis on the generator is needed: `set_generator` accepts dependent rows of the right
rank, and then the enumeration repeats words and `skip_zero` yields the zero word. -/
theorem C03_dependent_generator_disagreement :
    ∃ c : CCode (ZMod 2) 2,
      (CCode.ofMatrix (rows [![1, 1]])).setGenerator [![1, 1], ![1, 1]] = .ok c ∧
      ¬ (c.iterWords [0, 1] false).Nodup ∧ 0 ∈ c.iterWords [0, 1] true := by
  refine ⟨{ matrix := [![1, 1]], gen? := some [![1, 1], ![1, 1]] }, ?_, ?_, ?_⟩
  · unfold CCode.setGenerator
    rw [if_neg (by decide +kernel), if_neg (by decide +kernel)]; rfl
  · decide +kernel
  · decide +kernel

/-! ## C04 -/

/-- **C04**: a word is in the dual iff it is orthogonal to every word of the code. -/
theorem C04_dual (c : CCode F n) (hc : c.gen? = none) (v : Fin n → F) :
    IsWord c.dual.matrix v ↔ ∀ w, IsWord c.matrix w → ∑ i, v i * w i = 0 :=
  CCode.kernel_dual (CCode.genOk_of_fresh hc) v

/-- **C04**: the double dual has the same words. -/
theorem C04_dual_dual (c : CCode F n) (hc : c.gen? = none) (w : Fin n → F) :
    IsWord c.dual.dual.matrix w ↔ IsWord c.matrix w := by
  have h1 : c.dual.GenOk := CCode.genOk_of_fresh rfl
  rw [isWord_iff, CCode.kernel_dual_eq h1, isWord_iff]
  unfold CCode.dual CCode.ofMatrix
  rw [CCode.genOk_of_fresh hc]

/-- **C04**: the dimensions of a code and its dual add up to the length. -/
theorem C04_dimension (c : CCode F n) (hc : c.gen? = none) :
    codeDim c.matrix + codeDim c.dual.matrix = n := by
  rw [codeDim_eq, codeDim_eq, CCode.kernel_dual_eq (CCode.genOk_of_fresh hc), finrank_rowSpan]
  exact finrank_kernel _

/-- **C04**: `from_generator(G)` contains exactly the combinations of the rows of `G`. -/
theorem C04_from_generator (G : Rows F n) (w : Fin n → F) :
    IsWord (CCode.fromGenerator G).matrix w ↔ IsCombination G w := by
  rw [isWord_iff, CCode.kernel_fromGenerator, isCombination_iff]

/-- The dual also has the right words after any accepted `set_generator`. -/
theorem C04_dual_after_set (c : CCode F n) (hd : c.dim? = none) (hg : c.gen? = none) (G : Rows F n)
    (c' : CCode F n) (h : c.setGenerator G = .ok c') (v : Fin n → F) :
    IsWord c'.dual.matrix v ↔ ∀ w, IsWord c.matrix w → ∑ i, v i * w i = 0 := by
  have hrank : c.rank = QLDPC.rank c.matrix :=
    CCode.rank_eq (by intro k hk; rw [hd] at hk; cases hk)
  unfold CCode.setGenerator at h
  split at h
  · cases h
  · rename_i h1
    split at h
    · cases h
    · rename_i h2
      cases h
      have hle : rowSpan G ≤ kernel c.matrix := by
        rw [rowSpan_le]
        intro g hgm r hr
        by_contra hne
        exact h1 (List.any_eq_true.2 ⟨r, hr, List.any_eq_true.2 ⟨g, hgm, by simpa using hne⟩⟩)
      have hlen : (dropZero (rowReduce G)).length = QLDPC.rank G := by
        rw [dropZero_rowReduce, List.length_map]; rfl
      have hfin : Module.finrank F (rowSpan G) = Module.finrank F (kernel c.matrix) := by
        rw [finrank_rowSpan, ← hlen]
        have := finrank_kernel c.matrix
        rw [not_ne_iff.1 h2, hrank]; omega
      exact CCode.kernel_dual (c := { c with gen? := some G })
        (Submodule.eq_of_le_of_finrank_eq hle hfin) v

example : (CCode.fromGenerator (rows [![1, 1, 0], ![0, 1, 1], ![1, 0, 1]])).matrix = [![1, 1, 1]] := by
  decide +kernel

/-! ## C05 -/

/-- **C05**: `set_generator(G)` succeeds iff the combinations of the rows of `G` are exactly the words
of the code, and then stores `G` and changes nothing else.  A failing call leaves the object as it is
(the model returns no new object; `c` is still `c`). -/
theorem C05_set_generator (c : CCode F n) (hd : c.dim? = none) (G : Rows F n) :
    ((∃ c', c.setGenerator G = .ok c') ↔ ∀ w, IsCombination G w ↔ IsWord c.matrix w) ∧
      (∀ c', c.setGenerator G = .ok c' → c' = { c with gen? := some G } ∧ c'.generator = G) := by
  have hrank : c.rank = QLDPC.rank c.matrix :=
    CCode.rank_eq (by intro k hk; rw [hd] at hk; cases hk)
  have hlen : (dropZero (rowReduce G)).length = QLDPC.rank G := by
    rw [dropZero_rowReduce, List.length_map]; rfl
  have hk := finrank_kernel c.matrix
  constructor
  · unfold CCode.setGenerator
    constructor
    · rintro ⟨c', h⟩ w
      split at h
      · cases h
      · rename_i h1
        split at h
        · cases h
        · rename_i h2
          have hle : rowSpan G ≤ kernel c.matrix := by
            rw [rowSpan_le]
            intro g hgm r hr
            by_contra hne
            exact h1 (List.any_eq_true.2 ⟨r, hr, List.any_eq_true.2 ⟨g, hgm, by simpa using hne⟩⟩)
          have hfin : Module.finrank F (rowSpan G) = Module.finrank F (kernel c.matrix) := by
            rw [finrank_rowSpan, ← hlen, not_ne_iff.1 h2, hrank]; omega
          rw [isCombination_iff, Submodule.eq_of_le_of_finrank_eq hle hfin, isWord_iff]
    · intro h
      have heq : rowSpan G = kernel c.matrix := by
        ext w; rw [← isCombination_iff, h, isWord_iff]
      rw [if_neg, if_neg]
      · exact ⟨_, rfl⟩
      · rw [hlen, ← finrank_rowSpan, heq, hrank, not_ne_iff]; omega
      · intro hany
        obtain ⟨r, hr, hany⟩ := List.any_eq_true.1 hany
        obtain ⟨g, hg, hne⟩ := List.any_eq_true.1 hany
        have : g ∈ kernel c.matrix := heq ▸ subset_rowSpan hg
        have h0 := this r hr
        simp [h0] at hne
  · intro c' h
    unfold CCode.setGenerator at h
    split at h
    · cases h
    · split at h
      · cases h
      · cases h; exact ⟨rfl, rfl⟩

example : ∃ c', (CCode.ofMatrix (rows [![1, 1, 1]])).setGenerator [![1, 1, 0], ![1, 0, 1]] = .ok c' := by
  unfold CCode.setGenerator
  rw [if_neg (by decide +kernel), if_neg (by decide +kernel)]; exact ⟨_, rfl⟩
example : ¬ ∃ c', (CCode.ofMatrix (rows [![1, 1, 1]])).setGenerator [![1, 1, 0]] = .ok c' := by
  unfold CCode.setGenerator
  rw [if_neg (by decide +kernel), if_pos (by decide +kernel)]; rintro ⟨_, h⟩; cases h

/-! ## C06 -/

/-- **C06**: a word of the tensor product, reshaped to `n × m`, has columns in `a` and rows in `b`,
and conversely.  Entry `(i, j)` of the reshaped word is entry `i * m + j`. -/
theorem C06_tensor (a : CCode F n) (b : CCode F m) (ha : a.gen? = none) (hb : b.gen? = none)
    (w : Fin (n * m) → F) :
    IsWord (CCode.tensorProduct a b).matrix w ↔
      (∀ j : Fin m, IsWord a.matrix fun i => entryAt w (i.val * m + j.val)) ∧
      (∀ i : Fin n, IsWord b.matrix fun j => entryAt w (i.val * m + j.val)) := by
  have he : ∀ (i : Fin n) (j : Fin m), entryAt w (i.val * m + j.val) = w (flat i j) := by
    intro i j
    unfold entryAt
    rw [dif_pos (by rw [← flat_val]; exact (flat i j).isLt)]
    congr 1
    apply Fin.ext
    exact (flat_val i j).symm
  simp only [he]
  unfold CCode.tensorProduct
  rw [isWord_iff, CCode.kernel_dual_eq (CCode.genOk_of_fresh rfl)]
  show w ∈ rowSpan (kron a.generator b.generator) ↔ _
  rw [mem_rowSpan_kron, CCode.genOk_of_fresh ha, CCode.genOk_of_fresh hb]
  rfl

/-- **C06**: dimensions multiply. -/
theorem C06_dimension (a : CCode F n) (b : CCode F m) (ha : a.gen? = none) (hb : b.gen? = none) :
    codeDim (CCode.tensorProduct a b).matrix = codeDim a.matrix * codeDim b.matrix := by
  unfold CCode.tensorProduct
  rw [codeDim_eq, CCode.kernel_dual_eq (CCode.genOk_of_fresh rfl), codeDim_eq, codeDim_eq]
  show Module.finrank F (rowSpan (kron a.generator b.generator)) = _
  rw [finrank_rowSpan, rank_kron, ← finrank_rowSpan, ← finrank_rowSpan, CCode.genOk_of_fresh ha,
    CCode.genOk_of_fresh hb]

-- the product of two parity codes of 3 bits has 4 dimensions and contains a 2x2 square
example : (CCode.tensorProduct (CCode.ofMatrix (rows [![1, 1, 1]]))
    (CCode.ofMatrix (rows [![1, 1, 1]]))).contains ![1, 1, 0, 1, 1, 0, 0, 0, 0] = true := by
  decide +kernel

/-! ## C07 -/

/-- `i`-th position that is not deleted, in increasing order. -/
def keptPositions (n : ℕ) (bits : List (Fin n)) : List (Fin n) :=
  (List.finRange n).filter fun b => b ∉ bits

/-- **C07**: the words of the punctured code are the words of the code with the positions deleted. -/
theorem C07_puncture (c : CCode F n) (hc : c.gen? = none) (bits : List (Fin n))
    (w : Fin (keptPositions n bits).length → F) :
    IsWord (c.puncture bits).matrix w ↔
      ∃ v, IsWord c.matrix v ∧ ∀ i, w i = v (keptPositions n bits)[i] := by
  have key : ∀ w : Fin (CCode.bitsToKeep n bits).length → F,
      IsWord (c.puncture bits).matrix w ↔
        ∃ v, IsWord c.matrix v ∧ ∀ i, w i = v (CCode.bitsToKeep n bits)[i] := by
    intro w
    unfold CCode.puncture
    rw [isWord_iff, CCode.kernel_fromGenerator]
    have : c.generator.map (CCode.selectCols (CCode.bitsToKeep n bits)) =
        c.generator.map (reindex fun i => (CCode.bitsToKeep n bits).get i) := rfl
    rw [this, mem_rowSpan_map, CCode.genOk_of_fresh hc]
    constructor
    · rintro ⟨v, hv, rfl⟩; exact ⟨v, hv, fun _ => rfl⟩
    · rintro ⟨v, hv, h⟩; exact ⟨v, hv, funext h⟩
  exact key w

example : ((CCode.ofMatrix (rows [![1, 1, 1]])).puncture [1]).contains ![1, 0] = true := by
  decide +kernel

/-! ## C08 -/

/-- **C08**, partial: the words of the shortened code are the words of the code that vanish on the
given positions, with the positions deleted.

Full statement: for all codes and all lists of positions.  Missing: lists with repeated positions and
positions where the code does not take independent values; there the claim is false
(`C08_shorten_disagreement`). -/
theorem C08_shorten_partial (c : CCode F n) (hc : c.gen? = none) (bits : List (Fin n))
    (hnd : bits.Nodup)
    (hind : ∀ b ∈ bits, ∃ v, IsWord c.matrix v ∧ v b ≠ 0 ∧ ∀ b' ∈ bits, b' ≠ b → v b' = 0) :
    ∃ h : (c.shorten bits).1 = (keptPositions n bits).length,
      ∀ w : Fin (keptPositions n bits).length → F,
        IsWord (c.shorten bits).2.matrix (fun i => w (i.cast h)) ↔
          ∃ v, IsWord c.matrix v ∧ (∀ b ∈ bits, v b = 0) ∧ ∀ i, w i = v (keptPositions n bits)[i] := by
  set s := bits.insertionSort (· ≥ ·) with hs
  have hperm : s.Perm bits := List.perm_insertionSort _ _
  have hmap : s.map Fin.val = (bits.map Fin.val).insertionSort (· ≥ ·) :=
    List.map_insertionSort _ _ _ _ (fun a _ b _ => Iff.rfl)
  have hsort : s.Pairwise (· > ·) := by
    have h1 : s.Pairwise (· ≥ ·) := List.pairwise_insertionSort _ _
    have h2 : s.Nodup := hperm.nodup_iff.2 hnd
    exact (h1.and h2).imp fun ⟨h, h'⟩ => lt_of_le_of_ne h (Ne.symm h')
  obtain ⟨k', G', e', hfold, he', hran, hG'⟩ := shorten_fold (kernel c.matrix) s
    (by
      intro b hb
      obtain ⟨v, hv, h1, h2⟩ := hind b (hperm.mem_iff.1 hb)
      exact ⟨v, hv, h1, fun b' hb' => h2 b' (hperm.mem_iff.1 hb')⟩)
    [] s rfl hsort n c.generator id strictMono_id (by simp) (fun b _ => ⟨b, rfl, rfl⟩)
    (by
      intro w
      rw [CCode.genOk_of_fresh hc]
      constructor
      · intro h; exact ⟨w, h, by simp, rfl⟩
      · rintro ⟨v, hv, _, rfl⟩; exact hv)
  have hsh : c.shorten bits = ⟨k', CCode.fromGenerator G'⟩ := by
    unfold CCode.shorten CCode.shortenSorted
    rw [← hmap, hfold]
  have hkeep : List.ofFn e' = keptPositions n bits :=
    ofFn_eq_bitsToKeep bits e' he' fun i => by rw [hran, hperm.mem_iff]
  have hlen : k' = (keptPositions n bits).length := by rw [← hkeep]; simp
  have hget : ∀ i : Fin (keptPositions n bits).length,
      (keptPositions n bits)[i] = e' (i.cast hlen.symm) := by
    intro i
    have : (keptPositions n bits)[i] = (List.ofFn e')[i.val]'(by rw [hkeep]; exact i.isLt) := by
      simp [hkeep]
    rw [this, List.getElem_ofFn]; rfl
  rw [hsh]
  refine ⟨hlen, fun w => ?_⟩
  rw [isWord_iff, CCode.kernel_fromGenerator, hG']
  constructor
  · rintro ⟨v, hv, h0, h⟩
    refine ⟨v, hv, fun b hb => h0 b (hperm.mem_iff.2 hb), fun i => ?_⟩
    rw [hget]
    have := congrFun h (i.cast hlen.symm)
    simpa using this
  · rintro ⟨v, hv, h0, h⟩
    refine ⟨v, hv, fun b hb => h0 b (hperm.mem_iff.1 hb), ?_⟩
    funext i
    rw [h, hget]; rfl

-- the hypotheses are met for the parity code of 4 bits and positions 2, 0
example : ∀ b ∈ ([2, 0] : List (Fin 4)), ∃ v : Fin 4 → ZMod 2, IsWord (rows [![1, 1, 1, 1]]) v ∧
    v b ≠ 0 ∧ ∀ b' ∈ ([2, 0] : List (Fin 4)), b' ≠ b → v b' = 0 := by
  unfold IsWord
  intro b hb
  fin_cases hb
  · exact ⟨![0, 1, 1, 0], by decide +kernel⟩
  · exact ⟨![1, 1, 0, 0], by decide +kernel⟩

/-- `shorten` loses words when the code is zero on the position: for the 2-bit code with check `[1, 0]`
(words `00`, `01`), shortening on bit 0 should give the 1-bit code with words `0`, `1`, but the word
`1` is not in the result. -/
theorem C08_shorten_disagreement :
    let c := CCode.ofMatrix (rows [![1, 0]])
    IsWord c.matrix ![0, 1] ∧ (c.shorten [0]).1 = 1 ∧
      ¬ IsWord (c.shorten [0]).2.matrix (fun _ => 1) := by
  refine ⟨by unfold IsWord; decide +kernel, by decide +kernel, ?_⟩
  rw [← C01_contains]
  decide +kernel

/-! ## C09 -/

/-- **C09**: the stacked code has the added length, and a vector is a word iff each consecutive block
is a word of the corresponding code. -/
theorem C09_stack (codes : List (AnyRows F)) (hne : codes ≠ []) :
    ∃ c, stackCodes codes = some c ∧ c.1 = (codes.map Sigma.fst).sum ∧
      ∀ w, IsWord c.2.matrix w ↔ ∀ i (h : i < codes.length),
        IsWord (codes[i]).2 (blockAt w ((codes.take i).map Sigma.fst).sum (codes[i]).1) := by
  refine ⟨_, by rw [stackCodes, if_neg hne], blockDiag_length codes, fun w => ?_⟩
  exact mem_kernel_blockDiag codes w

/-- **C09**: dimensions add up. -/
theorem C09_dimension (codes : List (AnyRows F)) (hne : codes ≠ []) :
    ∃ c, stackCodes codes = some c ∧
      codeDim c.2.matrix = (codes.map fun c => codeDim c.2).sum := by
  refine ⟨_, by rw [stackCodes, if_neg hne], ?_⟩
  simp only [codeDim_eq]
  exact finrank_blockDiag codes

/-- **C09**: the minimum distance of the stack is the least of the distances: `d` is the least weight
of a nonzero word of the stack iff it is the least weight of a nonzero word of any of the codes. -/
theorem C09_distance (codes : List (AnyRows F)) (hne : codes ≠ []) :
    ∃ c, stackCodes codes = some c ∧ ∀ d, IsMinDistance c.2.matrix d ↔
      IsLeast {k | ∃ c ∈ codes, ∃ w, IsWord c.2 w ∧ w ≠ 0 ∧ k = hammingNorm w} d := by
  refine ⟨_, by rw [stackCodes, if_neg hne], fun d => ?_⟩
  obtain ⟨h1, h2⟩ := weights_blockDiag codes
  constructor
  · rintro ⟨⟨w, hw, h0, rfl⟩, hmin⟩
    have hlow : ∀ c ∈ codes, ∀ u, IsWord c.2 u → u ≠ 0 → hammingNorm w ≤ hammingNorm u := by
      intro c hc u hu hu0
      obtain ⟨w', hw', hw0, he⟩ := h2 c hc u hu hu0
      rw [← he]; exact hmin ⟨w', hw', hw0, rfl⟩
    obtain ⟨c, hc, u, hu, hu0, hle⟩ := h1 w hw h0
    refine ⟨⟨c, hc, u, hu, hu0, le_antisymm (hlow c hc u hu hu0) hle⟩, ?_⟩
    rintro k ⟨c, hc, u, hu, hu0, rfl⟩
    exact hlow c hc u hu hu0
  · rintro ⟨⟨c, hc, u, hu, hu0, rfl⟩, hmin⟩
    obtain ⟨w', hw', hw0, he⟩ := h2 c hc u hu hu0
    refine ⟨⟨w', hw', hw0, he.symm⟩, ?_⟩
    rintro k ⟨w, hw, h0, rfl⟩
    obtain ⟨c', hc', u', hu', hu0', hle⟩ := h1 w hw h0
    exact (hmin ⟨c', hc', u', hu', hu0', rfl⟩).trans hle

example : ((stackCodes [⟨2, rows [![1, 1]]⟩, ⟨3, rows [![1, 1, 0], ![0, 1, 1]]⟩]).map fun c =>
    (c.1, (CCode.ofMatrix c.2.matrix).generator.length)) = some (5, 2) := by decide +kernel

#print axioms C01_contains
#print axioms C01_equiv
#print axioms C01_canonicalized
#print axioms C01_idempotent
#print axioms C01_independent
#print axioms C02_generator
#print axioms C02_cached
#print axioms C02_dimension
#print axioms C03_iter_words
#print axioms C03_skip_zero
#print axioms C03_dependent_generator_disagreement
#print axioms C04_dual
#print axioms C04_dual_dual
#print axioms C04_dimension
#print axioms C04_from_generator
#print axioms C04_dual_after_set
#print axioms C05_set_generator
#print axioms C06_tensor
#print axioms C06_dimension
#print axioms C07_puncture
#print axioms C08_shorten_partial
#print axioms C08_shorten_disagreement
#print axioms C09_stack
#print axioms C09_dimension
#print axioms C09_distance

/-! ### Instances of the theorems: concrete cases meet the hypotheses -/

example := C02_generator (CCode.ofMatrix ([![1, 1, 0], ![0, 1, 2]] : Rows (ZMod 3) 3)) rfl
example := C02_dimension (CCode.ofMatrix ([![1, 1, 0], ![0, 1, 2]] : Rows (ZMod 3) 3)) rfl
example := C03_iter_words [0, 1, 2] (by decide) (by decide) (CCode.ofMatrix ([![1, 1, 0], ![0, 1, 2]] : Rows (ZMod 3) 3))
  (genBasis_of_fresh rfl)
example := C03_skip_zero [1, 2] (by decide) (by decide) (CCode.ofMatrix ([![1, 1, 0], ![0, 1, 2]] : Rows (ZMod 3) 3))
  (genBasis_of_fresh rfl)
example := C04_dual (CCode.ofMatrix ([![1, 1, 0], ![0, 1, 2]] : Rows (ZMod 3) 3)) rfl ![1, 2, 2]
example := C04_dual_dual (CCode.ofMatrix ([![1, 1, 0], ![0, 1, 2]] : Rows (ZMod 3) 3)) rfl ![1, 2, 2]
example := C04_dimension (CCode.ofMatrix ([![1, 1, 0], ![0, 1, 2]] : Rows (ZMod 3) 3)) rfl
example : True := by
  obtain ⟨c', h⟩ := (C05_set_generator (CCode.ofMatrix ([![1, 1, 0], ![0, 1, 2]] : Rows (ZMod 3) 3)) rfl
    (CCode.ofMatrix ([![1, 1, 0], ![0, 1, 2]] : Rows (ZMod 3) 3)).generator).1.2 fun w => ((genBasis_of_fresh rfl).2 w).symm
  have := C04_dual_after_set _ rfl rfl _ c' h ![1, 1, 0]
  trivial
example := C05_set_generator (CCode.ofMatrix ([![1, 1, 0], ![0, 1, 2]] : Rows (ZMod 3) 3)) rfl [![2, 1, 1]]
example := C06_tensor (CCode.ofMatrix ([![1, 1, 0], ![0, 1, 2]] : Rows (ZMod 3) 3)) (CCode.ofMatrix [![1, 1]]) rfl rfl 0
example := C06_dimension (CCode.ofMatrix ([![1, 1, 0], ![0, 1, 2]] : Rows (ZMod 3) 3)) (CCode.ofMatrix [![1, 1]]) rfl rfl
example := C07_puncture (CCode.ofMatrix ([![1, 1, 0], ![0, 1, 2]] : Rows (ZMod 3) 3)) rfl [1, 1] 0
example := C08_shorten_partial (CCode.ofMatrix ([![1, 1, 1]] : Rows (ZMod 2) 3)) rfl [0, 2] (by decide)
  (by
    intro b hb
    rcases List.mem_cons.1 hb with rfl | hb
    · exact ⟨![1, 1, 0], by unfold IsWord; decide, by decide, by decide⟩
    · rw [List.mem_singleton.1 hb]
      exact ⟨![0, 1, 1], by unfold IsWord; decide, by decide, by decide⟩)
example := C09_stack (F := ZMod 2) [⟨3, [![1, 1, 0]]⟩, ⟨2, [![1, 1]]⟩] (by simp)
example := C09_dimension (F := ZMod 2) [⟨3, [![1, 1, 0]]⟩, ⟨2, [![1, 1]]⟩] (by simp)
example := C09_distance (F := ZMod 2) [⟨3, [![1, 1, 0]]⟩, ⟨2, [![1, 1]]⟩] (by simp)

end QLDPC.Props
