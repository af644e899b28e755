import Verif.Lemmas.Families
import Verif.Props.Classical
import Verif.Props.Distance
import Verif.Lemmas.Binary

/-!
# Properties C10, C11: distances of classical codes
-/

namespace QLDPC.Props

open QLDPC QLDPC.Spec

set_option linter.unusedSectionVars false

variable {F : Type} [Field F] [DecidableEq F] {n m : ℕ}

/-- The caches of a code object tell the truth. -/
structure CacheOk (c : CCode F n) : Prop where
  gen : GenBasis c
  dim : ∀ k, c.dim? = some k → k = codeDim c.matrix
  dist : ∀ d, c.dist? = some d →
    match d with
    | none => codeDim c.matrix = 0
    | some d => codeDim c.matrix ≠ 0 ∧ IsMinDistance c.matrix d

theorem cacheOk_fresh (M : Rows F n) : CacheOk (CCode.ofMatrix M) :=
  ⟨genBasis_of_fresh rfl, (by intro k h; cases h), (by intro d h; cases h)⟩

theorem CacheOk.dimension {c : CCode F n} (h : CacheOk c) : c.dimension = codeDim c.matrix := by
  rw [codeDim_eq]
  exact CCode.dimension_eq (c := c) fun k hk => by rw [h.dim k hk, codeDim_eq]

theorem codeDim_zero_iff (H : Rows F n) : codeDim H = 0 ↔ ∀ w, IsWord H w → w = 0 := by
  rw [codeDim, Submodule.finrank_eq_zero, Submodule.eq_bot_iff]
  exact Iff.rfl

theorem pos_of_dim {H : Rows F n} (h : codeDim H ≠ 0) : 0 < n := by
  rcases Nat.eq_zero_or_pos n with rfl | h'
  · exact absurd ((codeDim_zero_iff H).2 fun w _ => funext fun i => (Nat.not_lt_zero _ i.isLt).elim) h
  · exact h'

/-- The distance computed by `get_distance_exact` when it is not known. -/
theorem exact_compute (wb : ℕ) (els : List F) (hnd : (0 :: els).Nodup) (hall : ∀ x, x ∈ 0 :: els)
    (hwb : n < 2 ^ wb) (h64 : n < 2 ^ 64) (c : CCode F n) (hc : GenBasis c)
    (hdim : codeDim c.matrix ≠ 0) :
    ∃ d, (if (0 :: els).length = 2 then
          getDistanceClassical wb n 15
            (c.generator.map fun r => List.ofFn fun i => decide (r i ≠ 0))
        else pyMin ((c.iterWords (0 :: els) true).map countNonzero)) = some d ∧
      IsMinDistance c.matrix d := by
  have hn := pos_of_dim hdim
  obtain ⟨w0, hw0, hw0'⟩ : ∃ w, IsWord c.matrix w ∧ w ≠ 0 := by
    by_contra h
    push Not at h
    exact hdim ((codeDim_zero_iff _).2 h)
  split
  · rename_i h2
    have hF := isBinary_of_list hnd hall h2
    obtain ⟨hind, hspan⟩ := hc
    have hG : (c.generator.map fun r => List.ofFn fun i => decide (r i ≠ 0)) =
        (c.generator.map toZ2).map bitsOf := by
      rw [List.map_map]
      apply List.map_congr_left
      intro r _
      exact (bitsOf_toZ2 r).symm
    obtain ⟨d, hd, _, hmin⟩ := C15_homogeneous_width wb n hn hwb h64 15 (c.generator.map toZ2) []
    refine ⟨d, ?_, ?_⟩
    · rw [hG]; exact hd
    · have hne : c.generator.map toZ2 ≠ [] := by
        intro h
        have h0 : c.generator = [] := List.map_eq_nil_iff.1 h
        apply hw0'
        have := (hspan w0).1 hw0
        rw [isCombination_iff, h0] at this
        simpa [rowSpan] using this
      have hset : {w | ∃ t s : List (Fin n → ZMod 2), t.Sublist (c.generator.map toZ2) ∧ t ≠ [] ∧
            s.Sublist [] ∧ w = hammingNorm (t.sum + s.sum)} =
          {k | ∃ w, IsWord c.matrix w ∧ w ≠ 0 ∧ k = hammingNorm w} := by
        ext k
        constructor
        · rintro ⟨t, s, ht, htne, hs, rfl⟩
          rw [List.sublist_nil.1 hs, List.sum_nil, add_zero]
          obtain ⟨t', ht', rfl⟩ := List.sublist_map_iff.1 ht
          obtain ⟨h1, h2⟩ := (sublist_sum_iff hF hind t'.sum).1
            ⟨t', ht', by rintro rfl; exact htne rfl, rfl⟩
          refine ⟨t'.sum, ?_, h2, ?_⟩
          · rw [hspan, isCombination_iff]; exact h1
          · rw [← toZ2_sum hF, hammingNorm_toZ2]
        · rintro ⟨w, hw, h0, rfl⟩
          rw [hspan, isCombination_iff] at hw
          obtain ⟨t, ht, htne, rfl⟩ := (sublist_sum_iff hF hind w).2 ⟨hw, h0⟩
          refine ⟨t.map toZ2, [], ht.map _, by simpa using htne, by simp, ?_⟩
          rw [List.sum_nil, add_zero, ← toZ2_sum hF, hammingNorm_toZ2]
      have := hmin hne
      unfold IsMinProductWeight at this
      rw [hset] at this
      exact this
  · obtain ⟨_, hmem⟩ := C03_skip_zero els hnd hall c hc
    obtain ⟨d, hd, hdm, hmin⟩ := pyMin_spec ((c.iterWords (0 :: els) true).map countNonzero)
      (by
        intro h
        have := (hmem w0).2 ⟨hw0, hw0'⟩
        rw [List.map_eq_nil_iff.1 h] at this
        simp at this)
    refine ⟨d, hd, ?_, ?_⟩
    · obtain ⟨w, hw, rfl⟩ := List.mem_map.1 hdm
      obtain ⟨h1, h2⟩ := (hmem w).1 hw
      exact ⟨w, h1, h2, countNonzero_eq w⟩
    · rintro k ⟨w, h1, h2, rfl⟩
      exact hmin _ (List.mem_map.2 ⟨w, (hmem w).2 ⟨h1, h2⟩, countNonzero_eq w⟩)

/-- **C10**, for any integer width `wb` of the first weight computation (binary fields) that can hold
the block length: on a code object whose caches are right, `get_distance_exact` returns the least
weight of a nonzero word, or `nan` if there is none.  The caches are right afterwards, so the claim
holds along any sequence of calls. -/
theorem C10_exact_width (wb : ℕ) (els : List F) (hnd : (0 :: els).Nodup) (hall : ∀ x, x ∈ 0 :: els)
    (hwb : n < 2 ^ wb) (h64 : n < 2 ^ 64) (c : CCode F n) (hc : CacheOk c) :
    ((codeDim c.matrix = 0 → (c.distanceExact wb (0 :: els) none).1 = some none) ∧
      (codeDim c.matrix ≠ 0 → ∃ d, (c.distanceExact wb (0 :: els) none).1 = some (some d) ∧
        IsMinDistance c.matrix d)) ∧
      CacheOk (c.distanceExact wb (0 :: els) none).2 ∧
      (c.distanceExact wb (0 :: els) none).2.matrix = c.matrix := by
  by_cases h0 : codeDim c.matrix = 0
  · have he : c.distanceExact wb (0 :: els) none = (some none, { c with dist? := some none }) := by
      simp [CCode.distanceExact, CCode.distanceIfKnown, hc.dimension, h0]
    rw [he]
    refine ⟨⟨fun _ => rfl, fun h => absurd h0 h⟩, ⟨hc.gen, hc.dim, ?_⟩, rfl⟩
    intro d hd
    cases hd
    exact h0
  · have hdist := hc.dist
    cases hd : c.dist? with
    | some d =>
      have he : c.distanceExact wb (0 :: els) none = (some d, c) := by
        simp [CCode.distanceExact, CCode.distanceIfKnown, hc.dimension, h0, hd]
      rw [he]
      have := hdist d hd
      refine ⟨⟨fun h => absurd h h0, fun _ => ?_⟩, hc, rfl⟩
      cases d with
      | none => exact absurd this h0
      | some d => exact ⟨d, rfl, this.2⟩
    | none =>
      obtain ⟨d, hcomp, hmin⟩ := exact_compute wb els hnd hall hwb h64 c hc.gen h0
      have he : c.distanceExact wb (0 :: els) none =
          (some (some d), { c.withGenerator with dist? := some (some d) }) := by
        have hk : c.distanceIfKnown none = (none, c) := by
          simp [CCode.distanceIfKnown, hc.dimension, h0, hd]
        unfold CCode.distanceExact
        rw [hk]
        simp only [hcomp]
      rw [he]
      refine ⟨⟨fun h => absurd h h0, fun _ => ⟨d, rfl, hmin⟩⟩, ⟨hc.gen, hc.dim, ?_⟩, rfl⟩
      intro d' hd'
      cases hd'
      exact ⟨h0, hmin⟩

/-- **C10** for the 64-bit kernels: `get_distance_exact` of a freshly built code is the least Hamming
weight of a nonzero word. -/
theorem C10_exact (els : List F) (hnd : (0 :: els).Nodup) (hall : ∀ x, x ∈ 0 :: els)
    (h64 : n < 2 ^ 64) (M : Rows F n) (hdim : codeDim M ≠ 0) :
    ∃ d, ((CCode.ofMatrix M).distanceExact 64 (0 :: els) none).1 = some (some d) ∧
      IsMinDistance M d :=
  (C10_exact_width 64 els hnd hall h64 h64 _ (cacheOk_fresh M)).1.2 hdim

/-- **C10** with numpy ≥ 2 (`np.bitwise_count`, 8-bit weights).  Partial: fewer than 256 bits. -/
theorem C10_exact_bitwise_count_partial (els : List F) (hnd : (0 :: els).Nodup)
    (hall : ∀ x, x ∈ 0 :: els) (h8 : n < 256) (M : Rows F n) (hdim : codeDim M ≠ 0) :
    ∃ d, ((CCode.ofMatrix M).distanceExact 8 (0 :: els) none).1 = some (some d) ∧
      IsMinDistance M d :=
  (C10_exact_width 8 els hnd hall h8 (by omega) _ (cacheOk_fresh M)).1.2 hdim

theorem hammingNorm_sub (v w : Fin n → F) : hammingNorm (w - v) = hammingDist w v := by
  unfold hammingNorm hammingDist
  congr 1
  ext i
  simp [sub_eq_zero]

/-- **C10** with a vector: the result is the least Hamming distance from the vector to a word. -/
theorem C10_vector (wb : ℕ) (els : List F) (hnd : els.Nodup) (hall : ∀ x, x ∈ els)
    (c : CCode F n) (hc : CacheOk c) (v : Fin n → F) :
    ∃ d, (c.distanceExact wb els (some v)).1 = some (some d) ∧
      IsLeast {k | ∃ w, IsWord c.matrix w ∧ k = hammingDist w v} d ∧
      CacheOk (c.distanceExact wb els (some v)).2 ∧
      (c.distanceExact wb els (some v)).2.matrix = c.matrix := by
  by_cases h0 : codeDim c.matrix = 0
  · have he : c.distanceExact wb els (some v) = (some (some (countNonzero v)), c) := by
      simp [CCode.distanceExact, CCode.distanceIfKnown, hc.dimension, h0]
    rw [he]
    have hz := (codeDim_zero_iff _).1 h0
    refine ⟨_, rfl, ⟨⟨0, ?_, ?_⟩, ?_⟩, hc, rfl⟩
    · rw [isWord_iff]; exact Submodule.zero_mem _
    · rw [countNonzero_eq, hammingDist_zero_left]
    · rintro k ⟨w, hw, rfl⟩
      rw [hz w hw, countNonzero_eq, hammingDist_zero_left]
  · obtain ⟨_, hmem, _⟩ := C03_iter_words els hnd hall c hc.gen
    obtain ⟨d, hd, hdm, hmin⟩ :=
      pyMin_spec ((c.iterWords els false).map fun w => countNonzero (w - v))
        (by
          intro h
          have hz : IsWord c.matrix 0 := by rw [isWord_iff]; exact Submodule.zero_mem _
          have := (hmem 0).2 hz
          rw [List.map_eq_nil_iff.1 h] at this
          simp at this)
    have he : c.distanceExact wb els (some v) = (some (some d), c.withGenerator) := by
      have hk : c.distanceIfKnown (some v) = (none, c) := by
        simp [CCode.distanceIfKnown, hc.dimension, h0]
      unfold CCode.distanceExact
      rw [hk]
      simp only [hd]; rfl
    rw [he]
    refine ⟨d, rfl, ⟨?_, ?_⟩, ⟨hc.gen, hc.dim, hc.dist⟩, rfl⟩
    · obtain ⟨w, hw, rfl⟩ := List.mem_map.1 hdm
      exact ⟨w, (hmem w).1 hw, by rw [countNonzero_eq, hammingNorm_sub]⟩
    · rintro k ⟨w, hw, rfl⟩
      exact hmin _ (List.mem_map.2 ⟨w, (hmem w).2 hw,
        by rw [countNonzero_eq, hammingNorm_sub]⟩)

-- a [7, 4] Hamming code
example : ((CCode.ofMatrix (rows [![0, 0, 0, 1, 1, 1, 1], ![0, 1, 1, 0, 0, 1, 1],
    ![1, 0, 1, 0, 1, 0, 1]])).distanceExact 64 [0, 1] none).1 = some (some 3) := by decide +kernel

/-- The basis part of `CacheOk` is needed: after `set_generator` with dependent rows of the right rank
the reported distance of the 2-bit repetition code (distance 2) is 0. -/
theorem C10_dependent_generator_disagreement :
    ∃ c : CCode (ZMod 2) 2,
      (CCode.ofMatrix (rows [![1, 1]])).setGenerator [![1, 1], ![1, 1]] = .ok c ∧
      (c.distanceExact 64 [0, 1] none).1 = some (some 0) := by
  refine ⟨{ matrix := [![1, 1]], gen? := some [![1, 1], ![1, 1]] }, ?_, ?_⟩
  · unfold CCode.setGenerator
    rw [if_neg (by decide +kernel), if_neg (by decide +kernel)]; rfl
  · decide +kernel

/-! ## C11 -/

theorem boundAttempt_spec {H : Rows F n} {rnd cand : Fin n → F} {k : ℕ}
    (h : boundAttempt H rnd cand = some k) : IsWord H cand ∧ cand ≠ 0 ∧ k = hammingNorm cand := by
  unfold boundAttempt at h
  split at h
  · rename_i he
    rw [List.map_append] at he
    have h1 := List.append_inj he (by simp)
    refine ⟨?_, ?_, ?_⟩
    · intro r hr
      have := List.eq_replicate_iff.1 h1.1
      exact this.2 _ (List.mem_map.2 ⟨r, hr, rfl⟩)
    · rintro rfl
      have := h1.2
      simp [dot] at this
    · cases h; exact countNonzero_eq cand
  · cases h

theorem oneDistanceBound_spec {H : Rows F n} {draws rest} {k : ℕ}
    (h : oneDistanceBound H draws = some (k, rest)) :
    ∃ w, IsWord H w ∧ w ≠ 0 ∧ k = hammingNorm w := by
  induction draws with
  | nil => cases h
  | cons d draws ih =>
    obtain ⟨rnd, decode⟩ := d
    unfold oneDistanceBound at h
    split at h
    · rename_i w hw
      cases h
      exact ⟨_, boundAttempt_spec hw⟩
    · exact ih h

theorem boundLoop_spec {H : Rows F n} {cutoff : Option ℕ} {d : ℕ} (hd : IsMinDistance H d)
    {trials m b : ℕ} {draws} (hm : d ≤ m) (h : boundLoop H cutoff trials m draws = some b) :
    d ≤ b ∧ b ≤ m := by
  induction trials generalizing m draws with
  | zero => cases h; exact ⟨hm, le_rfl⟩
  | succ t ih =>
    unfold boundLoop at h
    split at h
    · cases h; exact ⟨hm, le_rfl⟩
    · split at h
      · cases h
      · rename_i w rest hw
        obtain ⟨x, hx, hx0, rfl⟩ := oneDistanceBound_spec hw
        obtain ⟨h1, h2⟩ := ih (m := min m (hammingNorm x)) (le_min hm (hd.2 ⟨x, hx, hx0, rfl⟩)) h
        exact ⟨h1, h2.trans (min_le_left _ _)⟩

/-- **C11**: whatever words are drawn and whatever the decoder answers, when `get_distance_bound`
returns for a code with a nonzero word, the result is at least the minimum distance and at most the
block length. -/
theorem C11_bound (c : CCode F n) (hc : CacheOk c) (hdim : codeDim c.matrix ≠ 0)
    (numTrials : ℕ) (cutoff : Option ℕ)
    (draws : List ((Fin n → F) × (Rows F n → List F → Fin n → F))) (r : Option ℕ)
    (h : c.distanceBound numTrials cutoff draws = some r) :
    ∃ b, r = some b ∧ b ≤ n ∧ ∀ d, IsMinDistance c.matrix d → d ≤ b := by
  have hle : ∀ d, IsMinDistance c.matrix d → d ≤ n := by
    rintro d ⟨⟨w, _, _, rfl⟩, _⟩
    exact (hammingNorm_le_card_fintype (x := w)).trans (by simp)
  cases hd : c.dist? with
  | some e =>
    have hk : (c.distanceIfKnown none).1 = some e := by
      simp [CCode.distanceIfKnown, hc.dimension, hdim, hd]
    unfold CCode.distanceBound at h
    rw [hk] at h
    have h := Option.some.inj h
    subst h
    have := hc.dist e hd
    cases e with
    | none => exact absurd this hdim
    | some e =>
      exact ⟨e, rfl, hle e this.2, fun d hd => (hd.unique this.2).le⟩
  | none =>
    have hk : (c.distanceIfKnown none).1 = none := by
      simp [CCode.distanceIfKnown, hc.dimension, hdim, hd]
    unfold CCode.distanceBound at h
    rw [hk] at h
    obtain ⟨b, hb, rfl⟩ := Option.map_eq_some_iff.1 h
    refine ⟨b, rfl, ?_, fun d hd => (boundLoop_spec hd (hle d hd) hb).1⟩
    obtain ⟨d, hd⟩ : ∃ d, IsMinDistance c.matrix d := by
      obtain ⟨w0, hw0, hw0'⟩ : ∃ w, IsWord c.matrix w ∧ w ≠ 0 := by
        by_contra h
        push Not at h
        exact hdim ((codeDim_zero_iff _).2 h)
      classical
      have hex : ∃ k, ∃ w, IsWord c.matrix w ∧ w ≠ 0 ∧ k = hammingNorm w := ⟨_, w0, hw0, hw0', rfl⟩
      exact ⟨Nat.find hex, Nat.find_spec hex, fun k hk => Nat.find_min' hex hk⟩
    exact (boundLoop_spec hd (hle d hd) hb).2

theorem boundLoop_zero (H : Rows F n) (trials m : ℕ) (draws : List ((Fin n → F) × (Rows F n → List F → Fin n → F))) :
    boundLoop H (some 0) trials m draws = boundLoop H none trials m draws := by
  induction trials generalizing m draws with
  | zero => rfl
  | succ t ih =>
    unfold boundLoop
    rw [if_neg (by simp [cutoffReached]), if_neg (by simp [cutoffReached])]
    split
    · rfl
    · exact ih _ _

theorem boundLoop_cutoff {H : Rows F n} {k trials m b : ℕ} (hk : k ≠ 0)
    {draws : List ((Fin n → F) × (Rows F n → List F → Fin n → F))} (h : boundLoop H (some k) trials m draws = some b) :
    ∃ t ≤ trials, boundLoop H none t m draws = some b ∧ (t < trials → b ≤ k) ∧
      ∀ s < t, ∃ b', boundLoop H none s m draws = some b' ∧ k < b' := by
  induction trials generalizing m draws with
  | zero => exact ⟨0, le_rfl, h, by simp, by simp⟩
  | succ T ih =>
    unfold boundLoop at h
    by_cases hm : m ≤ k
    · rw [if_pos (by simp [cutoffReached, hk, hm])] at h
      cases h
      exact ⟨0, by omega, rfl, fun _ => hm, by simp⟩
    · rw [if_neg (by simp [cutoffReached, hm])] at h
      split at h
      · cases h
      · rename_i w rest hw
        have hstep : ∀ t, boundLoop H none (t + 1) m draws = boundLoop H none t (min m w) rest := by
          intro t
          conv_lhs => unfold boundLoop
          rw [if_neg (by simp [cutoffReached]), hw]
        obtain ⟨t, ht, h1, h2, h3⟩ := ih h
        refine ⟨t + 1, by omega, (hstep t).trans h1, fun hlt => h2 (by omega), fun s hs => ?_⟩
        rcases s with _ | s
        · exact ⟨m, rfl, by omega⟩
        · obtain ⟨b', h4, h5⟩ := h3 s (by omega)
          exact ⟨b', (hstep s).trans h4, h5⟩

/-- **C11**, the cutoff.  A run with a positive cutoff returns what a run without a cutoff returns after some number of
trials: the first number for which that is at most the cutoff, or all trials if there is none.  A cutoff of zero has no
effect. -/
theorem C11_cutoff (c : CCode F n) (hc : CacheOk c) (hdim : codeDim c.matrix ≠ 0) (hd : c.dist? = none) (numTrials : ℕ)
    (draws : List ((Fin n → F) × (Rows F n → List F → Fin n → F))) :
    c.distanceBound numTrials (some 0) draws = c.distanceBound numTrials none draws ∧
    ∀ k r, k ≠ 0 → c.distanceBound numTrials (some k) draws = some r →
      ∃ t ≤ numTrials, c.distanceBound t none draws = some r ∧ (t < numTrials → ∃ b, r = some b ∧ b ≤ k) ∧
        ∀ s < t, ∃ b, c.distanceBound s none draws = some (some b) ∧ k < b := by
  have hk : (c.distanceIfKnown none).1 = none := by
    simp [CCode.distanceIfKnown, hc.dimension, hdim, hd]
  have e : ∀ t cut, c.distanceBound t cut draws = (boundLoop c.matrix cut t n draws).map some := by
    intro t cut
    unfold CCode.distanceBound
    rw [hk]
  refine ⟨by rw [e, e, boundLoop_zero], fun k r h0 h => ?_⟩
  rw [e] at h
  obtain ⟨b, hb, rfl⟩ := Option.map_eq_some_iff.1 h
  obtain ⟨t, ht, h1, h2, h3⟩ := boundLoop_cutoff h0 hb
  refine ⟨t, ht, by rw [e, h1]; rfl, fun hlt => ⟨b, rfl, h2 hlt⟩, fun s hs => ?_⟩
  obtain ⟨b', h4, h5⟩ := h3 s hs
  exact ⟨b', by rw [e, h4]; rfl, h5⟩

-- a cutoff of three stops after one trial of the repetition code, a cutoff of two does not
example : (CCode.ofMatrix (rows [![1, 1, 0], ![0, 1, 1]])).distanceBound 2 (some 3) [] = some (some 3) ∧
    (CCode.ofMatrix (rows [![1, 1, 0], ![0, 1, 1]])).distanceBound 2 (some 2) [] = none := by
  decide +kernel
example := C11_cutoff (CCode.ofMatrix ([![1, 1, 0], ![0, 1, 1]] : Rows (ZMod 2) 3)) (cacheOk_fresh _)
  (by rw [codeDim_constant (by norm_num) (by unfold IsWord; decide +kernel)]; decide) rfl 1
  [(![1, 0, 0], fun _ _ => ![1, 0, 0]), (![1, 1, 1], fun _ _ => ![1, 1, 1])]

-- a run on the repetition code of 3 bits: first decoder answer rejected, second accepted
example : (CCode.ofMatrix (rows [![1, 1, 0], ![0, 1, 1]])).distanceBound 1 none
    [(![1, 0, 0], fun _ _ => ![1, 0, 0]), (![1, 1, 1], fun _ _ => ![1, 1, 1])] = some (some 3) := by
  decide +kernel

#print axioms C10_exact_width
#print axioms C10_exact
#print axioms C10_exact_bitwise_count_partial
#print axioms C10_vector
#print axioms C10_dependent_generator_disagreement
#print axioms C11_bound
#print axioms C11_cutoff

/-! ### Instances of the theorems: concrete cases meet the hypotheses -/

example := C10_exact_width (F := ZMod 3) 3 [1, 2] (by decide) (by decide) (by decide) (by decide) (CCode.ofMatrix [![1, 1, 0]])
  (cacheOk_fresh _)
example := C10_exact (F := ZMod 3) [1, 2] (by decide) (by decide) (by decide) ([![1, 1, 0]] : Rows (ZMod 3) 3)
  (by rw [codeDim_eq]; have := finrank_kernel ([![1, 1, 0]] : Rows (ZMod 3) 3); have h : rank ([![1, 1, 0]] : Rows (ZMod 3) 3) = 1 := by decide +kernel
      omega)
example := C10_exact_bitwise_count_partial (F := ZMod 3) [1, 2] (by decide) (by decide) (by decide) ([![1, 1, 0]] : Rows (ZMod 3) 3)
  (by rw [codeDim_eq]; have := finrank_kernel ([![1, 1, 0]] : Rows (ZMod 3) 3); have h : rank ([![1, 1, 0]] : Rows (ZMod 3) 3) = 1 := by decide +kernel
      omega)
example := C10_vector (F := ZMod 3) 8 [0, 1, 2] (by decide) (by decide) (CCode.ofMatrix [![1, 1, 0]]) (cacheOk_fresh _) ![1, 0, 2]

example := C11_bound (CCode.ofMatrix ([![1, 1, 0], ![0, 1, 1]] : Rows (ZMod 2) 3)) (cacheOk_fresh _)
  (by rw [codeDim_constant (by norm_num) (by unfold IsWord; decide +kernel)]; decide) 1 none
  [(![1, 0, 0], fun _ _ => ![1, 0, 0]), (![1, 1, 1], fun _ _ => ![1, 1, 1])] (some 3) (by decide +kernel)

end QLDPC.Props
