import Verif.Lemmas.Families
import Verif.Model.SampledRate
import Verif.Props.CodeCapacity
import Verif.Props.NamedCodes

/-!
# Property C111: logical error rates and distances

Whatever errors are sampled, errors that the distance makes correctable are not counted as failures.
-/

namespace QLDPC.Props

open QLDPC QLDPC.Spec

set_option linter.unusedSectionVars false

variable {F : Type} [Field F] [DecidableEq F] {n : ℕ}

theorem norm_placeValues_le (locs : List (Fin n)) (vals : List F) : hammingNorm (placeValues locs vals) ≤ locs.length := by
  have key : ∀ (l : List (Fin n × F)) (e : Fin n → F),
      hammingNorm (l.foldl (fun e lv => Function.update e lv.1 lv.2) e) ≤ hammingNorm e + l.length := by
    intro l
    induction l with
    | nil => intro e; simp
    | cons a l ih =>
      intro e
      rw [List.foldl_cons, List.length_cons]
      refine (ih _).trans ?_
      have : hammingNorm (Function.update e a.1 a.2) ≤ hammingNorm e + 1 := by
        unfold hammingNorm
        refine (Finset.card_le_card (t := insert a.1 (Finset.univ.filter fun i => e i ≠ 0)) ?_).trans (Finset.card_insert_le _ _)
        intro i hi
        rw [Finset.mem_insert]
        by_cases h : i = a.1
        · exact Or.inl h
        · rw [Finset.mem_filter, Function.update_of_ne h] at hi
          exact Or.inr (Finset.mem_filter.2 hi)
      omega
  have := key (locs.zip vals) 0
  rw [hammingNorm_zero, zero_add, List.length_zip] at this
  exact this.trans (min_le_left _ _)

/-- The reported rate if no sample of weight at most `t` is a failure. -/
theorem rate_upper {maxRate p : ℚ} (h0 : 0 ≤ p) (h1 : p ≤ 1) (o : List (List Bool)) (t : ℕ) (ho : o ≠ []) (hn : o.length ≤ n)
    (hok : ∀ (i : ℕ) (hi : i < o.length), i < t → ∀ b ∈ o[i], b = false) {r : ℚ × ℚ}
    (h : rateOfOutcomes n maxRate o p = some r) :
    r.1 ≤ ∑ k ∈ Finset.Ico (min t o.length + 1) (n + 1), weightProb n p k := by
  have hne : ∀ a ∈ o, a ≠ [] := by
    rintro a ha rfl
    have hnone : o.mapM fidelity = none := by
      cases hm : o.mapM fidelity with
      | none => rfl
      | some l =>
        have hF := List.forall₂_iff_get.1 (QLDPC.mapM_some_iff.1 hm)
        obtain ⟨i, hi, he⟩ := List.getElem_of_mem ha
        have h2 := hF.2 i hi (hF.1 ▸ hi)
        simp only [List.get_eq_getElem, he] at h2
        cases h2
    unfold rateOfOutcomes at h
    rw [hnone] at h
    cases h
  unfold rateOfOutcomes at h
  rw [mapM_some_eq (f := fidelity) (g := fun a => (estimate a).1) o fun a ha => if_neg (hne a ha),
    mapM_some_eq (f := fidelityVariance) (g := fun a => (estimate a).2) o fun a ha => if_neg (hne a ha)] at h
  let Fs : ℕ → ℚ := fun k => match k with | 0 => 1 | k + 1 => ((o.map estimate).getD k 0).1
  let Vs : ℕ → ℚ := fun k => match k with | 0 => 0 | k + 1 => ((o.map estimate).getD k 0).2
  have e1 : (1 :: o.map fun a => (estimate a).1) = (List.range (o.length + 1)).map Fs := by
    rw [List.range_succ_eq_map, List.map_cons, List.map_map]
    congr 1
    refine List.ext_getElem (by simp) fun i h1 h2 => ?_
    have : i < o.length := by simpa using h1
    simp [Fs, this]
  have e2 : (0 :: o.map fun a => (estimate a).2) = (List.range (o.length + 1)).map Vs := by
    rw [List.range_succ_eq_map, List.map_cons, List.map_map]
    congr 1
    refine List.ext_getElem (by simp) fun i h1 h2 => ?_
    have : i < o.length := by simpa using h1
    simp [Vs, this]
  simp only [Option.bind_eq_bind, Option.bind_some] at h
  rw [e1, e2, C76_value n maxRate p Fs Vs o.length (by simpa using ho) hn] at h
  split at h
  · cases h
  obtain rfl := Option.some.inj h
  simp only
  have hq : ∀ k, 0 ≤ weightProb n p k := binomial_nonneg h0 h1
  have hF1 : ∀ k, k ≤ min t o.length → Fs k = 1 := by
    intro k hk
    cases k with
    | zero => rfl
    | succ k =>
      have hk' : k < o.length := by omega
      have hz : (o[k]).countP id = 0 := List.countP_eq_zero.2 fun b hb => by
        rw [hok k hk' (by omega) b hb]
        simp
      simp [Fs, hk', estimate, hz]
  have hF0 : ∀ k, k ≤ o.length → 0 ≤ Fs k := by
    intro k hk
    cases k with
    | zero => exact zero_le_one
    | succ k =>
      have hk' : k < o.length := by omega
      have : ((o[k]).countP id : ℚ) / (o[k]).length ≤ 1 :=
        div_le_one_of_le₀ (by exact_mod_cast List.countP_le_length) (by positivity)
      simp only [Fs, List.getD_eq_getElem?_getD, List.getElem?_map, List.getElem?_eq_getElem hk', Option.map_some,
        Option.getD_some, estimate]
      linarith
  rw [← Finset.sum_Ico_consecutive _ (by omega : min t o.length + 1 ≤ o.length + 1) (by omega : o.length + 1 ≤ n + 1)]
  refine add_le_add_left ?_ _ 
  rw [Finset.range_eq_Ico, ← Finset.sum_Ico_consecutive _ (by omega : 0 ≤ min t o.length + 1)
    (by omega : min t o.length + 1 ≤ o.length + 1)]
  rw [Finset.sum_eq_zero (s := Finset.Ico 0 (min t o.length + 1)), zero_add]
  · refine Finset.sum_le_sum fun k hk => mul_le_of_le_one_right (hq k) ?_
    have := hF0 k (by have := Finset.mem_Ico.1 hk; omega)
    linarith
  · intro k hk
    rw [hF1 k (by have := Finset.mem_Ico.1 hk; omega), sub_self, mul_zero]

/-- **C111**: if a decoder finds all errors of weight at most `t`, the reported logical error rate of a classical code is at
most the probability that there are more than `t` errors (or more than are sampled), for all samples. -/
theorem C111_classical (H : Rows F n) (decoder : List F → Fin n → F) (t : ℕ)
    (hdec : ∀ e, hammingNorm e ≤ t → decoder (syndromeOf H e) = e) {maxRate p : ℚ} (h0 : 0 ≤ p) (h1 : p ≤ 1)
    (samples : List (List (List (Fin n) × List F))) (hne : samples ≠ []) (hn : samples.length ≤ n)
    (hs : ∀ (i : ℕ) (hi : i < samples.length), ∀ s ∈ samples[i], s.1.length = i + 1) {r : ℚ × ℚ}
    (h : classicalRate H decoder maxRate samples p = some r) :
    r.1 ≤ ∑ k ∈ Finset.Ico (min t samples.length + 1) (n + 1), weightProb n p k := by
  have := rate_upper h0 h1 _ t (by simpa using hne) (by simpa using hn) ?_ h
  · simpa using this
  · intro i hi hit b hb
    simp only [List.length_map] at hi
    rw [List.getElem_map] at hb
    obtain ⟨s, hs', rfl⟩ := List.mem_map.1 hb
    rw [← Bool.not_eq_true, C86_classical_failure, not_not]
    refine hdec _ ((norm_placeValues_le _ _).trans ?_)
    rw [hs i hi s hs']
    omega

/-- **C111**: the lookup decoder with its default `max_weight`, from the exact distance `d` of the code. -/
theorem C111_lookup {els : List F} (hnd : (0 :: els).Nodup) (hall : ∀ x : F, x ∈ 0 :: els) (H : Rows F n) (d : ℕ)
    (hd : IsMinDistance H d) {maxRate p : ℚ} (h0 : 0 ≤ p) (h1 : p ≤ 1)
    (samples : List (List (List (Fin n) × List F))) (hne : samples ≠ []) (hn : samples.length ≤ n)
    (hs : ∀ (i : ℕ) (hi : i < samples.length), ∀ s ∈ samples[i], s.1.length = i + 1) {r : ℚ × ℚ}
    (h : classicalRate H (lookupDecode (0 :: els) H (defaultMaxWeight (some d))) maxRate samples p = some r) :
    r.1 ≤ ∑ k ∈ Finset.Ico (min ((d - 1) / 2) samples.length + 1) (n + 1), weightProb n p k :=
  C111_classical H _ ((d - 1) / 2) (fun e he => C57_default hnd hall H (some d) hd e he) h0 h1 samples hne hn hs h

/-- A decoder infers errors with the given syndrome, of weight at most `t` if there are such errors. -/
def BoundedDecoder (S : Rows F n) (decoder : List F → Fin n → F) (t : ℕ) : Prop :=
  ∀ e, hammingNorm e ≤ t → syndromeOf S (decoder (syndromeOf S e)) = syndromeOf S e ∧
    hammingNorm (decoder (syndromeOf S e)) ≤ t

/-- **C111**: the lookup decoder is such a decoder. -/
theorem C111_lookup_bounded {els : List F} (hnd : (0 :: els).Nodup) (hall : ∀ x : F, x ∈ 0 :: els) (S : Rows F n) (t : ℕ) :
    BoundedDecoder S (lookupDecode (0 :: els) S t) t := by
  intro e he
  obtain ⟨a, b⟩ := C57_least_partial hnd hall S t (syndromeOf S e)
  by_cases h : ∃ e', e' ≠ 0 ∧ hammingNorm e' ≤ t ∧ syndromeOf S e' = syndromeOf S e
  · obtain ⟨h1, -, h2, -⟩ := a h
    exact ⟨h1, h2⟩
  · have e0 : e = 0 := by
      by_contra hne
      exact h ⟨e, hne, he, rfl⟩
    rw [b h, e0]
    exact ⟨rfl, by simp⟩

/-- No operator of weight at most `2 t` is a nontrivial logical operator of a code of larger distance. -/
theorem not_nontrivial {hx hz : Rows F n} {d : Option ℕ} (hd : XDistanceIs hx hz d) {t : ℕ} (ht : ∀ k, d = some k → 2 * t < k)
    {v : Fin n → F} (hv : hammingNorm v ≤ 2 * t) : ¬ IsNontrivialX hx hz v := by
  cases d with
  | none => exact hd v
  | some k =>
    intro h
    have h1 : k ≤ hammingNorm v := hd.2 ⟨v, h, rfl⟩
    have h2 := ht k rfl
    omega

theorem norm_sub_le (a b : Fin n → F) : hammingNorm (a - b) ≤ hammingNorm a + hammingNorm b := by
  have := hammingDist_triangle b 0 a
  rw [hammingDist_eq_hammingNorm, hammingDist_zero_right, hammingDist_zero_left, neg_add_eq_sub] at this
  omega

/-- **C111**: let both decoders of a CSS code infer errors of weight at most `t` if there are such errors, with `2 t` below the
X- and Z-distances (of a subsystem code: the dressed distances).  Then the reported logical error rate is at most the probability
that there are more than `t` errors (or more than are sampled), for all samples. -/
theorem C111_css (hx hz : Rows F n) (sub : Bool) (hc : sub = false → ∀ x ∈ hx, ∀ z ∈ hz, ∑ q, x q * z q = 0)
    (SX SZ : Rows F n) (hSX : Generates SX hx hz) (hSZ : Generates SZ hz hx) (decoderX decoderZ : List F → Fin n → F) (t : ℕ)
    (hX : BoundedDecoder SZ decoderX t) (hZ : BoundedDecoder SX decoderZ t) {dX dZ : Option ℕ} (hdX : XDistanceIs hx hz dX)
    (hdZ : XDistanceIs hz hx dZ) (htX : ∀ k, dX = some k → 2 * t < k) (htZ : ∀ k, dZ = some k → 2 * t < k)
    {maxRate p : ℚ} (h0 : 0 ≤ p) (h1 : p ≤ 1) (samples : List (List (CssSample F n))) (hne : samples ≠ [])
    (hn : samples.length ≤ n) (hs : ∀ (i : ℕ) (hi : i < samples.length), ∀ s ∈ samples[i], s.locs.length = i + 1) :
    ∃ LX LZ, cssLogicals hx hz sub = some (LX, LZ) ∧
      ∀ r, cssRate SX SZ LX LZ decoderX decoderZ maxRate samples p = some r →
        r.1 ≤ ∑ k ∈ Finset.Ico (min t samples.length + 1) (n + 1), weightProb n p k := by
  have fix : ∀ ex ez : Fin n → F, hammingNorm ex ≤ t → hammingNorm ez ≤ t → ∃ LX LZ, cssLogicals hx hz sub = some (LX, LZ) ∧
      cssFails (directDecode decoderX SZ) (directDecode decoderZ SX) LX LZ ex ez = false := by
    intro ex ez hex hez
    obtain ⟨hX1, hX2⟩ := hX ex hex
    obtain ⟨hZ1, hZ2⟩ := hZ ez hez
    obtain ⟨LX, LZ, hL, -, hf⟩ := C86_failure hx hz sub hc SX SZ hSX hSZ decoderX decoderZ ex ez hX1 hZ1
    refine ⟨LX, LZ, hL, ?_⟩
    rw [← Bool.not_eq_true, hf, not_or]
    have n1 := norm_sub_le ex (decoderX (syndromeOf SZ ex))
    have n2 := norm_sub_le ez (decoderZ (syndromeOf SX ez))
    exact ⟨not_nontrivial hdX htX (by omega), not_nontrivial hdZ htZ (by omega)⟩
  obtain ⟨LX, LZ, hL, -⟩ := fix 0 0 (by simp) (by simp)
  refine ⟨LX, LZ, hL, fun r h => ?_⟩
  have := rate_upper h0 h1 _ t (by simpa using hne) (by simpa using hn) ?_ h
  · simpa using this
  · intro i hi hit b hb
    simp only [List.length_map] at hi
    rw [List.getElem_map] at hb
    obtain ⟨s, hs', rfl⟩ := List.mem_map.1 hb
    have hl := hs i hi s hs'
    have lX : (locsX s.locs s.paulis).length ≤ s.locs.length := by
      unfold locsX
      rw [List.length_map]
      refine (List.length_filter_le _ _).trans ?_
      rw [List.length_zip]
      exact min_le_left _ _
    have lZ : (locsZ s.locs s.paulis).length ≤ s.locs.length := by
      unfold locsZ
      rw [List.length_map]
      refine (List.length_filter_le _ _).trans ?_
      rw [List.length_zip]
      exact min_le_left _ _
    have n1 := norm_placeValues_le (locsX s.locs s.paulis) s.valsX
    have n2 := norm_placeValues_le (locsZ s.locs s.paulis) s.valsZ
    obtain ⟨LX', LZ', hL', hf⟩ := fix (placeValues (locsX s.locs s.paulis) s.valsX) (placeValues (locsZ s.locs s.paulis) s.valsZ)
      (by omega) (by omega)
    rw [hL] at hL'
    obtain ⟨rfl, rfl⟩ := Prod.mk.inj (Option.some.inj hL')
    exact hf

/-! ### Instances -/

/-- The checks of the repetition code on five bits. -/
def repFive : Rows (ZMod 2) 5 := [![1, 1, 0, 0, 0], ![0, 1, 1, 0, 0], ![0, 0, 1, 1, 0], ![0, 0, 0, 1, 1]]

/-- Samples of weights 1, 2 and 3; two samples of weight 3, of which the lookup decoder corrects none. -/
def repSamples : List (List (List (Fin 5) × List (ZMod 2))) :=
  [[([3], [1])], [([0, 4], [1, 1]), ([1, 2], [1, 1])], [([0, 1, 2], [1, 1, 1]), ([4, 1, 3], [1, 1, 1])]]

example : repSamples.map (classicalOutcomes (directDecode (lookupDecode [0, 1] repFive 2) repFive)) =
    [[false], [false, false], [true, true]] := by decide +kernel

/-- The reported rate at 1/10 equals the bound of `C111_classical`. -/
example : (classicalRate repFive (lookupDecode [0, 1] repFive 2) (1 / 2) repSamples (1 / 10)).map Prod.fst =
    some (∑ k ∈ Finset.Ico (min 2 repSamples.length + 1) (5 + 1), weightProb 5 (1 / 10) k) := by decide +kernel

/-- `C111_classical` applies to it. -/
example {r : ℚ × ℚ} (h : classicalRate repFive (lookupDecode [0, 1] repFive 2) (1 / 2) repSamples (1 / 10) = some r) :=
  C111_classical repFive _ 2 (by decide +kernel) (by norm_num) (by norm_num) repSamples (by decide) (by decide)
    (by decide) h

/-- The checks of the Steane code. -/
def steaneChecks : Rows (ZMod 2) 7 := [![0, 0, 0, 1, 1, 1, 1], ![0, 1, 1, 0, 0, 1, 1], ![1, 0, 1, 0, 1, 0, 1]]

/-- A Y error that is corrected, and a pair of errors that is not. -/
example : [[⟨[3], [3], [1], [1]⟩], [⟨[0, 1], [2, 2], [], [1, 1]⟩]].map
    (cssOutcomes (n := 7) (directDecode (lookupDecode [0, 1] steaneChecks 1) steaneChecks)
      (directDecode (lookupDecode [0, 1] steaneChecks 1) steaneChecks) [fun _ => 1] [fun _ => (1 : ZMod 2)]) =
    [[false], [true]] := by decide +kernel

/-- `C111_css` applies to the Steane code of distance three and `t = 1`. -/
example :=
  have hd : XDistanceIs steaneChecks steaneChecks (some 3) :=
    xDistance_of_eval (CssCode.ofMatrices steaneChecks steaneChecks (some false))
      (cssOk_ofMatrices _ _ _ _ (fun _ => by decide +kernel) (by simp)) (by decide +kernel) (by decide +kernel)
  C111_css steaneChecks steaneChecks false (fun _ => by decide +kernel) steaneChecks
    steaneChecks ((C86_checks _ _).2 (by decide +kernel)) ((C86_checks _ _).2 (by decide +kernel)) _ _ 1
    (C111_lookup_bounded (els := [1]) (by decide) (by decide) steaneChecks 1)
    (C111_lookup_bounded (els := [1]) (by decide) (by decide) steaneChecks 1) hd hd (by rintro k ⟨⟩; decide)
    (by rintro k ⟨⟩; decide) (maxRate := 1 / 2) (p := 1 / 10) (by norm_num) (by norm_num)
    [[⟨[3], [3], [1], [1]⟩], [⟨[0, 1], [2, 2], [], [1, 1]⟩]] (by simp) (by simp)
    (by
      intro i hi s hs
      simp only [List.length_cons, List.length_nil] at hi
      have : i = 0 ∨ i = 1 := by omega
      rcases this with rfl | rfl <;> simp_all)

/-! ### Instances of the theorems: concrete cases meet the hypotheses -/

example {r : ℚ × ℚ} (h : classicalRate repFive (lookupDecode [0, 1] repFive (defaultMaxWeight (some 5))) (1 / 2) repSamples (1 / 10) = some r) :=
  C111_lookup (els := [1]) (by decide) (by decide) repFive 5 (minDistance_constant (by norm_num) (by unfold IsWord; decide +kernel)) (by norm_num) (by norm_num)
    repSamples (by decide) (by decide) (by decide) h

end QLDPC.Props

section AxiomReport
open QLDPC.Props
#print axioms C111_classical
#print axioms C111_lookup
#print axioms C111_lookup_bounded
#print axioms C111_css
end AxiomReport
