import Verif.Model.DistanceDispatch
import Verif.Props.ClassicalDistance
import Verif.Props.QuditDistance
import Verif.Props.Decoders
import Mathlib.LinearAlgebra.Matrix.Rank

/-!
# Property C102: distances to vectors, `get_distance(bound=...)`, `get_code_params`
-/

namespace QLDPC.Props

open QLDPC QLDPC.Spec

set_option linter.unusedSectionVars false

variable {F : Type} [Field F] [DecidableEq F] {n : ℕ}

/-- `d` is the least Hamming distance between `v` and a word of the code. -/
def IsDistanceTo (H : Rows F n) (v : Fin n → F) (d : ℕ) : Prop :=
  IsLeast {k | ∃ w, IsWord H w ∧ k = hammingDist w v} d

/-- `e` has the syndrome of `v`. -/
def SameSyndrome (H : Rows F n) (e v : Fin n → F) : Prop := ∀ r ∈ H, ∑ i, r i * e i = ∑ i, r i * v i

theorem SameSyndrome.isWord {H : Rows F n} {e v : Fin n → F} (h : SameSyndrome H e v) : IsWord H (v - e) := by
  intro r hr
  simp only [Pi.sub_apply, mul_sub, Finset.sum_sub_distrib, h r hr, sub_self]

theorem hammingDist_correction (v e : Fin n → F) : hammingDist (v - e) v = hammingNorm e := by
  rw [← hammingNorm_sub]
  have : v - e - v = -e := by abel
  rw [this]
  simp [hammingNorm]

theorem distanceTo_le {H : Rows F n} {v e : Fin n → F} {d : ℕ} (hd : IsDistanceTo H v d) (h : SameSyndrome H e v) :
    d ≤ hammingNorm e :=
  hd.2 ⟨v - e, h.isWord, (hammingDist_correction v e).symm⟩

theorem distanceTo_le_n {H : Rows F n} {v : Fin n → F} {d : ℕ} (hd : IsDistanceTo H v d) : d ≤ n := by
  obtain ⟨⟨w, _, rfl⟩, _⟩ := hd
  exact (hammingDist_le_card_fintype (x := w) (y := v)).trans (by simp)

theorem exists_distanceTo (H : Rows F n) (v : Fin n → F) : ∃ d, IsDistanceTo H v d := by
  classical
  have hex : ∃ k, ∃ w, IsWord H w ∧ k = hammingDist w v :=
    ⟨_, 0, by rw [isWord_iff]; exact Submodule.zero_mem _, rfl⟩
  exact ⟨Nat.find hex, Nat.find_spec hex, fun k hk => Nat.find_min' hex hk⟩

theorem vectorLoop_ge {H : Rows F n} {v : Fin n → F} {cutoff : Option ℕ}
    {decoders : ℕ → Rows F n → List F → Fin n → F} {d : ℕ}
    (hd : ∀ t, d ≤ oneVectorBound (decoders t) H v) :
    ∀ trials t m, d ≤ m → d ≤ vectorLoop H v cutoff decoders trials t m ∧
      vectorLoop H v cutoff decoders trials t m ≤ m := by
  intro trials
  induction trials with
  | zero => intro t m hm; exact ⟨hm, le_rfl⟩
  | succ k ih =>
    intro t m hm
    unfold vectorLoop
    split
    · exact ⟨hm, le_rfl⟩
    · obtain ⟨h1, h2⟩ := ih (t + 1) (min m (oneVectorBound (decoders t) H v)) (le_min hm (hd t))
      exact ⟨h1, h2.trans (min_le_left _ _)⟩

theorem boundTrials_some {b : ℤ} (hb : b ≠ 0) : boundTrials (some b) = some b.toNat := by
  simp only [boundTrials, if_neg hb]

theorem codeDim_zero_word {c : CCode F n} {v : Fin n → F} (h0 : codeDim c.matrix = 0) :
    IsDistanceTo c.matrix v (hammingNorm v) := by
  have hz := (codeDim_zero_iff _).1 h0
  refine ⟨⟨0, ?_, ?_⟩, ?_⟩
  · rw [isWord_iff]; exact Submodule.zero_mem _
  · rw [hammingDist_zero_left]
  · rintro k ⟨w, hw, rfl⟩
    rw [hz w hw, hammingDist_zero_left]

/-- **C102**: if the decoders return errors with the syndrome they are given, then
`get_distance(bound=b, vector=v)` is at least the distance between `v` and the code and at most the block
length, for every number of trials (also with a cutoff), and the object does not change. -/
theorem C102_vector_bound (wb : ℕ) (els : List F) (c : CCode F n) (hc : CacheOk c) (bound : ℤ) (hb : bound ≠ 0)
    (cutoff : Option ℕ) (v : Fin n → F) (draws : BoundDraws F n)
    (hdec : ∀ t e, draws.decoders t c.matrix (syndromeOf c.matrix v) = e → SameSyndrome c.matrix e v) :
    ∃ b, c.getDistance wb els (some bound) cutoff (some v) draws = (some (some b), c) ∧ b ≤ n ∧
      ∀ d, IsDistanceTo c.matrix v d → d ≤ b := by
  unfold CCode.getDistance
  rw [boundTrials_some hb]
  simp only [CCode.distanceBoundV, CCode.distanceIfKnown, hc.dimension]
  by_cases h0 : codeDim c.matrix = 0
  · simp only [h0, if_true]
    have := codeDim_zero_word (v := v) h0
    refine ⟨_, rfl, ?_, fun d hd => ?_⟩
    · rw [countNonzero_eq]; exact distanceTo_le_n this
    · rw [countNonzero_eq]; exact (hd.unique this).le
  · simp only [h0, if_false]
    obtain ⟨d, hd⟩ := exists_distanceTo c.matrix v
    have hge : ∀ t, d ≤ oneVectorBound (draws.decoders t) c.matrix v := by
      intro t
      unfold oneVectorBound
      rw [countNonzero_eq]
      exact distanceTo_le hd (hdec t _ rfl)
    obtain ⟨h1, h2⟩ := vectorLoop_ge (cutoff := cutoff) hge bound.toNat 0 n (distanceTo_le_n hd)
    exact ⟨_, rfl, h2, fun d' hd' => by rw [hd'.unique hd]; exact h1⟩

theorem vectorLoop_eq {H : Rows F n} {v : Fin n → F} {cutoff : Option ℕ}
    {decoders : ℕ → Rows F n → List F → Fin n → F} {d : ℕ}
    (hd : ∀ t, oneVectorBound (decoders t) H v = d) (trials t m : ℕ) (hm : d ≤ m) :
    vectorLoop H v cutoff decoders (trials + 1) t m = if cutoffReached cutoff m then m else d := by
  conv_lhs => unfold vectorLoop
  split
  · rfl
  · rw [hd t, min_eq_right hm]
    obtain ⟨h1, h2⟩ := vectorLoop_ge (cutoff := cutoff) (fun t => (hd t).ge) trials (t + 1) d le_rfl
    omega

/-- **C102**: with decoders that return an error of least weight with the given syndrome, one trial is
enough: the result is the distance between `v` and the code, unless a cutoff of at least the block length
stops the search before it starts. -/
theorem C102_vector_exact (wb : ℕ) (els : List F) (c : CCode F n) (hc : CacheOk c) (bound : ℤ) (hb : 0 < bound)
    (cutoff : Option ℕ) (hcut : ∀ k, cutoff = some k → k < n) (v : Fin n → F) (draws : BoundDraws F n)
    (hdec : ∀ t e, draws.decoders t c.matrix (syndromeOf c.matrix v) = e →
      SameSyndrome c.matrix e v ∧ ∀ e', SameSyndrome c.matrix e' v → hammingNorm e ≤ hammingNorm e') :
    ∃ b, (c.getDistance wb els (some bound) cutoff (some v) draws).1 = some (some b) ∧ IsDistanceTo c.matrix v b := by
  unfold CCode.getDistance
  rw [boundTrials_some hb.ne']
  simp only [CCode.distanceBoundV, CCode.distanceIfKnown, hc.dimension]
  by_cases h0 : codeDim c.matrix = 0
  · simp only [h0, if_true]
    exact ⟨_, rfl, by rw [countNonzero_eq]; exact codeDim_zero_word h0⟩
  · simp only [h0, if_false]
    obtain ⟨d, hd⟩ := exists_distanceTo c.matrix v
    refine ⟨_, rfl, ?_⟩
    have heq : ∀ t, oneVectorBound (draws.decoders t) c.matrix v = d := by
      intro t
      unfold oneVectorBound
      rw [countNonzero_eq]
      obtain ⟨h1, h2⟩ := hdec t _ rfl
      refine le_antisymm ?_ (distanceTo_le hd h1)
      obtain ⟨⟨w, hw, rfl⟩, _⟩ := hd
      have h3 := h2 (v - w) (fun r hr => by
        have := hw r hr
        simp only [Pi.sub_apply, mul_sub, Finset.sum_sub_distrib, this, sub_zero])
      rw [hammingNorm_sub, hammingDist_comm] at h3
      exact h3
    obtain ⟨k, hk⟩ : ∃ k, bound.toNat = k + 1 := ⟨bound.toNat - 1, by omega⟩
    have hcr : cutoffReached cutoff n = false := by
      unfold cutoffReached
      cases cutoff with
      | none => rfl
      | some k => have := hcut k rfl; simp; omega
    rw [hk, vectorLoop_eq heq k 0 n (distanceTo_le_n hd), hcr]
    exact hd

theorem vectorLoop_zero (H : Rows F n) (v : Fin n → F) (decoders : ℕ → Rows F n → List F → Fin n → F) (trials t m : ℕ) :
    vectorLoop H v (some 0) decoders trials t m = vectorLoop H v none decoders trials t m := by
  induction trials generalizing t m with
  | zero => rfl
  | succ T ih =>
    unfold vectorLoop
    rw [if_neg (by simp [cutoffReached]), if_neg (by simp [cutoffReached]), ih]

theorem vectorLoop_cutoff (H : Rows F n) (v : Fin n → F) (decoders : ℕ → Rows F n → List F → Fin n → F) {k : ℕ} (hk : k ≠ 0)
    (trials t m : ℕ) :
    ∃ u ≤ trials, vectorLoop H v (some k) decoders trials t m = vectorLoop H v none decoders u t m ∧
      (u < trials → vectorLoop H v none decoders u t m ≤ k) ∧ ∀ s < u, k < vectorLoop H v none decoders s t m := by
  induction trials generalizing t m with
  | zero => exact ⟨0, le_rfl, rfl, by simp, by simp⟩
  | succ T ih =>
    by_cases hm : m ≤ k
    · refine ⟨0, by omega, ?_, fun _ => hm, by simp⟩
      conv_lhs => unfold vectorLoop
      rw [if_pos (by simp [cutoffReached, hk, hm])]
      rfl
    · have hstep : ∀ s, vectorLoop H v none decoders (s + 1) t m =
          vectorLoop H v none decoders s (t + 1) (min m (oneVectorBound (decoders t) H v)) := by
        intro s
        conv_lhs => unfold vectorLoop
        rw [if_neg (by simp [cutoffReached])]
      obtain ⟨u, hu, h1, h2, h3⟩ := ih (t + 1) (min m (oneVectorBound (decoders t) H v))
      refine ⟨u + 1, by omega, ?_, fun hlt => by rw [hstep]; exact h2 (by omega), fun s hs => ?_⟩
      · conv_lhs => unfold vectorLoop
        rw [if_neg (by simp [cutoffReached, hm]), h1, hstep]
      · rcases s with _ | s
        · show k < m; omega
        · rw [hstep]; exact h3 s (by omega)

/-- **C102**, the cutoff with a vector, for a code with a nonzero word.  A run with a positive cutoff returns what a run
without a cutoff returns after some number of trials: the first number for which that is at most the cutoff, or all trials
if there is none.  A cutoff of zero has no effect. -/
theorem C102_vector_cutoff (c : CCode F n) (hc : CacheOk c) (hdim : codeDim c.matrix ≠ 0) (v : Fin n → F) (numTrials : ℕ)
    (draws : BoundDraws F n) :
    (c.distanceBoundV numTrials (some 0) (some v) draws).1 = (c.distanceBoundV numTrials none (some v) draws).1 ∧
    ∀ k, k ≠ 0 → ∃ t ≤ numTrials, ∃ b, (c.distanceBoundV numTrials (some k) (some v) draws).1 = some (some b) ∧
      (c.distanceBoundV t none (some v) draws).1 = some (some b) ∧ (t < numTrials → b ≤ k) ∧
      ∀ s < t, ∃ b', (c.distanceBoundV s none (some v) draws).1 = some (some b') ∧ k < b' := by
  have e : ∃ H, ∀ t cut, (c.distanceBoundV t cut (some v) draws).1 = some (some (vectorLoop H v cut draws.decoders t 0 n)) := by
    refine ⟨c.matrix, fun t cut => ?_⟩
    simp only [CCode.distanceBoundV, CCode.distanceIfKnown, hc.dimension, hdim, if_false]
  obtain ⟨H, e⟩ := e
  refine ⟨by rw [e, e, vectorLoop_zero], fun k h0 => ?_⟩
  obtain ⟨t, ht, h1, h2, h3⟩ := vectorLoop_cutoff H v draws.decoders h0 numTrials 0 n
  exact ⟨t, ht, _, by rw [e, h1], e t none, h2, fun s hs => ⟨_, e s none, h3 s hs⟩⟩

/-- Checks on the first two of three bits. -/
def twoChecks : Rows (ZMod 2) 3 := [![1, 0, 0], ![0, 1, 0]]

/-- **C102**: the assumption on the decoder is needed.  The decoder's answer is not compared with the
syndrome, and a lookup decoder limited to single errors answers an unknown syndrome with no error: the
"upper bound" for the distance between `110` and the words `000`, `001` is 0. -/
theorem C102_vector_disagreement :
    (CCode.ofMatrix twoChecks).getDistance 64 [0, 1] (some 1) none (some ![1, 1, 0])
      { decoders := fun _ H s => lookupDecode [0, 1] H 1 s } = (some (some 0), CCode.ofMatrix twoChecks) ∧
    IsDistanceTo twoChecks ![1, 1, 0] 2 := by
  constructor
  · have h : (CCode.ofMatrix twoChecks).dimension = 1 := by decide +kernel
    have h2 : vectorLoop twoChecks ![1, 1, 0] none (fun _ H s => lookupDecode [0, 1] H 1 s) 1 0 3 = 0 := by
      decide +kernel
    simp only [CCode.getDistance, boundTrials, CCode.distanceBoundV, CCode.distanceIfKnown, h]
    simp only [one_ne_zero, if_false, CCode.ofMatrix, Int.toNat_one, h2]
  · have hall : (∃ w, IsWord twoChecks w ∧ 2 = hammingDist w ![1, 1, 0]) ∧
        ∀ w, IsWord twoChecks w → 2 ≤ hammingDist w ![1, 1, 0] := by
      unfold IsWord twoChecks
      decide +kernel
    exact ⟨hall.1, by rintro k ⟨w, hw, rfl⟩; exact hall.2 w hw⟩

-- the same with a decoder without limit on the weight: the bound is right
example : ((CCode.ofMatrix twoChecks).getDistance 64 [0, 1] (some 1) none (some ![1, 1, 0])
      { decoders := fun _ H s => lookupDecode [0, 1] H 3 s }).1 = some (some 2) := by decide +kernel

example : ∀ t e, (fun (_ : ℕ) H s => lookupDecode ([0, 1] : List (ZMod 2)) H 3 s) t twoChecks
    (syndromeOf twoChecks ![1, 1, 0]) = e → SameSyndrome twoChecks e ![1, 1, 0] := by
  rintro t e rfl
  unfold SameSyndrome
  beta_reduce
  clear t
  decide +kernel

/-! ### Choice of the method -/

/-- **C102**: `get_distance()` without `bound`, or with `bound` 0 or `False`, is the exact computation;
`bound=True` is one trial; a negative `bound` runs no trial. -/
theorem C102_dispatch (wb : ℕ) (els : List F) (c : CCode F n) (cutoff : Option ℕ) (vector : Option (Fin n → F))
    (draws : BoundDraws F n) :
    c.getDistance wb els none cutoff vector draws = c.distanceExact wb els vector ∧
    c.getDistance wb els (some 0) cutoff vector draws = c.distanceExact wb els vector ∧
    c.getDistance wb els (some 1) cutoff vector draws = c.distanceBoundV 1 cutoff vector draws ∧
    (∀ t : ℕ, c.getDistance wb els (some (t + 1)) cutoff vector draws =
      c.distanceBoundV (t + 1) cutoff vector draws) ∧
    (∀ b < 0, c.getDistance wb els (some b) cutoff vector draws = c.distanceBoundV 0 cutoff vector draws) := by
  refine ⟨rfl, rfl, rfl, fun t => ?_, fun b hb => ?_⟩
  · unfold CCode.getDistance
    rw [boundTrials_some (by omega)]
    rfl
  · unfold CCode.getDistance
    rw [boundTrials_some (by omega), Int.toNat_of_nonpos hb.le]

/-- **C102**, general quantum codes: `bound` 0 or `False` is like no bound, positive bounds are those of C72,
and a negative bound returns a known distance or the number of qudits. -/
theorem C102_dispatch_qudit (wb : ℕ) (els : List F) (c : QCode F n) (cutoff : Option ℕ) :
    (∀ t : ℕ, c.getDistance wb els (some t) cutoff = c.distance wb els (some t) cutoff) ∧
    c.getDistance wb els none cutoff = c.distance wb els none cutoff ∧
    (∀ b < 0, (c.getDistance wb els (some b) cutoff).1 =
      if c.dimension = 0 then some none else some (c.dist?.getD (some n))) := by
  refine ⟨fun t => ?_, rfl, fun b hb => ?_⟩
  · cases t with
    | zero => rfl
    | succ t =>
      unfold QCode.getDistance
      rw [boundTrials_some (by omega)]
      rfl
  · unfold QCode.getDistance
    rw [boundTrials_some (by omega), Int.toNat_of_nonpos hb.le]
    simp only [QCode.distBound, QCode.distIfKnown]
    by_cases h0 : c.dimension = 0
    · simp [h0]
    · cases hd : c.dist? <;> simp [h0, hd]

/-! ### Code parameters -/

/-- **C102**, classical codes: `get_code_params()` returns the block length, the dimension of the space of words
and the least weight of a nonzero word (`nan` if there is none). -/
theorem C102_params (wb : ℕ) (els : List F) (hnd : (0 :: els).Nodup) (hall : ∀ x, x ∈ 0 :: els)
    (hwb : n < 2 ^ wb) (h64 : n < 2 ^ 64) (c : CCode F n) (hc : CacheOk c) (cutoff : Option ℕ)
    (draws : BoundDraws F n) (bound : Option ℤ) (hb : bound = none ∨ bound = some 0) :
    ∃ d, c.codeParams wb (0 :: els) bound cutoff draws = some (n, codeDim c.matrix, d) ∧
      match d with
      | none => codeDim c.matrix = 0
      | some d => IsMinDistance c.matrix d := by
  obtain ⟨⟨h1, h2⟩, h3, h4⟩ := C10_exact_width wb els hnd hall hwb h64 c hc
  have hg : c.getDistance wb (0 :: els) bound cutoff none draws = c.distanceExact wb (0 :: els) none := by
    rcases hb with rfl | rfl <;> rfl
  unfold CCode.codeParams
  rw [hg]
  rcases he : c.distanceExact wb (0 :: els) none with ⟨d?, c'⟩
  rw [he] at h1 h2 h3 h4
  simp only at h1 h2 h3 h4
  have hk : c'.dimension = codeDim c.matrix := by rw [h3.dimension, h4]
  by_cases h0 : codeDim c.matrix = 0
  · rw [h1 h0]
    exact ⟨none, by simp only [hk], h0⟩
  · obtain ⟨d, hd, hm⟩ := h2 h0
    rw [hd]
    exact ⟨some d, by simp only [hk], hm⟩

/-- **C102**, classical codes with trials: the reported distance is an upper bound, the other parameters are
exact. -/
theorem C102_params_bound (wb : ℕ) (els : List F) (c : CCode F n) (hc : CacheOk c) (cutoff : Option ℕ)
    (draws : BoundDraws F n) (bound : ℤ) (hb : bound ≠ 0) (m k : ℕ) (d : Option ℕ)
    (h : c.codeParams wb els (some bound) cutoff draws = some (m, k, d)) :
    m = n ∧ k = codeDim c.matrix ∧
      (codeDim c.matrix = 0 → d = none) ∧
      (codeDim c.matrix ≠ 0 → ∃ b, d = some b ∧ b ≤ n ∧ ∀ e, IsMinDistance c.matrix e → e ≤ b) := by
  unfold CCode.codeParams CCode.getDistance at h
  rw [boundTrials_some hb] at h
  simp only [CCode.distanceBoundV] at h
  split at h
  · cases h
  rename_i d' c' he
  simp only [Prod.mk.injEq] at he
  obtain ⟨he, rfl⟩ := he
  simp only [Option.some.injEq, Prod.mk.injEq] at h
  obtain ⟨rfl, rfl, rfl⟩ := h
  have hdim : (c.distanceIfKnown none).2.dimension = c.dimension := by
    unfold CCode.distanceIfKnown
    simp only
    split <;> rfl
  refine ⟨rfl, by rw [hdim, hc.dimension], fun h0 => ?_, fun h0 => ?_⟩
  · unfold CCode.distanceBound at he
    have : (c.distanceIfKnown none).1 = some none := by
      simp [CCode.distanceIfKnown, hc.dimension, h0]
    rw [this] at he
    exact (Option.some.inj he).symm
  · exact C11_bound c hc h0 _ _ _ _ he

-- the [7, 4, 3] Hamming code
example : (CCode.ofMatrix (rows [![0, 0, 0, 1, 1, 1, 1], ![0, 1, 1, 0, 0, 1, 1],
    ![1, 0, 1, 0, 1, 0, 1]])).codeParams 64 [0, 1] none none { decoders := fun _ _ _ => 0 } =
    some (7, 4, some 3) := by decide +kernel
-- one trial that finds the word 111 of the repetition code
example : (CCode.ofMatrix (rows [![1, 1, 0], ![0, 1, 1]])).codeParams 64 [0, 1] (some 1) none
    { words := [(![1, 1, 1], fun _ _ => ![1, 1, 1])], decoders := fun _ _ _ => 0 } = some (3, 1, some 3) := by
  decide +kernel

/-- **C102**, stabilizer codes: `get_code_params()` returns the number of qudits, half the dimension of the
space of logical operators modulo stabilizers, and the least number of qudits a nontrivial logical operator
acts on. -/
theorem C102_params_stabilizer (wb : ℕ) (els : List F) (hnd : (0 :: els).Nodup) (hall : ∀ x, x ∈ 0 :: els)
    (hwb : n < 2 ^ wb) (h64 : n < 2 ^ 64) (c : QCode F n) (h : StabOk c) (cutoff : Option ℕ)
    (bound : Option ℤ) (hb : bound = none ∨ bound = some 0) :
    ∃ k d, c.codeParams wb (0 :: els) bound cutoff = some (n, k, d) ∧ codeDim c.matrix = n + k ∧
      DistanceIs c.matrix d := by
  obtain ⟨d, c', h1, h2, h3, h4, h5, h6⟩ := C72_exact wb els hnd hall hwb h64 c h
  obtain ⟨LX, LZ, _, _, hk, hdim⟩ := h6.logicals
  refine ⟨c'.dimension, d, ?_, by rw [← h4, hk, hdim], h2⟩
  have hg : c.getDistance wb (0 :: els) bound cutoff = (some d, c') := by
    rw [← h1]
    rcases hb with rfl | rfl <;> rfl
  unfold QCode.codeParams
  rw [hg]

-- the five-qubit code
example : (QCode.ofMatrix (rows [![1, 0, 0, 1, 0, 0, 1, 1, 0, 0], ![0, 1, 0, 0, 1, 0, 0, 1, 1, 0],
    ![1, 0, 1, 0, 0, 0, 0, 0, 1, 1], ![0, 1, 0, 1, 0, 1, 0, 0, 0, 1]]) : QCode (ZMod 2) 5).codeParams 64 [0, 1]
    none none = some (5, 1, some 3) := by decide +kernel

/-- `k` is the greatest number of independent logical qudits of a CSS (subsystem) code: pairs of an X-type
operator that commutes with all Z-type generators and a Z-type operator that commutes with all X-type
generators, paired by the identity. -/
def IsLogicalCount (hx hz : Rows F n) (k : ℕ) : Prop :=
  IsGreatest {k | ∃ LX LZ, IsCssLogicalBasis hx hz LX LZ ∧ LX.length = k} k

theorem logicalCount_of_complete {hx hz LX LZ : Rows F n} (hc : CssComplete hx hz LX LZ) :
    IsLogicalCount hx hz LX.length := by
  refine ⟨⟨LX, LZ, hc.basis, rfl⟩, ?_⟩
  rintro k ⟨KX, KZ, hk, rfl⟩
  have hdec : ∀ i : Fin KX.length, ∃ s ∈ rowSpan hx, ∃ a : Fin LX.length → F,
      KX[i] = s + ∑ j, a j • LX[j] := by
    intro i
    have h1 := (isWord_iff _ _).1 (hk.commX KX[i] (List.getElem_mem _))
    rw [← hc.x, Submodule.mem_sup] at h1
    obtain ⟨s, hs, l, hl, e⟩ := h1
    obtain ⟨a, rfl⟩ := (isCombination_iff _ _).2 hl
    exact ⟨s, hs.1, a, e.symm⟩
  choose s hs a ha using hdec
  have hlen := hk.len
  let A : Matrix (Fin KX.length) (Fin LX.length) F := fun i j => a i j
  let B : Matrix (Fin LX.length) (Fin KX.length) F := fun j i => ∑ q, LX[j] q * (KZ[i.val]'(by omega)) q
  have hAB : A * B = 1 := by
    ext i i'
    have hp := hk.pair i i' i.isLt (by omega)
    have hz : ∑ q, s i q * (KZ[i'.val]'(by omega)) q = 0 :=
      dot_eq_zero_of_mem_rowSpan (hs i) ((isWord_iff _ _).1 (hk.commZ _ (List.getElem_mem _)))
    have he : ∑ q, KX[i] q * (KZ[i'.val]'(by omega)) q = ∑ j, a i j * B j i' := by
      rw [ha i]
      simp only [Pi.add_apply, add_mul, Finset.sum_add_distrib, hz, zero_add, Finset.sum_apply, Pi.smul_apply,
        smul_eq_mul, Finset.sum_mul, B, Finset.mul_sum]
      rw [Finset.sum_comm]
      simp only [mul_assoc]
    rw [Matrix.mul_apply, Matrix.one_apply]
    rw [← he]
    simpa [Fin.ext_iff] using hp
  have h1 : (A * B).rank ≤ LX.length :=
    (Matrix.rank_mul_le_left A B).trans ((Matrix.rank_le_width A).trans le_rfl)
  rw [hAB, Matrix.rank_one] at h1
  simpa using h1

theorem CssOk.count {c : CssCode F n} (h : CssOk c) : IsLogicalCount c.hx c.hz c.dimension := by
  obtain ⟨LX, LZ, _, hc, _, hdim⟩ := h.logicals
  rw [hdim]
  exact logicalCount_of_complete hc

/-- **C102**, CSS codes, subsystem codes included: `get_code_params()` returns the number of qudits, the
greatest number of logical qudits, and the distance of the code. -/
theorem C102_params_css (wb : ℕ) (els : List F) (hnd : (0 :: els).Nodup) (hall : ∀ x, x ∈ 0 :: els)
    (hwb : n < 2 ^ wb) (h64 : n < 2 ^ 64) (c : CssCode F n) (h : CssOk c) (cutoff : Option ℕ)
    (choices : List PauliXZ) (draws : List (CssCode.Draw F n))
    (bound : Option ℤ) (hb : bound = none ∨ bound = some 0) :
    ∃ k d, c.codeParams wb (0 :: els) bound cutoff choices draws = some (n, k, d) ∧
      IsLogicalCount c.hx c.hz k ∧ ReportIs c.hx c.hz none d := by
  obtain ⟨d, c', h1, h2, h3, h4, h5, _⟩ := C27_exact_width wb els hnd hall hwb h64 c h none
  refine ⟨c'.dimension, d, ?_, by rw [← h4, ← h5]; exact h3.count, h2⟩
  have hg : c.getDistance wb (0 :: els) none bound cutoff choices draws = (some d, c') := by
    rw [← h1]
    rcases hb with rfl | rfl <;> rfl
  unfold CssCode.codeParams
  rw [hg]

/-- **C102**, CSS codes with trials: the distance is an upper bound, the other parameters are exact. -/
theorem C102_params_css_bound (wb : ℕ) (els : List F) (c : CssCode F n) (h : CssOk c) (cutoff : Option ℕ)
    (choices : List PauliXZ) (draws : List (CssCode.Draw F n)) (bound : ℤ) (hb : bound ≠ 0) (m k : ℕ)
    (d : Option ℕ) (hp : c.codeParams wb els (some bound) cutoff choices draws = some (m, k, d)) :
    m = n ∧ IsLogicalCount c.hx c.hz k ∧ (k = 0 → d = none) ∧
      (k ≠ 0 → ∃ b, d = some b ∧ b ≤ n ∧ ∀ e, ReportIs c.hx c.hz none (some e) → e ≤ b) := by
  unfold CssCode.codeParams CssCode.getDistance at hp
  rw [boundTrials_some hb] at hp
  simp only at hp
  split at hp
  · cases hp
  rename_i d' c' he
  simp only [Prod.mk.injEq] at he
  obtain ⟨he, rfl⟩ := he
  simp only [Option.some.injEq, Prod.mk.injEq] at hp
  obtain ⟨rfl, rfl, rfl⟩ := hp
  obtain ⟨ok, ⟨sx, sz, sb, _⟩, sl, _, h0⟩ := distIfKnown_spec h none
  have hdim : (c.distIfKnown none).2.dimension = c.dimension := by
    unfold CssCode.dimension
    rw [sl, sx, sz, sb]
  rw [hdim]
  refine ⟨rfl, h.count, fun hz => ?_, fun hz => ?_⟩
  · unfold CssCode.distBound at he
    rw [h0 hz] at he
    exact (Option.some.inj he).symm
  · exact C27_bound c h hz none _ _ _ _ _ he

-- the Bacon-Shor code on a 2 by 2 lattice: [[4, 1, 2]]
example : baconShor.codeParams 64 [0, 1] none none [] [] = some (4, 1, some 2) := by decide +kernel

#print axioms C102_vector_bound
#print axioms C102_vector_exact
#print axioms C102_vector_cutoff
#print axioms C102_vector_disagreement
#print axioms C102_dispatch
#print axioms C102_dispatch_qudit
#print axioms C102_params
#print axioms C102_params_bound
#print axioms C102_params_stabilizer
#print axioms C102_params_css
#print axioms C102_params_css_bound

/-! ### Instances of the theorems: concrete cases meet the hypotheses -/

example := C102_vector_bound 8 [1] (CCode.ofMatrix ([![1, 1, 0], ![0, 1, 1]] : Rows (ZMod 2) 3)) (cacheOk_fresh _) 2 (by decide) none
  ![1, 0, 0] ⟨[], fun _ _ _ => ![1, 0, 0]⟩ (by rintro t e rfl; exact fun _ _ => rfl)

example := C102_params 8 [1] (by decide) (by decide) (by decide) (by decide) (CCode.ofMatrix ([![1, 1, 0], ![0, 1, 1]] : Rows (ZMod 2) 3)) (cacheOk_fresh _) none
  ⟨[], fun _ _ _ => 0⟩ (some 0) (Or.inr rfl)
example := C102_params_stabilizer 8 [1] (by decide) (by decide) (by decide) (by decide) (QCode.ofMatrix ([Fin.append ![1, 0] ![0, 1]] : Rows (ZMod 2) (2 + 2)) (some false))
  (stabOk_ofMatrix _ (by unfold AllCommute; decide +kernel)) none none (Or.inl rfl)
example := C102_params_css 8 [1] (by decide) (by decide) (by decide) (by decide)
  (CssCode.ofMatrices ([![1, 1, 1, 1]] : Rows (ZMod 2) 4) [![1, 1, 1, 1]] (some false) false) (cssOk_ofMatrices _ _ _ _ (fun _ => by decide +kernel) (by simp))
  none [] [] none (Or.inl rfl)

example : True := by
  obtain ⟨⟨m, k, d⟩, h⟩ := Option.isSome_iff_exists.1 (show ((CCode.ofMatrix ([![1, 1, 0], ![0, 1, 1]] : Rows (ZMod 2) 3)).codeParams 8 [1] (some 1) none
    ⟨[(![1, 1, 1], fun _ _ => ![1, 1, 1])], fun _ _ _ => 0⟩).isSome = true by decide +kernel)
  have h1 := C102_params_bound 8 [1] _ (cacheOk_fresh _) none _ 1 (by decide) m k d h
  trivial
example := C102_vector_exact (F := ZMod 2) 8 [1] (CCode.ofMatrix ([![1, 1, 0], ![0, 1, 1]] : Rows (ZMod 2) 3)) (cacheOk_fresh _) 2 (by decide) none (by simp)
  ![1, 1, 0] ⟨[], fun _ _ _ => ![0, 0, 1]⟩ (by
    rintro t e rfl
    show SameSyndrome [![1, 1, 0], ![0, 1, 1]] ![0, 0, 1] (![1, 1, 0] : Fin 3 → ZMod 2) ∧ ∀ e' : Fin 3 → ZMod 2, SameSyndrome [![1, 1, 0], ![0, 1, 1]] e' ![1, 1, 0] →
      hammingNorm (![0, 0, 1] : Fin 3 → ZMod 2) ≤ hammingNorm e'
    unfold SameSyndrome; decide +kernel)

example := C102_vector_cutoff (CCode.ofMatrix ([![1, 1, 0], ![0, 1, 1]] : Rows (ZMod 2) 3)) (cacheOk_fresh _)
  (by rw [codeDim_constant (by norm_num) (by unfold IsWord; decide +kernel)]; decide) ![1, 1, 0] 2 ⟨[], fun _ _ _ => ![0, 0, 1]⟩

example : True := by
  obtain ⟨⟨m, k, d⟩, h⟩ := Option.isSome_iff_exists.1 (show ((CssCode.ofMatrices ([![1, 1, 1, 1]] : Rows (ZMod 2) 4) [![1, 1, 1, 1]] (some false) false).codeParams 8 [1] (some 1)
    (some 4) [.X] []).isSome = true by decide +kernel)
  have h1 := C102_params_css_bound 8 [1] _ (cssOk_ofMatrices _ _ _ _ (fun _ => by decide +kernel) (by simp)) _ _ _ 1 (by decide) m k d h
  trivial

end QLDPC.Props
