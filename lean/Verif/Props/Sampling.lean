import Verif.Lemmas.Sampling
import Mathlib.Data.List.Sort
import Mathlib.Data.List.Nodup
import Mathlib.Tactic.NormNum

/-!
# C66, C67, C76: sample allocation, index slices, logical error rates
-/

namespace QLDPC.Props

/-! ### C67 -/

/-- The sectors of `_join_slices` are listed one after the other. -/
theorem C67_order (a b : List SliceArg) : joinSlices (a ++ b) = joinSlices a ++ joinSlices b := by
  simp [joinSlices]

/-- A list of indices is passed on as it is. -/
theorem C67_list (l : List ℤ) : joinSlices [.list l] = l := by simp [joinSlices, sectorIndices]

/-- A slice with nonzero step gives the numbers `start + k step` before `stop`, for either sign of the
step. -/
theorem C67_slice_mem (start stop step x : ℤ) (h0 : step ≠ 0) :
    x ∈ joinSlices [.slice (some start) stop (some step)] ↔
      ∃ k : ℕ, x = start + k * step ∧ (0 < step → x < stop) ∧ (step < 0 → stop < x) := by
  have hs : orInt (some start) 0 = start := by unfold orInt; split <;> simp_all
  have ht : orInt (some step) 1 = step := by unfold orInt; split <;> simp_all
  simp only [joinSlices, sectorIndices, List.map_cons, List.map_nil, List.flatten_cons, List.flatten_nil,
    List.append_nil, hs, ht]
  exact mem_arange h0

/-- They are in the order of the step, without repetition. -/
theorem C67_slice_order (start stop step : ℤ) :
    (0 < step → (joinSlices [.slice (some start) stop (some step)]).Pairwise (· < ·)) ∧
    (step < 0 → (joinSlices [.slice (some start) stop (some step)]).Pairwise (· > ·)) := by
  have ht : step ≠ 0 → orInt (some step) 1 = step := by intro h; unfold orInt; split <;> simp_all
  simp only [joinSlices, sectorIndices, List.map_cons, List.map_nil, List.flatten_cons, List.flatten_nil,
    List.append_nil]
  constructor
  · intro h
    rw [ht h.ne']
    exact pairwise_arange h
  · intro h
    rw [ht h.ne]
    exact pairwise_arange_neg h

/-- A slice within a sequence of length `n` with positive step gives the positions that this slice has in
the sequence. -/
theorem C67_slice (n start stop step : ℕ) (hstop : stop ≤ n) (hstep : 0 < step) :
    joinSlices [.slice (some start) stop (some step)] =
      ((List.range n).filter fun i => start ≤ i ∧ i < stop ∧ (i - start) % step = 0).map (fun i : ℕ => (i : ℤ)) := by
  have hp := (C67_slice_order start stop step).1 (by exact_mod_cast hstep)
  have hq : (((List.range n).filter fun i => start ≤ i ∧ i < stop ∧ (i - start) % step = 0).map
      (fun i : ℕ => (i : ℤ))).Pairwise (· < ·) := by
    rw [List.pairwise_map]
    refine (List.pairwise_lt_range.filter _).imp fun {a b} h => by exact_mod_cast h
  refine List.Perm.eq_of_pairwise (le := (· < ·)) (fun a b _ _ h1 h2 => by omega) hp hq ?_
  rw [List.perm_ext_iff_of_nodup (hp.imp fun h => ne_of_lt h) (hq.imp fun h => ne_of_lt h)]
  intro x
  rw [C67_slice_mem _ _ _ _ (by exact_mod_cast hstep.ne')]
  simp only [List.mem_map, List.mem_filter, List.mem_range, decide_eq_true_eq]
  constructor
  · rintro ⟨k, rfl, h1, -⟩
    have h2 : start + k * step < stop := by exact_mod_cast h1 (by exact_mod_cast hstep)
    exact ⟨start + k * step, ⟨by omega, by omega, h2, by simp⟩, by push_cast; rfl⟩
  · rintro ⟨i, ⟨-, h1, h2, h3⟩, rfl⟩
    refine ⟨(i - start) / step, ?_, fun _ => by exact_mod_cast h2, by omega⟩
    have := Nat.div_mul_cancel (Nat.dvd_of_mod_eq_zero h3)
    have e : start + (i - start) / step * step = i := by omega
    exact_mod_cast e.symm

/-- Omitted start and step are 0 and 1. -/
theorem C67_default (stop : ℤ) (n : ℕ) : joinSlices [.slice none stop none] =
      joinSlices [.slice (some 0) stop (some 1)] ∧
    joinSlices [.slice none n none] = (List.range n).map (fun i : ℕ => (i : ℤ)) := by
  refine ⟨by simp [joinSlices, sectorIndices, orInt], ?_⟩
  have h1 : joinSlices [.slice none n none] = joinSlices [.slice (some ((0 : ℕ) : ℤ)) n (some ((1 : ℕ) : ℤ))] := by
    simp [joinSlices, sectorIndices, orInt]
  rw [h1, C67_slice n 0 n 1 le_rfl one_pos, List.filter_eq_self.2]
  intro i hi
  simpa [Nat.mod_one] using hi

/-- A step of zero, which Python slices reject, is taken as one. -/
theorem C67_zero_step (start stop : ℤ) :
    joinSlices [.slice (some start) stop (some 0)] = joinSlices [.slice (some start) stop (some 1)] := by
  simp [joinSlices, sectorIndices, orInt]

example : joinSlices [.slice (some 2) 9 (some 3), .list [7, 7, -1], .slice (some 5) 0 (some (-2))] =
    [2, 5, 8, 7, 7, -1, 5, 3, 1] := by decide +kernel

/-! ### C66

In exact arithmetic. The number of samples may exceed the request. -/

/-- For at least one sample, a code of at least one bit and a positive error rate, the allocation is found
after finitely many rounds. -/
theorem C66_terminates (N n : ℕ) (p : ℚ) (hN : N ≠ 0) (hn : n ≠ 0) (h0 : 0 < p) (h1 : p ≤ 1) :
    ∃ fuel r, sampleAllocation fuel N n p = some r := by
  obtain ⟨g, hg, -, -, -, hsum⟩ := flattenProbs_spec hn h0 h1
  obtain ⟨D, hD, hden⟩ := exists_denominator (flattenProbs (errorProbs n p n))
  have hle : N ≤ D * N := Nat.le_mul_of_pos_left N hD
  have hround := rounded_exact (l := flattenProbs (errorProbs n p n)) (M := D * N) fun x hx => by
    obtain ⟨z, hz⟩ := hden x hx
    refine ⟨z * N, ?_⟩
    push_cast
    rw [← hz]
    ring
  rw [hg, hsum, one_mul, ← hg] at hround
  have hround' : (roundedAllocation (flattenProbs (errorProbs n p n)) (D * N)).sum = ((D * N : ℕ) : ℤ) := by
    exact_mod_cast hround
  obtain ⟨l, hl⟩ := allocationLoop_terminates (probs := flattenProbs (errorProbs n p n)) N (D * N - N) (by
    rw [Nat.add_sub_cancel' hle, hround'])
  obtain ⟨N', hN', -, hs⟩ := allocationLoop_spec hl
  refine ⟨D * N - N + 1, (l.reverse.dropWhile fun x => x = 0).reverse, ?_⟩
  rw [sampleAllocation, hl, Option.bind_some, dropTrailingZeros, if_neg]
  intro hall
  have : l.sum = 0 := List.sum_eq_zero (by simpa using hall)
  omega

/-- What is found: no samples for weight zero, a positive number for every other weight up to the last
listed one, in descending order, no weight above the number of bits, and at least the requested number
in total. -/
theorem C66_allocation_partial (fuel N n : ℕ) (p : ℚ) (hn : n ≠ 0) (h0 : 0 < p) (h1 : p ≤ 1) (r : List ℤ)
    (h : sampleAllocation fuel N n p = some r) :
    r[0]? = some 0 ∧ 2 ≤ r.length ∧ r.length ≤ n + 1 ∧
    (∀ k, 1 ≤ k → (hk : k < r.length) → 0 < r[k]) ∧
    (∀ k, 1 ≤ k → (hk : k + 1 < r.length) → r[k + 1] ≤ r[k]) ∧
    (N : ℤ) ≤ r.sum := by
  obtain ⟨g, hg, hg0, hgn, hgd, -⟩ := flattenProbs_spec hn h0 h1
  unfold sampleAllocation at h
  rw [Option.bind_eq_some_iff] at h
  obtain ⟨l, hl, hr⟩ := h
  obtain ⟨N', hN', hl', hs⟩ := allocationLoop_spec hl
  obtain ⟨c, hlr, hne, hlast⟩ := dropTrailing_spec hr
  set f : ℕ → ℤ := fun k => roundEven (g k * N') with hf
  have hlf : l = (List.range (n + 1)).map f := by
    rw [hl', hg, roundedAllocation, List.map_map]
    rfl
  have hlen : r.length + c = n + 1 := by
    have := congrArg List.length (hlr.symm.trans hlf)
    simpa using this
  have hrk : ∀ k (hk : k < r.length), r[k] = f k := by
    intro k hk
    have h2 : l[k]? = some r[k] := by rw [hlr, List.getElem?_append_left hk, List.getElem?_eq_getElem hk]
    rw [hlf, List.getElem?_map, List.getElem?_range (by omega)] at h2
    exact (Option.some.inj h2).symm
  have hpos : 0 < r.length := List.length_pos_iff.2 hne
  have hf0 : f 0 = 0 := by
    simp only [hf, hg0, zero_mul]
    exact_mod_cast roundEven_int 0
  have hfn : ∀ k ≤ n, 0 ≤ f k := fun k hk => roundEven_nonneg (mul_nonneg (hgn k hk) (by positivity))
  have hfd : ∀ k, 1 ≤ k → k < n → f (k + 1) ≤ f k := fun k a b =>
    roundEven_mono (mul_le_mul_of_nonneg_right (hgd k a b) (by positivity))
  have hlast' : f (r.length - 1) ≠ 0 := by
    rw [List.getLast_eq_getElem, hrk _ (by omega)] at hlast
    exact hlast
  have hlen2 : 2 ≤ r.length := by
    by_contra hlt
    have : r.length - 1 = 0 := by omega
    rw [this] at hlast'
    exact hlast' hf0
  have hfdec : ∀ j k, 1 ≤ j → j ≤ k → k ≤ n → f k ≤ f j := by
    intro j k hj hjk
    induction k, hjk using Nat.le_induction with
    | base => intro _; exact le_rfl
    | succ k hk ih =>
      intro hkn
      exact le_trans (hfd k (by omega) (by omega)) (ih (by omega))
  refine ⟨?_, hlen2, by omega, ?_, ?_, ?_⟩
  · rw [List.getElem?_eq_getElem hpos, hrk _ hpos, hf0]
  · intro k hk1 hk
    rw [hrk k hk]
    have h2 := hfdec k (r.length - 1) hk1 (by omega) (by omega)
    have h3 := hfn (r.length - 1) (by omega)
    omega
  · intro k hk1 hk
    rw [hrk _ hk, hrk k (by omega)]
    exact hfd k hk1 (by omega)
  · have : l.sum = r.sum := by rw [hlr]; simp
    omega

/-- The answer does not depend on the number of rounds allowed. -/
theorem C66_deterministic (f f' N n : ℕ) (p : ℚ) (r r' : List ℤ) (h : sampleAllocation f N n p = some r)
    (h' : sampleAllocation f' N n p = some r') : r = r' := by
  have key : ∀ (probs : List ℚ) (f f' N : ℕ) (l l' : List ℤ), allocationLoop probs f N = some l →
      allocationLoop probs f' N = some l' → l = l' := by
    intro probs f
    induction f with
    | zero => intro f' N l l' h; simp [allocationLoop] at h
    | succ f ih =>
      intro f' N l l' h h'
      cases f' with
      | zero => simp [allocationLoop] at h'
      | succ f' =>
        rw [allocationLoop] at h h'
        split at h
        · rename_i hc
          rw [if_pos hc] at h'
          exact ih f' _ l l' h h'
        · rename_i hc
          rw [if_neg hc] at h'
          exact Option.some.inj (h.symm.trans h')
  unfold sampleAllocation at h h'
  rw [Option.bind_eq_some_iff] at h h'
  obtain ⟨l, hl, hr⟩ := h
  obtain ⟨l', hl', hr'⟩ := h'
  rw [key _ _ _ _ _ _ hl hl'] at hr
  exact Option.some.inj (hr.symm.trans hr')

/-- The number of samples is not always the requested one: one sample on two bits at rate 2/3 becomes two. -/
theorem C66_disagreement : sampleAllocation 2 1 2 (2 / 3) = some [0, 1, 1] ∧ ([0, 1, 1] : List ℤ).sum ≠ 1 := by
  decide +kernel

/-- A request for no samples raises. -/
theorem C66_no_samples_disagreement (fuel n : ℕ) (p : ℚ) : sampleAllocation fuel 0 n p = none := by
  unfold sampleAllocation
  cases fuel with
  | zero => rfl
  | succ fuel =>
    have hz : ∀ l : List ℚ, roundedAllocation l 0 = List.replicate l.length 0 := by
      intro l
      rw [List.eq_replicate_iff]
      refine ⟨by simp [roundedAllocation], fun x hx => ?_⟩
      obtain ⟨y, -, rfl⟩ := List.mem_map.1 hx
      simpa using roundEven_int 0
    rw [allocationLoop, hz, if_neg (by simp), Option.bind_some, dropTrailingZeros, if_pos (by simp)]

example : sampleAllocation 1 10 5 (1 / 2) = some [0, 3, 3, 3, 1] := by decide +kernel

/-! ### C76 -/

/-- The probability of exactly `k` errors on `n` bits. -/
def weightProb (n : ℕ) (p : ℚ) (k : ℕ) : ℚ := (n.choose k : ℚ) * p ^ k * (1 - p) ^ (n - k)

/-- The logical error rate of a code whose decoder succeeds with probability `F k` on errors of weight
`k`. -/
def trueRate (n : ℕ) (p : ℚ) (F : ℕ → ℚ) : ℚ := ∑ k ∈ Finset.range (n + 1), weightProb n p k * (1 - F k)

theorem weightProb_eq : weightProb = binomial := rfl

/-- The probabilities by weight: up to the given weight, or up to the block length if none (or 0) is given, entry `k` is the
probability of exactly `k` errors; in the latter case they add up to one. -/
theorem C76_probs (n : ℕ) (p : ℚ) (w : ℕ) :
    (∀ k ≤ (if w = 0 then n else w), (errorProbs n p w)[k]? = some (weightProb n p k)) ∧
      (errorProbs n p w).length = (if w = 0 then n else w) + 1 ∧ (w = 0 → (errorProbs n p w).sum = 1) := by
  have e : errorProbs n p w = (List.range ((if w = 0 then n else w) + 1)).map (binomial n p) := rfl
  rw [e, weightProb_eq]
  refine ⟨fun k hk => ?_, by simp, fun hw => ?_⟩
  · rw [List.getElem?_map, List.getElem?_range (by omega)]
    rfl
  · rw [if_pos hw]
    exact sum_binomial n p

/-- The returned function: it raises above the maximal error rate; below, its value counts all errors of
weight above the sampled ones as failures, and weights the others by their failure rates. -/
theorem C76_value (n : ℕ) (maxRate p : ℚ) (F V : ℕ → ℚ) (w : ℕ) (hw : w ≠ 0) (hn : w ≤ n) :
    logicalErrorRate n maxRate ((List.range (w + 1)).map F) ((List.range (w + 1)).map V) p =
      if maxRate < p then none else
      some (∑ k ∈ Finset.range (w + 1), weightProb n p k * (1 - F k) +
          ∑ k ∈ Finset.Ico (w + 1) (n + 1), weightProb n p k,
        ∑ k ∈ Finset.range (w + 1), weightProb n p k ^ 2 * V k) := by
  unfold logicalErrorRate
  by_cases hm : maxRate < p
  · rw [if_pos hm, if_pos hm]
  rw [if_neg hm, if_neg hm]
  simp only [List.length_map, List.length_range, Nat.add_sub_cancel]
  rw [errorProbs_eq p hw, weightProb_eq]
  simp only [List.length_map, List.length_range, ne_eq, not_true_eq_false, or_self, if_false]
  rw [List.zipWith_map, List.zipWith_map, List.zipWith_self, List.zipWith_self]
  have e1 : ∀ f : ℕ → ℚ, ((List.range (w + 1)).map f).sum = ∑ k ∈ Finset.range (w + 1), f k := fun f => rfl
  rw [e1, e1]
  have e2 : (1 : ℚ) = ∑ k ∈ Finset.range (w + 1), binomial n p k + ∑ k ∈ Finset.Ico (w + 1) (n + 1), binomial n p k := by
    rw [Finset.sum_range_add_sum_Ico _ (by omega), sum_binomial]
  congr 2
  simp only [mul_sub, mul_one, Finset.sum_sub_distrib]
  linarith

/-- It is an upper bound on the logical error rate of the decoder, too large by at most the probability of a
weight above the sampled ones, and it is a probability. `F` is exact on the sampled weights and any
probability on the others. -/
theorem C76_bounds (n : ℕ) (maxRate p : ℚ) (F V : ℕ → ℚ) (w : ℕ) (hw : w ≠ 0) (hn : w ≤ n) (h0 : 0 ≤ p)
    (h1 : p ≤ 1) (hF : ∀ k, 0 ≤ F k ∧ F k ≤ 1) (hV : ∀ k, 0 ≤ V k) (rate var : ℚ)
    (h : logicalErrorRate n maxRate ((List.range (w + 1)).map F) ((List.range (w + 1)).map V) p =
      some (rate, var)) :
    0 ≤ rate ∧ rate ≤ 1 ∧ 0 ≤ var ∧ trueRate n p F ≤ rate ∧
      rate ≤ trueRate n p F + ∑ k ∈ Finset.Ico (w + 1) (n + 1), weightProb n p k := by
  rw [C76_value n maxRate p F V w hw hn] at h
  split at h
  · cases h
  · obtain ⟨h2, h3⟩ := Prod.mk.inj (Option.some.inj h)
    have hq : ∀ k, 0 ≤ weightProb n p k := binomial_nonneg h0 h1
    have hA : 0 ≤ ∑ k ∈ Finset.range (w + 1), weightProb n p k * (1 - F k) :=
      Finset.sum_nonneg fun k _ => mul_nonneg (hq k) (by linarith [hF k])
    have hB : 0 ≤ ∑ k ∈ Finset.Ico (w + 1) (n + 1), weightProb n p k := Finset.sum_nonneg fun k _ => hq k
    have hC : 0 ≤ ∑ k ∈ Finset.Ico (w + 1) (n + 1), weightProb n p k * (1 - F k) :=
      Finset.sum_nonneg fun k _ => mul_nonneg (hq k) (by linarith [hF k])
    have hD : ∑ k ∈ Finset.Ico (w + 1) (n + 1), weightProb n p k * (1 - F k) ≤
        ∑ k ∈ Finset.Ico (w + 1) (n + 1), weightProb n p k :=
      Finset.sum_le_sum fun k _ => mul_le_of_le_one_right (hq k) (by linarith [hF k])
    have hE : ∑ k ∈ Finset.range (w + 1), weightProb n p k * (1 - F k) ≤
        ∑ k ∈ Finset.range (w + 1), weightProb n p k :=
      Finset.sum_le_sum fun k _ => mul_le_of_le_one_right (hq k) (by linarith [hF k])
    have hone : ∑ k ∈ Finset.range (w + 1), weightProb n p k +
        ∑ k ∈ Finset.Ico (w + 1) (n + 1), weightProb n p k = 1 := by
      rw [Finset.sum_range_add_sum_Ico _ (by omega)]
      exact sum_binomial n p
    have hT : trueRate n p F = ∑ k ∈ Finset.range (w + 1), weightProb n p k * (1 - F k) +
        ∑ k ∈ Finset.Ico (w + 1) (n + 1), weightProb n p k * (1 - F k) :=
      (Finset.sum_range_add_sum_Ico _ (by omega)).symm
    rw [hT, ← h2, ← h3]
    exact ⟨by linarith, by linarith, Finset.sum_nonneg fun k _ => mul_nonneg (sq_nonneg _) (hV k), by linarith,
      by linarith⟩

/-- At error rate zero the logical error rate is zero. -/
theorem C76_zero (n : ℕ) (maxRate : ℚ) (F V : ℕ → ℚ) (w : ℕ) (hw : w ≠ 0) (hn : w ≤ n) (h0 : 0 ≤ maxRate)
    (hF : F 0 = 1) :
    (logicalErrorRate n maxRate ((List.range (w + 1)).map F) ((List.range (w + 1)).map V) 0).map Prod.fst =
      some 0 := by
  rw [C76_value n maxRate 0 F V w hw hn, if_neg (by linarith), Option.map_some]
  have hz : ∀ k, k ≠ 0 → weightProb n 0 k = 0 := fun k hk => by simp [weightProb, hk]
  congr 1
  have h1 : ∑ k ∈ Finset.range (w + 1), weightProb n 0 k * (1 - F k) = 0 :=
    Finset.sum_eq_zero fun k _ => by
      by_cases hk : k = 0
      · rw [hk, hF]; simp
      · rw [hz k hk, zero_mul]
  have h2 : ∑ k ∈ Finset.Ico (w + 1) (n + 1), weightProb n 0 k = 0 :=
    Finset.sum_eq_zero fun k hk => hz k (by have := (Finset.mem_Ico.1 hk).1; omega)
  dsimp only
  rw [h1, h2, add_zero]

/-- If every sampled weight failed never, the result is the probability of a weight above the sampled ones;
with all weights sampled it is then zero. -/
theorem C76_perfect (n : ℕ) (maxRate p : ℚ) (V : ℕ → ℚ) (hn : n ≠ 0) (hp : p ≤ maxRate) :
    (logicalErrorRate n maxRate ((List.range (n + 1)).map fun _ => 1) ((List.range (n + 1)).map V) p).map
      Prod.fst = some 0 := by
  rw [C76_value n maxRate p _ V n hn le_rfl, if_neg (by linarith), Option.map_some]
  simp

/-- The fidelity of a list of samples is the proportion of successes, a probability, and the variance is
nonnegative; without samples there is a division by zero. -/
theorem C76_fidelity (failures : List Bool) (h : failures ≠ []) :
    ∃ f v, fidelity failures = some f ∧ fidelityVariance failures = some v ∧
      f * failures.length = (failures.countP fun b => !b : ℕ) ∧ 0 ≤ f ∧ f ≤ 1 ∧ 0 ≤ v := by
  have hl : (0 : ℚ) < failures.length := by exact_mod_cast List.length_pos_iff.2 h
  have hle : (failures.countP id : ℚ) ≤ failures.length := by exact_mod_cast List.countP_le_length
  have hx1 : (failures.countP id : ℚ) / failures.length ≤ 1 := (div_le_one hl).2 hle
  have hx0 : 0 ≤ (failures.countP id : ℚ) / failures.length := by positivity
  refine ⟨_, _, if_neg h, if_neg h, ?_, by linarith, by linarith, ?_⟩
  · have hc : failures.length = failures.countP id + failures.countP fun b => !b := by
      have := List.length_eq_countP_add_countP (l := failures) (fun b => id b)
      rw [this]
      congr 1
      exact List.countP_congr (by simp)
    rw [sub_mul, one_mul, div_mul_cancel₀ _ hl.ne']
    have : (failures.length : ℚ) = failures.countP id + (failures.countP fun b => !b : ℕ) := by exact_mod_cast hc
    rw [this]
    ring
  · exact div_nonneg (mul_nonneg hx0 (by linarith)) hl.le

/-- The allocation of C66 has samples for each weight whose fidelity is needed, so that no division by zero
occurs and the lengths fit: the weights are `0, ..., w` with `1 ≤ w ≤ n`. -/
theorem C76_samples (fuel N n : ℕ) (p : ℚ) (hn : n ≠ 0) (h0 : 0 < p) (h1 : p ≤ 1) (r : List ℤ)
    (h : sampleAllocation fuel N n p = some r) :
    ∃ w, w ≠ 0 ∧ w ≤ n ∧ r.length = w + 1 ∧ ∀ k, 1 ≤ k → (hk : k < r.length) → r[k] ≠ 0 := by
  obtain ⟨-, h2, h3, h4, -⟩ := C66_allocation_partial fuel N n p hn h0 h1 r h
  exact ⟨r.length - 1, by omega, by omega, by omega, fun k a b => (h4 k a b).ne'⟩

example : logicalErrorRate 3 (1 / 2) [1, 1, 1 / 2] [0, 0, 1 / 8] (1 / 4) =
    some (9 / 64 * (1 / 2) + 1 / 64, (9 / 64) ^ 2 * (1 / 8)) := by decide +kernel

/-! ### Instances of the theorems: concrete cases meet the hypotheses -/

example := C67_slice_mem 1 10 3 4 (by decide)
example := C67_slice 10 1 8 3 (by decide) (by decide)
example := C66_terminates 100 5 (1/10) (by decide) (by decide) (by norm_num) (by norm_num)
example := C76_value 5 (1/4) (1/10) (fun _ => 1/2) (fun _ => 1/8) 3 (by decide) (by decide)
example := C76_zero 5 (1/4) (fun _ => 1) (fun _ => 1/8) 3 (by decide) (by decide) (by norm_num) rfl
example := C76_perfect 5 (1/4) (1/10) (fun _ => 1/8) (by decide) (by norm_num)
example := C76_fidelity [true, false, false] (by simp)

example := C76_bounds 5 (1/4) (1/10) (fun _ => 1/2) (fun _ => 1/8) 3 (by decide) (by decide) (by norm_num) (by norm_num) (fun _ => by norm_num) (fun _ => by norm_num)
example : True := by
  obtain ⟨f, r, h⟩ := C66_terminates 100 5 (1/10) (by decide) (by decide) (by norm_num) (by norm_num)
  have h1 := C66_allocation_partial f 100 5 (1/10) (by decide) (by norm_num) (by norm_num) r h
  have h2 := C66_deterministic f f 100 5 (1/10) r r h h
  have h3 := C76_samples f 100 5 (1/10) (by decide) (by norm_num) (by norm_num) r h
  trivial

end QLDPC.Props

section AxiomReport
open QLDPC.Props
#print axioms C67_order
#print axioms C67_list
#print axioms C67_slice_mem
#print axioms C67_slice_order
#print axioms C67_slice
#print axioms C67_default
#print axioms C67_zero_step
#print axioms C66_terminates
#print axioms C66_allocation_partial
#print axioms C66_deterministic
#print axioms C66_disagreement
#print axioms C66_no_samples_disagreement
#print axioms C76_probs
#print axioms C76_value
#print axioms C76_bounds
#print axioms C76_zero
#print axioms C76_perfect
#print axioms C76_fidelity
#print axioms C76_samples
end AxiomReport
