import Verif.Lemmas.HammingRM
import Mathlib.Algebra.Field.ZMod

/-!
# Properties C30 – C33: families of classical codes
-/

namespace QLDPC.Props

open QLDPC QLDPC.Spec

set_option linter.unusedSectionVars false

variable {F : Type} [Field F] [DecidableEq F] {n m : ℕ}

/-! ## C30 -/

/-- **C30**: `RepetitionCode(n)` can be built for `n ≥ 1`, its words are the constant words, and the
dimension and distance it advertises are right. -/
theorem C30_repetition (n : ℕ) (hn : 1 ≤ n) : ∃ c, repetitionCode F n = some c ∧
    (∀ w, IsWord c.matrix w ↔ ∃ x : F, w = fun _ => x) ∧
    codeDim c.matrix = 1 ∧ c.dimension = 1 ∧ IsMinDistance c.matrix n ∧ c.dist? = some (some n) := by
  obtain ⟨c, hc⟩ : ∃ c, repetitionCode F n = some c := by
    unfold repetitionCode; rw [if_neg (by omega)]; exact ⟨_, rfl⟩
  have hw := isWord_repetition hc
  refine ⟨c, hc, hw, codeDim_constant (by omega) hw, ?_, minDistance_constant (by omega) hw, ?_⟩ <;>
  · unfold repetitionCode at hc
    rw [if_neg (by omega)] at hc
    cases hc
    rfl

/-- **C30**: the same for `RingCode(n)`, `n ≥ 2`. -/
theorem C30_ring_partial (n : ℕ) (hn : 2 ≤ n) :
    (∀ w, IsWord (ringCode F n).matrix w ↔ ∃ x : F, w = fun _ => x) ∧
    codeDim (ringCode F n).matrix = 1 ∧ (ringCode F n).dimension = 1 ∧
    IsMinDistance (ringCode F n).matrix n ∧ (ringCode F n).dist? = some (some n) :=
  ⟨isWord_ring hn, codeDim_constant (by omega) (isWord_ring hn), rfl,
    minDistance_constant (by omega) (isWord_ring hn), rfl⟩

/-- **C30** fails for `RingCode(1)`: its only check is `-1`, so the constant word 1 is not a word, yet the
dimension advertised is 1. -/
theorem C30_ring_disagreement : ¬ IsWord (ringCode F 1).matrix (fun _ => 1) ∧
    (ringCode F 1).dimension = 1 := by
  refine ⟨fun h => ?_, rfl⟩
  have := h (edgeRow 1 0 0) (by simp [ringCode])
  simp [edgeRow] at this

example : ∃ c, repetitionCode (ZMod 3) 4 = some c ∧ IsMinDistance c.matrix 4 :=
  let ⟨c, h1, _, _, _, h2, _⟩ := C30_repetition (F := ZMod 3) 4 (by norm_num)
  ⟨c, h1, h2⟩
example : IsWord (ringCode (ZMod 3) 4).matrix ![2, 2, 2, 2] := by
  unfold IsWord; decide +kernel
example : ¬ IsWord (ringCode (ZMod 3) 4).matrix ![2, 2, 2, 1] := by
  unfold IsWord; decide +kernel

#print axioms C30_repetition
#print axioms C30_ring_partial
#print axioms C30_ring_disagreement

/-! ## C31 -/

section
variable {els : List F} (hnd : els.Nodup) (hall : ∀ x, x ∈ els)
include hnd hall

/-- **C31**: no column of the parity check matrix of `HammingCode(r, q)` is zero, and every nonzero
syndrome is a multiple of exactly one column. -/
theorem C31_columns (r : ℕ) : (hammingCode els r).matrix.length = r ∧
    (∀ j, ∃ i : Fin r, (hammingCode els r).matrix.getD i 0 j ≠ 0) ∧
    (∀ v : Fin r → F, v ≠ 0 →
      ∃! j, ∃ c : F, ∀ i : Fin r, v i = c * (hammingCode els r).matrix.getD i 0 j) := by
  have h := projective_hamming hnd hall r
  refine ⟨h.rows, fun j => ?_, fun v hv => ?_⟩
  · by_contra hno
    refine h.nonzero j (funext fun i => ?_)
    by_contra hi
    exact hno ⟨i, hi⟩
  · obtain ⟨j, ⟨c, hc⟩, hj⟩ := h.cover v hv
    exact ⟨j, ⟨c, fun i => congrFun hc i⟩, fun k ⟨d, hd⟩ => hj k ⟨d, funext hd⟩⟩

/-- **C31**: the length is `1 + q + ... + q^(r-1)` and the dimension is the length minus `r`, as advertised. -/
theorem C31_dimension (r : ℕ) :
    (hammingColumns els r).length = ∑ t ∈ Finset.range r, els.length ^ t ∧
    codeDim (hammingCode els r).matrix + r = (hammingColumns els r).length ∧
    (hammingCode els r).dimension = codeDim (hammingCode els r).matrix := by
  have h := (projective_hamming hnd hall r).codeDim
  refine ⟨length_hammingColumns r, h, ?_⟩
  change (hammingColumns els r).length - (fromColumns r (hammingColumns els r)).length = _
  rw [length_fromColumns]
  omega

/-- **C31**: no nonzero word has weight below 3. -/
theorem C31_no_light_word (r : ℕ) (w) (hw : IsWord (hammingCode els r).matrix w) (hne : w ≠ 0) :
    3 ≤ hammingNorm w :=
  (projective_hamming hnd hall r).min_weight hw hne

/-- **C31**: for rank at least 2 the distance is 3, as advertised. -/
theorem C31_distance (r : ℕ) (hr : 2 ≤ r) : IsMinDistance (hammingCode els r).matrix 3 ∧
    (hammingCode els r).dist? = some (some 3) := by
  have h := projective_hamming hnd hall r
  refine ⟨⟨?_, ?_⟩, rfl⟩
  · obtain ⟨w, hw, h3⟩ := h.exists_three hr
    refine ⟨w, hw, ?_, h3.symm⟩
    rintro rfl
    simp at h3
  · rintro k ⟨w, hw, hne, rfl⟩
    exact h.min_weight hw hne

end

/-- **C31**: `HammingCode(1, q)` has no nonzero word at all, although it advertises distance 3. -/
theorem C31_rank_one_disagreement {els : List F} (hnd : els.Nodup) (hall : ∀ x, x ∈ els) :
    (∀ w, IsWord (hammingCode els 1).matrix w → w = 0) ∧ (hammingCode els 1).dist? = some (some 3) := by
  refine ⟨fun w hw => ?_, rfl⟩
  have h := (C31_dimension hnd hall 1)
  have hl : (hammingColumns els 1).length = 1 := by rw [h.1]; simp
  by_contra hne
  have h3 := C31_no_light_word hnd hall 1 w hw hne
  have h1 : hammingNorm w ≤ Fintype.card (Fin (hammingColumns els 1).length) := hammingNorm_le_card_fintype
  rw [Fintype.card_fin] at h1
  omega

/-- the field with three elements -/
def els3 : List (ZMod 3) := [0, 1, 2]

theorem nodup_els3 : els3.Nodup := by decide +kernel
theorem mem_els3 : ∀ x, x ∈ els3 := by decide +kernel

example : IsMinDistance (hammingCode els3 2).matrix 3 := (C31_distance nodup_els3 mem_els3 2 le_rfl).1
example : (hammingColumns els3 3).length = 13 := by decide +kernel
example : (hammingCode els3 2).matrix.map List.ofFn = [[0, 1, 1, 1], [1, 0, 1, 2]] := by decide +kernel

#print axioms C31_columns
#print axioms C31_dimension
#print axioms C31_no_light_word
#print axioms C31_distance
#print axioms C31_rank_one_disagreement

/-! ## C32 -/

theorem rmCode_words {r m : ℕ} {c : CCode F (pow2 m)} (hc : reedMullerCode F r m = some c) :
    1 ≤ r ∧ r ≤ m ∧ codeSpace c.matrix = rmSpace F r m ∧ c.gen? = none ∧
      c.dim? = some (binomSum r m) ∧ c.dist? = some (some (2 ^ (m - r))) := by
  unfold reedMullerCode at hc
  split at hc
  · exact absurd hc (by simp)
  rename_i h0
  have hle : r ≤ m := by
    by_contra hlt
    rw [rmGenerator_none (by omega)] at hc
    simp at hc
  rw [Option.map_eq_some_iff] at hc
  obtain ⟨G, hG, rfl⟩ := hc
  refine ⟨by omega, hle, ?_, rfl, ?_, rfl⟩
  · rw [codeSpace_eq, kernel_nullSpace]
    unfold rmSpace
    rw [hG]
    rfl
  · dsimp only
    rw [length_rm hG]

/-- **C32**: `ReedMullerCode(r, m)` exists for `1 ≤ r ≤ m`; it has length `2^m`, and dimension
`∑_{i ≤ r} C(m, i)` and distance `2^(m-r)` as advertised, over any field. -/
theorem C32_parameters_partial (r m : ℕ) (h1 : 1 ≤ r) (h2 : r ≤ m) :
    ∃ c, reedMullerCode F r m = some c ∧ pow2 m = 2 ^ m ∧
      codeDim c.matrix = ∑ i ∈ Finset.range (r + 1), m.choose i ∧ c.dimension = codeDim c.matrix ∧
      IsMinDistance c.matrix (2 ^ (m - r)) ∧ c.dist? = some (some (2 ^ (m - r))) := by
  obtain ⟨G, hG⟩ := Option.isSome_iff_exists.1 (rmGenerator_isSome (F := F) h2)
  obtain ⟨c, hc⟩ : ∃ c, reedMullerCode F r m = some c := by
    unfold reedMullerCode
    rw [if_neg (by omega), hG]
    exact ⟨_, rfl⟩
  obtain ⟨_, _, hsp, _, hdim, hdist⟩ := rmCode_words hc
  have hd : codeDim c.matrix = binomSum r m := by
    unfold codeDim; rw [hsp]; exact finrank_rm h2
  have hmem : ∀ w, IsWord c.matrix w ↔ w ∈ rmSpace F r m := fun w => by rw [← hsp]; rfl
  refine ⟨c, hc, pow2_eq m, hd, ?_, ⟨?_, ?_⟩, hdist⟩
  · unfold CCode.dimension; rw [hdim, hd]
  · obtain ⟨w, hw, hne, h⟩ := (rm_distance (F := F) h2).2
    exact ⟨w, (hmem w).2 hw, hne, h.symm⟩
  · rintro k ⟨w, hw, hne, rfl⟩
    exact (rm_distance (F := F) h2).1 w ((hmem w).1 hw) hne

/-- **C32**: the words are the combinations of the rows of the generator matrix. -/
theorem C32_generator (r m : ℕ) (c : CCode F (pow2 m)) (hc : reedMullerCode F r m = some c) :
    ∃ G, rmGenerator F r m = some G ∧ ∀ w, IsWord c.matrix w ↔ IsCombination G w := by
  obtain ⟨_, h2, hsp, _⟩ := rmCode_words hc
  obtain ⟨G, hG⟩ := Option.isSome_iff_exists.1 (rmGenerator_isSome (F := F) h2)
  refine ⟨G, hG, fun w => ?_⟩
  rw [isCombination_iff]
  change w ∈ codeSpace c.matrix ↔ _
  rw [hsp]
  unfold rmSpace
  rw [hG]
  rfl

/-- **C32**: over the field with two elements the dual of `ReedMullerCode(r, m)` is
`ReedMullerCode(m-r-1, m)`. -/
theorem C32_dual (hb : ∀ x : F, x = 0 ∨ x = 1) (r s m : ℕ) (hrs : r + s + 1 = m) (c d : CCode F (pow2 m))
    (hc : reedMullerCode F r m = some c) (hd : reedMullerCode F s m = some d) (w : Fin (pow2 m) → F) :
    (IsWord c.dual.matrix w ↔ IsWord d.matrix w) ∧
    (IsWord d.matrix w ↔ ∀ u, IsWord c.matrix u → ∑ i, u i * w i = 0) := by
  obtain ⟨_, _, hsp, hg, _⟩ := rmCode_words hc
  obtain ⟨_, _, hsp', _⟩ := rmCode_words hd
  have main : codeSpace d.matrix = orth (codeSpace c.matrix) := by
    rw [hsp, hsp', rm_dual hb (by omega)]
    congr 1
    omega
  have e : IsWord d.matrix w ↔ ∀ u, IsWord c.matrix u → ∑ i, u i * w i = 0 := by
    change w ∈ codeSpace d.matrix ↔ _
    rw [main]
    rfl
  refine ⟨?_, e⟩
  rw [e, isWord_iff, CCode.kernel_dual (CCode.genOk_of_fresh hg)]
  constructor
  · intro h u hu
    have := h u ((isWord_iff _ _).1 hu)
    rw [← this]
    exact Finset.sum_congr rfl fun i _ => mul_comm _ _
  · intro h u hu
    rw [← h u ((isWord_iff _ _).2 hu)]
    exact Finset.sum_congr rfl fun i _ => mul_comm _ _

/-- **C32** at order 0: the generator is the row of ones, as it should be, but the constructor raises. -/
theorem C32_order_zero_disagreement (m : ℕ) : rmGenerator F 0 m = some [1] ∧ reedMullerCode F 0 m = none := by
  cases m <;> exact ⟨rfl, rfl⟩

example : ∃ c, reedMullerCode (ZMod 2) 2 4 = some c ∧ IsMinDistance c.matrix 4 :=
  let ⟨c, h, _, _, _, h2, _⟩ := C32_parameters_partial (F := ZMod 2) 2 4 (by norm_num) (by norm_num)
  ⟨c, h, h2⟩
example : (rmGenerator (ZMod 2) 1 2).map (·.map List.ofFn) =
    some [[1, 0, 1, 0], [0, 1, 0, 1], [0, 0, 1, 1]] := by decide +kernel

#print axioms C32_parameters_partial
#print axioms C32_generator
#print axioms C32_dual
#print axioms C32_order_zero_disagreement

/-! ## C33 -/

section
variable (hb : ∀ x : F, x = 0 ∨ x = 1)
include hb

/-- **C33**: `ExtendedHammingCode(r)` exists for `r ≥ 1`, has length `2^r`, dimension `2^r - r - 1` as
advertised, and only words of even weight. -/
theorem C33_parameters (r : ℕ) (hr : 1 ≤ r) : ∃ c, extendedHammingCode F r = some c ∧
    (bitColumns F r).length + 1 = 2 ^ r ∧
    codeDim c.matrix = 2 ^ r - r - 1 ∧ c.dimension = codeDim c.matrix ∧
    (∀ w, IsWord c.matrix w → Even (hammingNorm w)) ∧
    (∀ w, IsWord c.matrix w → w ≠ 0 → 4 ≤ hammingNorm w) := by
  obtain ⟨c, hc⟩ := Option.isSome_iff_exists.1 (extended_isSome (F := F) hr)
  have hl := length_bitColumns (F := F) r
  have hp := Nat.one_le_two_pow (n := r)
  have hd := codeDim_extended hb hc
  refine ⟨c, hc, by omega, by omega, ?_, fun w hw => (min_extended hb hc hw).1,
    fun w hw => (min_extended hb hc hw).2⟩
  unfold CCode.dimension
  rw [(length_extended hc).2.1]
  simp only
  omega

/-- **C33**: the distance is 4, as advertised, for `r ≥ 2`. -/
theorem C33_distance (r : ℕ) (hr : 2 ≤ r) (c) (hc : extendedHammingCode F r = some c) :
    IsMinDistance c.matrix 4 ∧ c.dist? = some (some 4) := by
  refine ⟨⟨?_, ?_⟩, (length_extended hc).2.2.1⟩
  · obtain ⟨w, hw, h4⟩ := exists_extended hb hr hc
    refine ⟨w, hw, ?_, h4.symm⟩
    rintro rfl
    simp at h4
  · rintro k ⟨w, hw, hne, rfl⟩
    exact (min_extended hb hc hw).2 hne

/-- **C33**: `ExtendedHammingCode(r)` is `ReedMullerCode(r-2, r)`, with the bits in the same order, as its
docstring says (for `r ≥ 3`, where the latter can be built). -/
theorem C33_reed_muller (r : ℕ) (c) (hc : extendedHammingCode F r = some c) (d : CCode F (pow2 r))
    (hd : reedMullerCode F (r - 2) r = some d) (w : Fin (pow2 r) → F) :
    ∃ hl : (bitColumns F r).length + 1 = pow2 r,
      IsWord c.matrix (fun j => w (Fin.cast hl j)) ↔ IsWord d.matrix w := by
  obtain ⟨h1, _, hsp, _⟩ := rmCode_words hd
  have hl := length_bitColumns (F := F) r
  have hp := Nat.one_le_two_pow (n := r)
  have hl' : (bitColumns F r).length + 1 = pow2 r := by rw [pow2_eq]; omega
  refine ⟨hl', ?_⟩
  rw [extended_eq_rm hb (by omega) hc hl'.symm]
  change _ ↔ w ∈ codeSpace d.matrix
  rw [hsp]
  rfl

end

/-- **C33**: and the words are those of the Hamming code with one more bit in front that makes the weight
even. -/
theorem C33_words (r : ℕ) (c) (hc : extendedHammingCode F r = some c) (w) :
    IsWord c.matrix w ↔
      ∑ j, w j = 0 ∧ IsWord (fromColumns r (bitColumns F r)) (fun j => w j.succ) :=
  isWord_extended hc w

theorem zmod2_binary : ∀ x : ZMod 2, x = 0 ∨ x = 1 := by decide +kernel

example : ∃ c, extendedHammingCode (ZMod 2) 3 = some c ∧ IsMinDistance c.matrix 4 :=
  let ⟨c, h, _⟩ := C33_parameters zmod2_binary 3 (by norm_num)
  ⟨c, h, (C33_distance zmod2_binary 3 (by norm_num) c h).1⟩
example : (extendedHammingCode (ZMod 2) 2).map (fun c => c.matrix.map List.ofFn) =
    some [[1, 1, 0, 0], [0, 0, 1, 1], [0, 1, 0, 1]] := by decide +kernel

#print axioms C33_parameters
#print axioms C33_distance
#print axioms C33_reed_muller
#print axioms C33_words

/-! ### Instances of the theorems: concrete cases meet the hypotheses -/

example := C30_ring_partial (F := ZMod 3) 4 (by decide)
example := C31_columns (els := [(0 : ZMod 3), 1, 2]) (by decide) (by decide) 3
example := C31_dimension (els := [(0 : ZMod 3), 1, 2]) (by decide) (by decide) 3
example : True := by
  obtain ⟨⟨w, h1, h2, -⟩, -⟩ := (C31_distance (els := [(0 : ZMod 3), 1, 2]) (by decide) (by decide) 2 le_rfl).1
  have := C31_no_light_word (els := [(0 : ZMod 3), 1, 2]) (by decide) (by decide) 2 w h1 h2
  trivial
example : True := by
  obtain ⟨c, h, -⟩ := C32_parameters_partial (F := ZMod 2) 2 4 (by norm_num) (by norm_num)
  obtain ⟨d, h', -⟩ := C32_parameters_partial (F := ZMod 2) 1 4 (by norm_num) (by norm_num)
  have := C32_generator 2 4 c h
  have := fun w => C32_dual (by decide) 2 1 4 rfl c d h h' w
  trivial

example : True := by
  obtain ⟨c, hc, -⟩ := C33_parameters (F := ZMod 2) (by decide) 3 (by decide)
  have h := C33_words 3 c hc 0
  obtain ⟨d, hd⟩ := Option.isSome_iff_exists.1 (show (reedMullerCode (ZMod 2) (3 - 2) 3).isSome = true by decide +kernel)
  have h' := C33_reed_muller (by decide) 3 c hc d hd 0
  trivial

end QLDPC.Props
