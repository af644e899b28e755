import Verif.Lemmas.DistancePack
import Mathlib.Data.Finset.SymmDiff
import Mathlib.Data.Finset.Powerset

/-!
# Properties C12 – C15: weight kernels, packing, Gray code, exact binary distance
-/

namespace QLDPC.Props

open QLDPC

/-! ## C12 -/

theorem sum_toNat_eq_card (k : ℕ) (f : ℕ → Bool) :
    ((List.range k).map fun i => (f i).toNat).sum = ((Finset.range k).filter fun i => f i).card := by
  rw [Finset.card_filter]
  induction k with
  | zero => simp
  | succ k ih =>
    rw [List.range_succ, List.map_append, List.sum_append, ih, Finset.sum_range_succ]
    cases h : f k <;> simp [h]

/-- **C12**: the popcount kernel counts the one bits of every 64-bit word. -/
theorem C12_hamming (x : BitVec 64) :
    (hammingKernel x).toNat = ((Finset.range 64).filter fun i => x.getLsbD i).card := by
  rw [toNat_hammingKernel, sum_bytes_pop8, sum_toNat_eq_card]
  rfl

/-- **C12**: the symplectic kernel counts the adjacent bit pairs that are not `00`. -/
theorem C12_symplectic (x : BitVec 64) :
    (symplecticKernel x).toNat =
      ((Finset.range 32).filter fun i => x.getLsbD (2 * i) || x.getLsbD (2 * i + 1)).card := by
  rw [toNat_symplecticKernel, sum_bytes_pair8, sum_toNat_eq_card]
  rfl

/-- **C12**: the docstring of `_symplectic_weight`: it is the popcount of `(x | x >> 1) & 0x55…55`
(this is also how the `np.bitwise_count` variant computes it). -/
theorem C12_symplectic_eq_hamming (x : BitVec 64) :
    symplecticKernel x = hammingKernel ((x >>> 1 ||| x) &&& mask55) := by
  apply BitVec.eq_of_toNat_eq
  rw [C12_hamming, C12_symplectic]
  have hm : ∀ i < 64, mask55.getLsbD i = decide (i % 2 = 0) := by decide
  have h1 : ((Finset.range 64).filter fun i => ((x >>> 1 ||| x) &&& mask55).getLsbD i) =
      ((Finset.range 32).filter fun i => x.getLsbD (2 * i) || x.getLsbD (2 * i + 1)).image
        (2 * ·) := by
    ext j
    simp only [Finset.mem_filter, Finset.mem_range, Finset.mem_image, BitVec.getLsbD_and,
      BitVec.getLsbD_or, BitVec.getLsbD_ushiftRight]
    constructor
    · rintro ⟨hj, h⟩
      rw [hm j hj] at h
      simp only [Bool.and_eq_true, Bool.or_eq_true, decide_eq_true_eq] at h
      refine ⟨j / 2, ⟨by omega, ?_⟩, by omega⟩
      rw [show 2 * (j / 2) = j by omega, add_comm j 1]
      simp only [Bool.or_eq_true]
      exact h.1.symm
    · rintro ⟨i, ⟨hi, h⟩, rfl⟩
      refine ⟨by omega, ?_⟩
      rw [hm _ (by omega)]
      simp only [Bool.or_eq_true] at h
      simp [add_comm 1]
      exact h.symm
  rw [h1, Finset.card_image_of_injective _ (fun a b h => by simpa using h)]

-- non-trivial instances
example : hammingKernel 0xF00000000000000F#64 = 8#64 := by decide
example : symplecticKernel 0xF000000000000001#64 = 3#64 := by decide

/-! ## C13 -/

/-- **C13**: the XOR of two packed rows is the packing of the XOR, for every row length. -/
theorem C13_pack_xor (a b : List Bool) (h : a.length = b.length) :
    rowToInts (List.zipWith xor a b) = List.zipWith (· ^^^ ·) (rowToInts a) (rowToInts b) :=
  rowToInts_xor a b h

/-- **C13**: packing rows of one length is injective. -/
theorem C13_pack_injective (a b : List Bool) (h : a.length = b.length)
    (hp : rowToInts a = rowToInts b) : a = b := by
  have hx := sum_hamming_row (List.zipWith xor a b)
  rw [rowToInts_xor a b h, ← hp] at hx
  have hself : ∀ l : List (BitVec 64),
      ((xorRow l l).map fun x => (hammingKernel x).toNat).sum = 0 := by
    intro l
    induction l with
    | nil => simp [xorRow]
    | cons x l ih =>
      have h0 : (hammingKernel 0#64).toNat = 0 := by decide
      simp only [xorRow, List.zipWith_cons_cons, List.map_cons, List.sum_cons, BitVec.xor_self, h0,
        zero_add]
      exact ih
  rw [hself] at hx
  have hz : ∀ x ∈ List.zipWith xor a b, x = false := by
    intro x hxm
    by_contra hne
    have : x = true := by simpa using hne
    subst this
    have := List.count_pos_iff.2 hxm
    omega
  apply List.ext_getElem h
  intro i h1 h2
  have := hz _ (List.getElem_mem (l := List.zipWith xor a b) (n := i) (by simp; omega))
  rw [List.getElem_zipWith] at this
  simpa using this

/-- **C13**: the (in-place, halving) row sum of the popcounts of the packed words is the number of
ones of the row, for rows shorter than `2 ^ wb` bits. -/
theorem C13_hamming (wb : ℕ) (a : List Bool) (h0 : a ≠ []) (hwb : a.length < 2 ^ wb) :
    (inplaceRowsum ((rowToInts a).map fun x => (hammingKernel x).setWidth wb)).map BitVec.toNat =
      some (a.count true) := by
  have hne : (rowToInts a).map (fun x => (hammingKernel x).setWidth wb) ≠ [] := by
    intro h
    have := congrArg List.length h
    rw [List.length_map, length_rowToInts] at this
    have := List.length_pos_iff.2 h0
    simp at *
    omega
  rw [inplaceRowsum_eq _ hne, Option.map_some, toNat_sum_setWidth, sum_hamming_row,
    Nat.mod_eq_of_lt (lt_of_le_of_lt List.count_le_length hwb)]

/-- **C13**: for a Pauli string `[x | z]`, riffling and packing gives words whose symplectic weights
add up to the number of qubits acted on. -/
theorem C13_symplectic (wb : ℕ) {n : ℕ} (hn : 0 < n) (hwb : n < 2 ^ wb)
    (p : (Fin n → ZMod 2) × (Fin n → ZMod 2)) :
    ∃ r, riffle (pauliBits p) = some r ∧ r.length = 2 * n ∧
      (∀ i : Fin n, r[2 * i.val]? = some (decide (p.1 i ≠ 0)) ∧
        r[2 * i.val + 1]? = some (decide (p.2 i ≠ 0))) ∧
      (inplaceRowsum ((rowToInts r).map fun x => (symplecticKernel x).setWidth wb)).map
        BitVec.toNat = some (pauliWeight p) := by
  have hpack := isPacking_symplectic n hn
  refine ⟨_, riffle_pauliBits p, length_interleave p, ?_, ?_⟩
  · intro i
    have hr : interleave p = (List.range (2 * n)).map fun j =>
        (pauliBits p).getD ((j % 2) * n + j / 2) false := by
      have := riffle_pauliBits p
      unfold riffle at this
      have hlen : (pauliBits p).length = 2 * n := by simp [pauliBits, length_bitsOf]; omega
      rw [hlen, if_pos (by omega), show 2 * n / 2 = n by omega] at this
      exact (Option.some.inj this).symm
    rw [hr, List.getElem?_map, List.getElem?_map, List.getElem?_range (by omega),
      List.getElem?_range (by omega)]
    simp only [Option.map_some, Option.some.injEq]
    constructor
    · rw [show 2 * i.val % 2 = 0 by omega, zero_mul, zero_add, show 2 * i.val / 2 = i.val by omega,
        getD_bits_left]
    · rw [show (2 * i.val + 1) % 2 = 1 by omega, one_mul,
        show (2 * i.val + 1) / 2 = i.val by omega, getD_bits_right]
  · rw [inplaceRowsum_eq _ (by simpa using hpack.ne p), Option.map_some, toNat_sum_setWidth,
      hpack.weight, Nat.mod_eq_of_lt (lt_of_le_of_lt (pauliWeight_le p) hwb)]

/-- The hypothesis on the integer width is needed: with 8-bit weights (what `np.bitwise_count`
returns) the row sum of 256 ones is `0`. -/
theorem C13_hamming_wraps :
    (inplaceRowsum ((rowToInts (List.replicate 256 true)).map
      fun x => (hammingKernel x).setWidth 8)).map BitVec.toNat = some 0 := by decide +kernel

example : (inplaceRowsum ((rowToInts (List.replicate 131 true)).map
      fun x => (hammingKernel x).setWidth 64)).map BitVec.toNat = some 131 := by decide +kernel

/-! ## C14 -/

/-- The combinations visited by flipping generator `countTrailingZeros i` for `i = 1, …, 2^k - 1`,
starting from (and including) the combination `s`. -/
def grayStates (s : Finset ℕ) (k : ℕ) : List (Finset ℕ) :=
  ((List.range' 1 (2 ^ k - 1)).map countTrailingZeros).foldl
    (fun acc i => acc ++ [symmDiff (acc.getLastD s) {i}]) [s]

/-- states visited by a list of flips -/
def flips (s : Finset ℕ) : List ℕ → List (Finset ℕ)
  | [] => [s]
  | i :: l => s :: flips (symmDiff s {i}) l

theorem foldl_flips (l : List ℕ) (pre : List (Finset ℕ)) (s d : Finset ℕ) :
    l.foldl (fun acc i => acc ++ [symmDiff (acc.getLastD d) {i}]) (pre ++ [s]) =
      pre ++ flips s l := by
  induction l generalizing pre s with
  | nil => rfl
  | cons i l ih =>
    rw [List.foldl_cons, List.getLastD_concat, ih (pre ++ [s])]
    simp [flips]

theorem flips_append (l m : List ℕ) (s : Finset ℕ) :
    ∃ e, e ∈ flips s l ∧ flips s (l ++ m) = (flips s l).dropLast ++ flips e m ∧
      flips s l = (flips s l).dropLast ++ [e] := by
  induction l generalizing s with
  | nil => exact ⟨s, by simp [flips], by simp [flips], by simp [flips]⟩
  | cons i l ih =>
    obtain ⟨e, he, h1, h2⟩ := ih (symmDiff s {i})
    have hne : flips (symmDiff s {i}) l ≠ [] := by cases l <;> simp [flips]
    refine ⟨e, by simp [flips, he], ?_, ?_⟩
    · simp only [List.cons_append, flips, List.dropLast_cons_of_ne_nil hne]
      rw [h1]
    · simp only [flips, List.dropLast_cons_of_ne_nil hne, List.cons_append]
      rw [← h2]

theorem mem_flips (k : ℕ) (s x : Finset ℕ) :
    x ∈ flips s ((List.range' 1 (2 ^ k - 1)).map countTrailingZeros) ↔
      ∀ i, (i ∈ x ↔ i ∈ s) ∨ i < k := by
  induction k generalizing s x with
  | zero =>
    simp only [pow_zero, Nat.sub_self, List.range'_zero, List.map_nil, flips, List.mem_singleton,
      Nat.not_lt_zero, or_false]
    exact Finset.ext_iff
  | succ k ih =>
    rw [range_ctz_succ, List.append_assoc]
    obtain ⟨e, he, h1, h2⟩ := flips_append ((List.range' 1 (2 ^ k - 1)).map countTrailingZeros)
      ([k] ++ (List.range' 1 (2 ^ k - 1)).map countTrailingZeros) s
    rw [h1, List.singleton_append, flips, List.append_cons, ← h2, List.mem_append, ih, ih]
    rw [ih] at he
    constructor
    · rintro (h | h) i
      · rcases h i with h | h
        · exact .inl h
        · exact .inr (by omega)
      · rcases h i with h | h
        · by_cases hik : i = k
          · right; omega
          · rw [Finset.mem_symmDiff, Finset.mem_singleton] at h
            rcases he i with h' | h'
            · left; rw [h, ← h']; tauto
            · right; omega
        · right; omega
    · intro h
      by_cases hk : k ∈ x ↔ k ∈ s
      · left
        intro i
        rcases h i with h | h
        · exact .inl h
        · by_cases hik : i = k
          · subst hik; exact .inl hk
          · right; omega
      · right
        intro i
        by_cases hlt : i < k
        · exact .inr hlt
        · left
          have he' := (he i).resolve_right hlt
          rw [Finset.mem_symmDiff, Finset.mem_singleton, he']
          by_cases hik : i = k
          · subst hik; tauto
          · have := (h i).resolve_right (by omega)
            tauto

theorem length_flips (s : Finset ℕ) (l : List ℕ) : (flips s l).length = l.length + 1 := by
  induction l generalizing s with
  | nil => rfl
  | cons i l ih => simp [flips, ih]

/-- **C14**: the walk visits every subset of the `k` generators, and each exactly once. -/
theorem C14_gray (k : ℕ) :
    (grayStates ∅ k).Nodup ∧ (grayStates ∅ k).length = 2 ^ k ∧
      ∀ x, x ∈ grayStates ∅ k ↔ x ⊆ Finset.range k := by
  have e : grayStates ∅ k = flips ∅ ((List.range' 1 (2 ^ k - 1)).map countTrailingZeros) := by
    have := foldl_flips ((List.range' 1 (2 ^ k - 1)).map countTrailingZeros) [] ∅ ∅
    simpa [grayStates] using this
  have hlen : (grayStates ∅ k).length = 2 ^ k := by
    rw [e, length_flips]
    have : 0 < 2 ^ k := by positivity
    simp; omega
  have hmem : ∀ x, x ∈ grayStates ∅ k ↔ x ⊆ Finset.range k := by
    intro x
    rw [e, mem_flips]
    constructor
    · intro h i hi
      rcases h i with h | h
      · simp [hi] at h
      · exact Finset.mem_range.2 h
    · intro h i
      by_cases hi : i ∈ x
      · exact .inr (Finset.mem_range.1 (h hi))
      · left; simp [hi]
  refine ⟨?_, hlen, hmem⟩
  have hfin : (grayStates ∅ k).toFinset = (Finset.range k).powerset := by
    ext x; simp [hmem]
  have hcard := congrArg Finset.card hfin
  rw [Finset.card_powerset, Finset.card_range, ← hlen] at hcard
  exact Multiset.toFinset_card_eq_card_iff_nodup.1 hcard

/-- **C14**: the index flipped at step `i` is the exponent of the largest power of two dividing
`i`. -/
theorem C14_ctz (i : ℕ) (hi : 0 < i) :
    2 ^ countTrailingZeros i ∣ i ∧ ¬ 2 ^ (countTrailingZeros i + 1) ∣ i := by
  induction i using Nat.strong_induction_on with
  | _ i ih =>
    rcases Nat.even_or_odd' i with ⟨w, rfl | rfl⟩
    · rw [ctz_even w (by omega)]
      have := ih w (by omega) (by omega)
      rw [pow_succ, pow_succ _ (countTrailingZeros w + 1), mul_comm _ 2, mul_comm _ 2,
        Nat.mul_dvd_mul_iff_left (by omega), Nat.mul_dvd_mul_iff_left (by omega)]
      exact this
    · rw [ctz_odd]
      simp

example : grayStates ∅ 2 = [∅, {0}, {0, 1}, {1}] := by decide +kernel

/-! ## C15 -/

/-- `d` is the least weight of a product of a nonempty selection of `L` and a selection of `S`. -/
def IsMinProductWeight {V : Type} [AddCommGroup V] (wt : V → ℕ) (L S : List V) (d : ℕ) : Prop :=
  IsLeast {w | ∃ t s : List V, t.Sublist L ∧ t ≠ [] ∧ s.Sublist S ∧ w = wt (t.sum + s.sum)} d

theorem minOver_spec {V : Type} [AddCommGroup V] (wt : V → ℕ) (m : ℕ) (L S U : List V)
    (hL : L ≠ []) (hm : ∀ v, wt v ≤ m)
    (hU : ∀ x, x ∈ U ↔ ∃ t s : List V, t.Sublist L ∧ t ≠ [] ∧ s.Sublist S ∧ x = t.sum + s.sum) :
    IsMinProductWeight wt L S (minOver wt m U) := by
  constructor
  · rcases minOver_attained wt m U with h | ⟨v, hv, h⟩
    · have hmem : L.sum ∈ U := (hU _).2 ⟨L, [], List.Sublist.refl _, hL, by simp, by simp⟩
      have h1 := minOver_le_mem wt m U _ hmem
      refine ⟨L, [], List.Sublist.refl _, hL, by simp, ?_⟩
      have h2 := hm L.sum
      rw [List.sum_nil, add_zero]
      omega
    · obtain ⟨t, s, ht, hne, hs, rfl⟩ := (hU v).1 hv
      exact ⟨t, s, ht, hne, hs, h⟩
  · rintro w ⟨t, s, ht, hne, hs, rfl⟩
    exact minOver_le_mem wt m U _ ((hU _).2 ⟨t, s, ht, hne, hs, rfl⟩)

/-- **C15** (`homogeneous = True`), for any integer width `wb` of the first weight computation that
can hold the number of bits. -/
theorem C15_homogeneous_width (wb n : ℕ) (hn : 0 < n) (hwb : n < 2 ^ wb) (h64 : n < 2 ^ 64)
    (blockSize : ℤ) (L S : List (Fin n → ZMod 2)) :
    ∃ d, getDistanceQuantum wb n blockSize true (L.map bitsOf) (S.map bitsOf) = some d ∧
      (L = [] → d = n) ∧ (L ≠ [] → IsMinProductWeight hammingNorm L S d) := by
  obtain ⟨U, h, hU⟩ := (isPacking_hamming n hn).search (zmod2_add_self) wb n
    (fun v => lt_of_le_of_lt (hammingNorm_le v) hwb)
    (fun v => lt_of_le_of_lt (hammingNorm_le v) h64) blockSize L S
  refine ⟨_, ?_, ?_, fun hL => minOver_spec _ n L S U hL hammingNorm_le hU⟩
  · rw [← h]
    simp [getDistanceQuantum, List.map_map, Function.comp_def]
  · rintro rfl
    have : U = [] := List.eq_nil_iff_forall_not_mem.2 fun x hx => by
      obtain ⟨t, _, ht, hne, _⟩ := (hU x).1 hx
      exact hne (List.sublist_nil.1 ht)
    simp [this, minOver]

/-- **C15** (`homogeneous = True`) with the 64-bit kernels of the repository (pure numpy or numba):
for every block size, the search returns the least Hamming weight of a nontrivial combination of
logical operators times any combination of stabilizers; with no logical operator it returns the
number of bits. -/
theorem C15_homogeneous (n : ℕ) (hn : 0 < n) (h64 : n < 2 ^ 64)
    (blockSize : ℤ) (L S : List (Fin n → ZMod 2)) :
    ∃ d, getDistanceQuantum 64 n blockSize true (L.map bitsOf) (S.map bitsOf) = some d ∧
      (L = [] → d = n) ∧ (L ≠ [] → IsMinProductWeight hammingNorm L S d) :=
  C15_homogeneous_width 64 n hn h64 h64 blockSize L S

/-- **C15** (`homogeneous = True`) with `np.bitwise_count` (numpy ≥ 2), which returns 8-bit integers.
Partial: only codes with fewer than 256 bits; `C15_uint8_disagreement` shows the claim fails beyond. -/
theorem C15_homogeneous_bitwise_count_partial (n : ℕ) (hn : 0 < n) (h8 : n < 256)
    (blockSize : ℤ) (L S : List (Fin n → ZMod 2)) :
    ∃ d, getDistanceQuantum 8 n blockSize true (L.map bitsOf) (S.map bitsOf) = some d ∧
      (L = [] → d = n) ∧ (L ≠ [] → IsMinProductWeight hammingNorm L S d) :=
  C15_homogeneous_width 8 n hn h8 (by omega) blockSize L S

/-- **C15** (`homogeneous = False`): the same for Pauli strings `[x | z]` and the number of qubits
acted on, for any integer width `wb` that can hold the number of qubits. -/
theorem C15_symplectic (wb n : ℕ) (hn : 0 < n) (hwb : n < 2 ^ wb) (h64 : n < 2 ^ 64)
    (blockSize : ℤ) (L S : List ((Fin n → ZMod 2) × (Fin n → ZMod 2))) :
    ∃ d, getDistanceQuantum wb (2 * n) blockSize false (L.map pauliBits) (S.map pauliBits) = some d ∧
      (L = [] → d = 2 * n) ∧ (L ≠ [] → IsMinProductWeight pauliWeight L S d) := by
  obtain ⟨U, h, hU⟩ := (isPacking_symplectic n hn).search
    (fun v => Prod.ext (zmod2_add_self v.1) (zmod2_add_self v.2)) wb (2 * n)
    (fun v => lt_of_le_of_lt (pauliWeight_le v) hwb)
    (fun v => lt_of_le_of_lt (pauliWeight_le v) h64) blockSize L S
  refine ⟨_, ?_, ?_, fun hL => minOver_spec _ (2 * n) L S U hL
    (fun v => (pauliWeight_le v).trans (by omega)) hU⟩
  · rw [← h]
    have hr : ∀ A : List ((Fin n → ZMod 2) × (Fin n → ZMod 2)),
        (A.map pauliBits).mapM riffle = some (A.map interleave) := by
      intro A
      induction A with
      | nil => rfl
      | cons a A ih => simp [List.mapM_cons, riffle_pauliBits, ih]
    simp [getDistanceQuantum, hr, List.map_map, Function.comp_def]
  · rintro rfl
    have : U = [] := List.eq_nil_iff_forall_not_mem.2 fun x hx => by
      obtain ⟨t, _, ht, hne, _⟩ := (hU x).1 hx
      exact hne (List.sublist_nil.1 ht)
    simp [this, minOver]

/-- With 8-bit first weights (numpy ≥ 2) and 256 bits the search of the model returns `0` for the
single logical operator `11…1`, whose weight is 256: the hypothesis `n < 2 ^ wb` is needed. -/
theorem C15_uint8_disagreement :
    getDistanceQuantum 8 256 15 true [List.replicate 256 true] [] = some 0 := by decide +kernel

-- the distance of the `[[4, 2]]` code's X logicals modulo XXXX, with everything vectorised …
example : getDistanceQuantum 64 4 15 true
    [[true, true, false, false], [true, false, true, false]] [[true, true, true, true]] =
      some 2 := by decide +kernel
-- … and with nothing vectorised (negative number of vectorised operators)
example : getDistanceQuantum 64 4 (-3) true
    [[true, true, false, false], [true, false, true, false]] [[true, true, true, true]] =
      some 2 := by decide +kernel

#print axioms C12_hamming
#print axioms C12_symplectic
#print axioms C12_symplectic_eq_hamming
#print axioms C13_pack_xor
#print axioms C13_pack_injective
#print axioms C13_hamming
#print axioms C13_symplectic
#print axioms C13_hamming_wraps
#print axioms C14_gray
#print axioms C14_ctz
#print axioms C15_homogeneous
#print axioms C15_homogeneous_width
#print axioms C15_homogeneous_bitwise_count_partial
#print axioms C15_symplectic
#print axioms C15_uint8_disagreement

/-! ### Instances of the theorems: concrete cases meet the hypotheses -/

example := C13_pack_xor [true, false, true] [true, true, false] rfl
example := C13_pack_injective [true, false, true] [true, false, true] rfl rfl
example := C13_hamming 8 [true, false, true] (by simp) (by decide)
example := C13_symplectic 8 (n := 3) (by decide) (by decide) (![1, 0, 1], ![0, 0, 1])
example := C14_ctz 12 (by decide)
example := C15_homogeneous_width 8 3 (by decide) (by decide) (by decide) 2 [![1, 1, 1]] [![1, 1, 0]]
example := C15_homogeneous 3 (by decide) (by decide) 2 [![1, 1, 1]] [![1, 1, 0]]
example := C15_homogeneous_bitwise_count_partial 3 (by decide) (by decide) 2 [![1, 1, 1]] [![1, 1, 0]]
example := C15_symplectic 8 2 (by decide) (by decide) (by decide) 2 [(![1, 1], ![0, 1])] [(![0, 0], ![1, 1])]

end QLDPC.Props
