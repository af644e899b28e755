import Verif.Model.Distance
import Verif.Lemmas.Popcount
import Mathlib.Algebra.BigOperators.Group.List.Basic
import Mathlib.Tactic.Abel
import Mathlib.Tactic.Linarith

set_option linter.unusedSectionVars false

namespace QLDPC

/-! ## `_count_trailing_zeros` -/

theorem size_two_mul (m : ℕ) (h : m ≠ 0) : (2 * m).size = m.size + 1 := by
  have := Nat.size_bit (b := false) (n := m) (by simpa [Nat.bit_val] using h)
  simpa [Nat.bit_val] using this

theorem ctz_eq (v : ℕ) (hv : v ≠ 0) : countTrailingZeros v = (Nat.ldiff v (v - 1)).size - 1 := by
  obtain ⟨w, rfl⟩ := Nat.exists_eq_succ_of_ne_zero hv
  rfl

theorem ldiff_odd (w : ℕ) : Nat.ldiff (2 * w + 1) (2 * w) = 1 := by
  have := Nat.ldiff_bit true w false w
  simp only [Nat.bit_val, Bool.toNat_true, Bool.toNat_false] at this
  rw [show 2 * w + 0 = 2 * w from rfl] at this
  rw [this]
  apply Nat.eq_of_testBit_eq
  intro i
  cases i <;> simp [Nat.testBit_succ, Nat.testBit_ldiff, Nat.testBit_zero]
  rename_i n
  rw [show (2 * Nat.ldiff w w + 1) / 2 = Nat.ldiff w w by omega, Nat.testBit_ldiff]
  simp

theorem ldiff_even (w : ℕ) (hw : w ≠ 0) :
    Nat.ldiff (2 * w) (2 * w - 1) = 2 * Nat.ldiff w (w - 1) := by
  have := Nat.ldiff_bit false w true (w - 1)
  simp only [Nat.bit_val, Bool.toNat_true, Bool.toNat_false] at this
  rw [show 2 * (w - 1) + 1 = 2 * w - 1 by omega] at this
  simpa using this

theorem ldiff_ne_zero (v : ℕ) (hv : v ≠ 0) : Nat.ldiff v (v - 1) ≠ 0 := by
  induction v using Nat.strong_induction_on with
  | _ v ih =>
    rcases Nat.even_or_odd' v with ⟨w, rfl | rfl⟩
    · have hw : w ≠ 0 := by omega
      rw [ldiff_even w hw]
      have := ih w (by omega) hw
      omega
    · rw [show 2 * w + 1 - 1 = 2 * w by omega, ldiff_odd]; decide

theorem ctz_odd (w : ℕ) : countTrailingZeros (2 * w + 1) = 0 := by
  rw [ctz_eq _ (by omega), show 2 * w + 1 - 1 = 2 * w by omega, ldiff_odd]
  rfl

theorem ctz_even (w : ℕ) (hw : w ≠ 0) :
    countTrailingZeros (2 * w) = countTrailingZeros w + 1 := by
  rw [ctz_eq _ (by omega), ctz_eq w hw, ldiff_even w hw, size_two_mul _ (ldiff_ne_zero w hw)]
  have : 0 < (Nat.ldiff w (w - 1)).size := Nat.size_pos.2 (Nat.pos_of_ne_zero (ldiff_ne_zero w hw))
  omega

theorem ctz_two_pow (k : ℕ) : countTrailingZeros (2 ^ k) = k := by
  induction k with
  | zero => exact ctz_odd 0
  | succ k ih => rw [pow_succ, mul_comm, ctz_even _ (by positivity), ih]

theorem ctz_two_pow_add (k i : ℕ) (hi : 0 < i) (hlt : i < 2 ^ k) :
    countTrailingZeros (2 ^ k + i) = countTrailingZeros i := by
  induction k generalizing i with
  | zero => simp at hlt; omega
  | succ k ih =>
    rcases Nat.even_or_odd' i with ⟨w, rfl | rfl⟩
    · rw [pow_succ, mul_comm (2 ^ k), ← Nat.mul_add, ctz_even _ (by omega), ctz_even _ (by omega),
        ih w (by omega) (by rw [pow_succ] at hlt; omega)]
    · rw [pow_succ, mul_comm (2 ^ k), ← Nat.add_assoc, ← Nat.mul_add, ctz_odd, ctz_odd]

/-- indices of the Gray-code walk -/
theorem range_ctz_succ (k : ℕ) :
    (List.range' 1 (2 ^ (k + 1) - 1)).map countTrailingZeros =
      (List.range' 1 (2 ^ k - 1)).map countTrailingZeros ++ [k] ++
        (List.range' 1 (2 ^ k - 1)).map countTrailingZeros := by
  have hk : 0 < 2 ^ k := by positivity
  have h1 : 2 ^ (k + 1) - 1 = (2 ^ k - 1) + (1 + (2 ^ k - 1)) := by rw [pow_succ]; omega
  rw [h1, ← List.range'_append_1, ← List.range'_append_1, List.map_append, List.map_append,
    show 1 + (2 ^ k - 1) = 2 ^ k by omega, List.append_assoc]
  congr 1
  congr 1
  · simp [ctz_two_pow]
  · rw [List.range'_eq_map_range, List.range'_eq_map_range, List.map_map, List.map_map]
    apply List.map_congr_left
    intro i hi
    have := List.mem_range.1 hi
    simp only [Function.comp]
    rw [Nat.add_assoc, ctz_two_pow_add k (1 + i) (by omega) (by omega)]

theorem ctz_lt (k i : ℕ) (hi : 0 < i) (hlt : i < 2 ^ k) : countTrailingZeros i < k := by
  induction k generalizing i with
  | zero => simp at hlt; omega
  | succ k ih =>
    rcases Nat.even_or_odd' i with ⟨w, rfl | rfl⟩
    · rw [ctz_even _ (by omega)]
      have := ih w (by omega) (by rw [pow_succ] at hlt; omega)
      omega
    · rw [ctz_odd]; omega

/-! ## `_inplace_rowsum` -/

theorem rowsumLoop_eq {w : ℕ} (fuel : ℕ) (arr : List (BitVec w)) (h : arr ≠ [])
    (hf : arr.length ≤ fuel) : rowsumLoop fuel arr = [arr.sum] := by
  induction fuel generalizing arr with
  | zero => simp at hf; exact absurd hf h
  | succ fuel ih =>
    rw [rowsumLoop]
    by_cases hl : arr.length > 1
    · rw [if_pos hl]
      have hlen : (List.zipWith (· + ·) (arr.take (arr.length / 2))
          ((arr.drop (arr.length - arr.length / 2)).take (arr.length / 2)) ++
        (arr.drop (arr.length / 2)).take (arr.length - arr.length / 2 - arr.length / 2)).length =
          arr.length - arr.length / 2 := by
        simp only [List.length_append, List.length_zipWith, List.length_take, List.length_drop]
        omega
      rw [ih _ _ (by rw [hlen]; omega)]
      · congr 1
        have hz : ∀ a b : List (BitVec w), a.length = b.length →
            (List.zipWith (· + ·) a b).sum = a.sum + b.sum := by
          intro a
          induction a with
          | nil => intro b hb; simp at hb; simp [List.length_eq_zero_iff.1 hb.symm]
          | cons x a iha =>
            intro b hb
            cases b with
            | nil => simp at hb
            | cons y b =>
              simp only [List.zipWith_cons_cons, List.sum_cons]
              rw [iha b (by simpa using hb)]
              ac_rfl
        have hthird : (arr.drop (arr.length - arr.length / 2)).take (arr.length / 2) =
            arr.drop (arr.length - arr.length / 2) := by
          apply List.take_of_length_le; simp; omega
        rw [hthird, List.sum_append, hz _ _ (by simp; omega)]
        have hsplit : arr = arr.take (arr.length / 2) ++
            ((arr.drop (arr.length / 2)).take (arr.length - arr.length / 2 - arr.length / 2) ++
              arr.drop (arr.length - arr.length / 2)) := by
          conv_lhs => rw [← List.take_append_drop (arr.length / 2) arr]
          congr 1
          conv_lhs => rw [← List.take_append_drop (arr.length - arr.length / 2 - arr.length / 2)
            (arr.drop (arr.length / 2))]
          rw [List.drop_drop]
          congr 2
          omega
        conv_rhs => rw [hsplit]
        rw [List.sum_append, List.sum_append]
        ac_rfl
      · intro h0
        rw [h0] at hlen
        simp at hlen
        omega
    · rw [if_neg hl]
      match arr, h, hl with
      | [x], _, _ => simp
      | _ :: _ :: _, _, hl => simp at hl

theorem inplaceRowsum_eq {w : ℕ} (arr : List (BitVec w)) (h : arr ≠ []) :
    inplaceRowsum arr = some arr.sum := by
  rw [inplaceRowsum, rowsumLoop_eq _ _ h le_rfl]
  rfl

/-! ## Packing -/

/-- Value of a bit string, most significant bit first. -/
def bitsVal : List Bool → ℕ
  | [] => 0
  | b :: l => b.toNat * 2 ^ l.length + bitsVal l

theorem bitsVal_lt (l : List Bool) : bitsVal l < 2 ^ l.length := by
  induction l with
  | nil => simp [bitsVal]
  | cons b l ih =>
    simp only [bitsVal, List.length_cons, pow_succ]
    cases b <;> simp <;> omega

theorem testBit_bitsVal (l : List Bool) (i : ℕ) :
    (bitsVal l).testBit i = l.reverse.getD i false := by
  induction l generalizing i with
  | nil => simp [bitsVal]
  | cons b l ih =>
    have hlt := bitsVal_lt l
    simp only [bitsVal, List.reverse_cons]
    rw [mul_comm, Nat.testBit_two_pow_mul_add _ hlt]
    by_cases hi : i < l.length
    · rw [if_pos hi, ih, List.getD_append _ _ _ _ (by simpa using hi)]
    · rw [if_neg hi, List.getD_append_right _ _ _ _ (by simpa using hi), List.length_reverse]
      cases h : i - l.length with
      | zero => cases b <;> simp
      | succ k => cases b <;> simp [Nat.testBit_succ]

theorem foldl_add_sum {w : ℕ} (l : List (BitVec w)) (a : BitVec w) :
    l.foldl (· + ·) a = a + l.sum := by
  induction l generalizing a with
  | nil => simp
  | cons x l ih => rw [List.foldl_cons, ih, List.sum_cons]; ac_rfl

theorem toInt_eq (l : List Bool) : toInt l = BitVec.ofNat 64 (bitsVal l) := by
  unfold toInt
  rw [foldl_add_sum]
  have key : ∀ (m : List Bool) (k N : ℕ), N = k + m.length →
      ((m.zipIdx k).map fun p => (BitVec.ofNat 64 p.1.toNat) <<< (N - 1 - p.2)).sum =
        BitVec.ofNat 64 (bitsVal m) := by
    intro m
    induction m with
    | nil => intros; simp [bitsVal]
    | cons b m ih =>
      intro k N hN
      rw [List.zipIdx_cons, List.map_cons, List.sum_cons, ih (k + 1) N (by simp at hN; omega)]
      simp only [bitsVal]
      have : N - 1 - k = m.length := by simp at hN; omega
      rw [this]
      apply BitVec.eq_of_toNat_eq
      simp [Nat.shiftLeft_eq, BitVec.toNat_add, Nat.add_mod]
  rw [key l 0 l.length (by simp)]
  simp

theorem toNat_toInt (l : List Bool) (h : l.length ≤ 64) : (toInt l).toNat = bitsVal l := by
  rw [toInt_eq, BitVec.toNat_ofNat]
  exact Nat.mod_eq_of_lt (lt_of_lt_of_le (bitsVal_lt l) (Nat.pow_le_pow_right (by omega) h))

theorem getLsbD_toInt (l : List Bool) (h : l.length ≤ 64) (i : ℕ) :
    (toInt l).getLsbD i = l.reverse.getD i false := by
  rw [← testBit_bitsVal, ← toNat_toInt l h]
  rfl

theorem zipWith_xor_append (a b c d : List Bool) (h : a.length = b.length) :
    List.zipWith xor (a ++ c) (b ++ d) = List.zipWith xor a b ++ List.zipWith xor c d := by
  rw [List.zipWith_append h]

theorem reverse_zipWith_xor (a b : List Bool) (h : a.length = b.length) :
    (List.zipWith xor a b).reverse = List.zipWith xor a.reverse b.reverse :=
  List.reverse_zipWith h

theorem toInt_xor (a b : List Bool) (h : a.length = b.length) (hl : a.length ≤ 64) :
    toInt (List.zipWith xor a b) = toInt a ^^^ toInt b := by
  apply BitVec.eq_of_getLsbD_eq
  intro i _
  rw [BitVec.getLsbD_xor, getLsbD_toInt _ (by simp [h]; omega), getLsbD_toInt _ hl,
    getLsbD_toInt _ (by omega), reverse_zipWith_xor a b h]
  generalize ha : a.reverse = a'
  generalize hb : b.reverse = b'
  have : a'.length = b'.length := by rw [← ha, ← hb]; simpa using h
  clear ha hb
  induction a' generalizing b' i with
  | nil =>
    have := List.length_eq_zero_iff.1 this.symm
    subst this
    simp
  | cons x a' iha =>
    cases b' with
    | nil => simp at this
    | cons y b' =>
      cases i with
      | zero => simp
      | succ i =>
        simp only [List.zipWith_cons_cons, List.getD_cons_succ]
        exact iha i (by omega) b' (by simpa using this)

theorem slices_xor (t : ℕ) (a b : List Bool) (h : a.length = b.length) :
    slices t (List.zipWith xor a b) = List.zipWith (List.zipWith xor) (slices t a) (slices t b) := by
  unfold slices
  rw [List.length_zipWith, h, min_self, List.zipWith_map, List.zipWith_self]
  apply List.map_congr_left
  intro k _
  rw [List.drop_zipWith, List.take_zipWith]

theorem length_slice_le (t : ℕ) (a s : List Bool) (h : s ∈ slices t a) : s.length ≤ t := by
  obtain ⟨k, _, rfl⟩ := List.mem_map.1 h
  simp

theorem rowToInts_xor (a b : List Bool) (h : a.length = b.length) :
    rowToInts (List.zipWith xor a b) = xorRow (rowToInts a) (rowToInts b) := by
  unfold rowToInts xorRow
  rw [slices_xor 64 a b h, List.map_zipWith, List.zipWith_map]
  unfold slices
  rw [h, List.zipWith_map, List.zipWith_map, List.zipWith_self, List.zipWith_self]
  apply List.map_congr_left
  intro k _
  exact toInt_xor _ _ (by simp [h]) (by simp)

theorem length_rowToInts (a : List Bool) : (rowToInts a).length = (a.length + 63) / 64 := by
  simp [rowToInts, slices]

theorem rowToInts_zero (n : ℕ) :
    rowToInts (List.replicate n false) = List.replicate ((n + 63) / 64) 0#64 := by
  rw [List.eq_replicate_iff]
  refine ⟨by rw [length_rowToInts]; simp, ?_⟩
  intro x hx
  simp only [rowToInts, slices, List.map_map, List.mem_map] at hx
  obtain ⟨k, _, rfl⟩ := hx
  simp only [Function.comp, List.drop_replicate, List.take_replicate]
  rw [toInt_eq]
  have : ∀ m, bitsVal (List.replicate m false) = 0 := by
    intro m
    induction m with
    | zero => rfl
    | succ m ih => simp [List.replicate_succ, bitsVal, ih]
  rw [this]

/-- concatenating the slices gives the row back -/
theorem flatten_slices (t : ℕ) (ht : 0 < t) (a : List Bool) : (slices t a).flatten = a := by
  have key : ∀ m, ((List.range m).map fun k => (a.drop (k * t)).take t).flatten = a.take (m * t) := by
    intro m
    induction m with
    | zero => simp
    | succ m ih =>
      rw [List.range_succ, List.map_append, List.flatten_append, ih, Nat.succ_mul, List.take_add]
      simp
  unfold slices
  rw [key, List.take_of_length_le]
  have h1 := Nat.div_add_mod (a.length + t - 1) t
  have h2 := Nat.mod_lt (a.length + t - 1) ht
  have : t * ((a.length + t - 1) / t) = (a.length + t - 1) / t * t := mul_comm _ _
  omega

/-! ## Weights of packed words -/

theorem sum_getD_range (l : List Bool) (K : ℕ) (h : l.length ≤ K) :
    ((List.range K).map fun i => (l.getD i false).toNat).sum = l.count true := by
  induction l generalizing K with
  | nil => simp
  | cons b l ih =>
    cases K with
    | zero => simp at h
    | succ K =>
      rw [List.range_succ_eq_map, List.map_cons, List.sum_cons, List.map_map]
      have := ih K (by simpa using h)
      simp only [Function.comp_def, List.getD_cons_succ, List.getD_cons_zero]
      rw [this, List.count_cons]
      cases b <;> simp [add_comm]

/-- number of pairs with a one -/
def pairCount : List Bool → ℕ
  | a :: b :: l => (a || b).toNat + pairCount l
  | _ => 0

theorem sum_getD_pairs (K : ℕ) (l : List Bool) (he : l.length % 2 = 0) (h : l.length ≤ 2 * K) :
    ((List.range K).map fun i => (l.getD (2 * i) false || l.getD (2 * i + 1) false).toNat).sum =
      pairCount l := by
  induction K generalizing l with
  | zero =>
    have : l = [] := List.length_eq_zero_iff.1 (by omega)
    subst this; simp [pairCount]
  | succ K ih =>
    match l, he, h with
    | [], _, _ => simp [pairCount]
    | [_], he, _ => simp at he
    | a :: b :: l, he, h =>
      rw [List.range_succ_eq_map, List.map_cons, List.sum_cons, List.map_map]
      have := ih l (by simp at he; omega) (by simp at h; omega)
      simp only [Function.comp_def, pairCount]
      rw [← this]
      congr 1

theorem pairCount_append (l m : List Bool) (he : l.length % 2 = 0) :
    pairCount (l ++ m) = pairCount l + pairCount m := by
  match l, he with
  | [], _ => simp [pairCount]
  | [_], he => simp at he
  | a :: b :: l, he =>
    simp only [List.cons_append, pairCount]
    rw [pairCount_append l m (by simp at he; omega)]
    omega

theorem pairCount_reverse (l : List Bool) (he : l.length % 2 = 0) :
    pairCount l.reverse = pairCount l := by
  match l, he with
  | [], _ => simp [pairCount]
  | [_], he => simp at he
  | a :: b :: l, he =>
    have hl : l.length % 2 = 0 := by simp at he; omega
    simp only [List.reverse_cons, List.append_assoc]
    rw [pairCount_append _ _ (by simpa using hl), pairCount_reverse l hl]
    simp [pairCount, Bool.or_comm, add_comm]

theorem toNat_kernel_toInt (l : List Bool) (h : l.length ≤ 64) :
    (hammingKernel (toInt l)).toNat = l.count true := by
  rw [toNat_hammingKernel, sum_bytes_pop8, toNat_toInt l h]
  simp only [testBit_bitsVal]
  rw [sum_getD_range _ _ (by simpa using h), List.count_reverse]

theorem toNat_symplecticKernel_toInt (l : List Bool) (h : l.length ≤ 64)
    (he : l.length % 2 = 0) : (symplecticKernel (toInt l)).toNat = pairCount l := by
  rw [toNat_symplecticKernel, sum_bytes_pair8, toNat_toInt l h]
  simp only [testBit_bitsVal]
  rw [sum_getD_pairs _ _ (by simpa using he) (by simpa using h), pairCount_reverse l he]

theorem toNat_sum_setWidth (kernel : BitVec 64 → BitVec 64) (wb : ℕ) (row : List (BitVec 64)) :
    (row.map fun x => (kernel x).setWidth wb).sum.toNat =
      (row.map fun x => (kernel x).toNat).sum % 2 ^ wb := by
  induction row with
  | nil => simp
  | cons x row ih =>
    simp only [List.map_cons, List.sum_cons]
    rw [BitVec.toNat_add, ih, BitVec.toNat_setWidth, ← Nat.add_mod]

theorem sum_hamming_row (a : List Bool) :
    ((rowToInts a).map fun x => (hammingKernel x).toNat).sum = a.count true := by
  have e : (slices 64 a).map (fun s => (hammingKernel (toInt s)).toNat) =
      (slices 64 a).map (List.count true) := by
    apply List.map_congr_left
    intro s hs
    exact toNat_kernel_toInt s (length_slice_le 64 a s hs)
  have e2 := List.count_flatten (a := true) (l := slices 64 a)
  rw [flatten_slices 64 (by omega) a] at e2
  rw [e2, ← e, rowToInts, List.map_map]
  simp only [Function.comp_def]

theorem pairCount_flatten (ls : List (List Bool)) (h : ∀ s ∈ ls, s.length % 2 = 0) :
    pairCount ls.flatten = (ls.map pairCount).sum := by
  induction ls with
  | nil => simp [pairCount]
  | cons s ls ih =>
    rw [List.flatten_cons, pairCount_append _ _ (h s (by simp)),
      ih fun t ht => h t (by simp [ht])]
    simp

theorem slice_even (a s : List Bool) (he : a.length % 2 = 0) (h : s ∈ slices 64 a) :
    s.length % 2 = 0 := by
  obtain ⟨k, _, rfl⟩ := List.mem_map.1 h
  simp only [List.length_take, List.length_drop]
  omega

theorem sum_symplectic_row (a : List Bool) (he : a.length % 2 = 0) :
    ((rowToInts a).map fun x => (symplecticKernel x).toNat).sum = pairCount a := by
  have e : (slices 64 a).map (fun s => (symplecticKernel (toInt s)).toNat) =
      (slices 64 a).map pairCount := by
    apply List.map_congr_left
    intro s hs
    exact toNat_symplecticKernel_toInt s (length_slice_le 64 a s hs) (slice_even a s he hs)
  have e2 := pairCount_flatten _ fun s hs => slice_even a s he hs
  rw [flatten_slices 64 (by omega) a] at e2
  rw [e2, ← e, rowToInts, List.map_map]
  simp only [Function.comp_def]

end QLDPC
