import Verif.Model.Popcount
import Mathlib.Algebra.BigOperators.Fin
import Mathlib.Data.Nat.Bitwise
import Mathlib.Tactic.IntervalCases
import Mathlib.Tactic.Ring

namespace QLDPC

/-- Little-endian base-256 number. -/
def ofBytes : List ℕ → ℕ
  | [] => 0
  | y :: ys => y + 256 * ofBytes ys

theorem land_byte (a0 a1 b0 b1 : ℕ) (ha : a0 < 256) (hb : b0 < 256) :
    (a0 + 256 * a1) &&& (b0 + 256 * b1) = (a0 &&& b0) + 256 * (a1 &&& b1) := by
  have hlt : (a0 &&& b0) < 256 := lt_of_le_of_lt Nat.and_le_left ha
  have hd : ((a0 + 256 * a1) &&& (b0 + 256 * b1)) / 2 ^ 8 = a1 &&& b1 := by
    rw [Nat.and_div_two_pow]
    congr 1 <;> omega
  have hm : ((a0 + 256 * a1) &&& (b0 + 256 * b1)) % 2 ^ 8 = a0 &&& b0 := by
    rw [Nat.and_mod_two_pow]
    congr 1 <;> omega
  have := Nat.div_add_mod ((a0 + 256 * a1) &&& (b0 + 256 * b1)) (2 ^ 8)
  rw [hd, hm] at this
  omega

theorem lor_byte (a0 a1 b0 b1 : ℕ) (ha : a0 < 256) (hb : b0 < 256) :
    (a0 + 256 * a1) ||| (b0 + 256 * b1) = (a0 ||| b0) + 256 * (a1 ||| b1) := by
  have hlt : (a0 ||| b0) < 2 ^ 8 := Nat.or_lt_two_pow (by omega) (by omega)
  have hd : ((a0 + 256 * a1) ||| (b0 + 256 * b1)) / 2 ^ 8 = a1 ||| b1 := by
    rw [Nat.or_div_two_pow]
    congr 1 <;> omega
  have hm : ((a0 + 256 * a1) ||| (b0 + 256 * b1)) % 2 ^ 8 = a0 ||| b0 := by
    rw [Nat.or_mod_two_pow]
    congr 1 <;> omega
  have := Nat.div_add_mod ((a0 + 256 * a1) ||| (b0 + 256 * b1)) (2 ^ 8)
  rw [hd, hm] at this
  omega

theorem mask55_byte : ∀ (y : Fin 256) (b : Fin 2),
    ((y.val / 2 + 128 * b.val) &&& 0x55) = (y.val / 2 &&& 0x55) := by decide +kernel

theorem mask33_byte : ∀ (y : Fin 256) (b : Fin 4),
    ((y.val / 4 + 64 * b.val) &&& 0x33) = (y.val / 4 &&& 0x33) := by decide +kernel

/-- stage 1, both kernels: `(x >> 1) & mask55` byte by byte. -/
theorem shr1_mask (y x' m : ℕ) (hy : y < 256) :
    ((y + 256 * x') / 2) &&& (0x55 + 256 * m) = (y / 2 &&& 0x55) + 256 * (x' / 2 &&& m) := by
  have h1 : (y + 256 * x') / 2 = (y / 2 + 128 * (x' % 2)) + 256 * (x' / 2) := by omega
  rw [h1, land_byte _ _ _ _ (by omega) (by omega)]
  congr 1
  exact mask55_byte ⟨y, hy⟩ ⟨x' % 2, by omega⟩

theorem shr2_mask (y x' m : ℕ) (hy : y < 256) :
    ((y + 256 * x') / 4) &&& (0x33 + 256 * m) = (y / 4 &&& 0x33) + 256 * (x' / 4 &&& m) := by
  have h1 : (y + 256 * x') / 4 = (y / 4 + 64 * (x' % 4)) + 256 * (x' / 4) := by omega
  rw [h1, land_byte _ _ _ _ (by omega) (by omega)]
  congr 1
  exact mask33_byte ⟨y, hy⟩ ⟨x' % 4, by omega⟩

/-- Byte versions of the stages. -/
def st1 (y : ℕ) : ℕ := y - (y / 2 &&& 0x55)
def st1s (y : ℕ) : ℕ := (y / 2 ||| y) &&& 0x55
def st2 (y : ℕ) : ℕ := (y &&& 0x33) + (y / 4 &&& 0x33)
def st3 (y : ℕ) : ℕ := (y + y / 16) &&& 0x0F

/-- number of ones / nonzero pairs in a byte. -/
def pop8 (y : ℕ) : ℕ := ((List.range 8).map fun i => (y.testBit i).toNat).sum
def pair8 (y : ℕ) : ℕ :=
  ((List.range 4).map fun i => (y.testBit (2 * i) || y.testBit (2 * i + 1)).toNat).sum

theorem st_pop : ∀ y : Fin 256, st3 (st2 (st1 y)) = pop8 y ∧ (y.val / 2 &&& 0x55) ≤ y.val ∧
    st1 y < 256 ∧ pop8 y ≤ 8 := by decide +kernel
theorem st_pair : ∀ y : Fin 256, st3 (st2 (st1s y)) = pair8 y ∧ st1s y < 256 ∧ pair8 y ≤ 4 := by
  decide +kernel
/-- after stage 2 both nibbles are at most 6 (each is a sum of two 2-bit fields). -/
theorem st2_bound : ∀ y : Fin 256, st2 y % 16 ≤ 6 ∧ st2 y / 16 ≤ 6 := by decide +kernel
theorem st3_high : ∀ (z : Fin 256) (h : Fin 7), z.val % 16 ≤ 6 → z.val / 16 ≤ 6 →
    ((z.val + z.val / 16 + 16 * h.val) &&& 0x0F) = ((z.val + z.val / 16) &&& 0x0F) := by
  decide +kernel
theorem st1s_high : ∀ (y : Fin 256) (b : Fin 2),
    (((y.val / 2 + 128 * b.val) ||| y.val) &&& 0x55) = ((y.val / 2 ||| y.val) &&& 0x55) := by
  decide +kernel

/-- the mask with byte `c` repeated `m` times -/
def rep (c : ℕ) : ℕ → ℕ
  | 0 => 0
  | m + 1 => c + 256 * rep c m

theorem ofBytes_shr1_mask (l : List ℕ) (h : ∀ y ∈ l, y < 256) :
    (ofBytes l / 2) &&& rep 0x55 l.length = ofBytes (l.map fun y => y / 2 &&& 0x55) := by
  induction l with
  | nil => simp [ofBytes, rep]
  | cons y ys ih =>
    simp only [ofBytes, rep, List.length_cons, List.map_cons]
    rw [shr1_mask _ _ _ (h y (by simp)), ih fun z hz => h z (by simp [hz])]

theorem ofBytes_st1 (l : List ℕ) (h : ∀ y ∈ l, y < 256) :
    ofBytes (l.map fun y => y / 2 &&& 0x55) + ofBytes (l.map st1) = ofBytes l := by
  induction l with
  | nil => simp [ofBytes]
  | cons y ys ih =>
    have := ih fun z hz => h z (by simp [hz])
    have h2 := (st_pop ⟨y, h y (by simp)⟩).2.1
    simp only [ofBytes, List.map_cons, st1] at *
    omega

theorem ofBytes_st1s (l : List ℕ) (h : ∀ y ∈ l, y < 256) :
    ((ofBytes l / 2) ||| ofBytes l) &&& rep 0x55 l.length = ofBytes (l.map st1s) := by
  induction l with
  | nil => simp [ofBytes, rep]
  | cons y ys ih =>
    have hy := h y (by simp)
    simp only [ofBytes, rep, List.length_cons, List.map_cons]
    have h1 : (y + 256 * ofBytes ys) / 2 =
        (y / 2 + 128 * (ofBytes ys % 2)) + 256 * (ofBytes ys / 2) := by omega
    rw [h1, lor_byte _ _ _ _ (by omega) hy, land_byte, ih fun z hz => h z (by simp [hz])]
    · congr 1
      exact st1s_high ⟨y, hy⟩ ⟨_, Nat.mod_lt _ (by omega)⟩
    · exact Nat.or_lt_two_pow (n := 8) (by omega) (by omega)
    · omega

theorem ofBytes_st2 (l : List ℕ) (h : ∀ y ∈ l, y < 256) :
    (ofBytes l &&& rep 0x33 l.length) + ((ofBytes l / 4) &&& rep 0x33 l.length) =
      ofBytes (l.map st2) := by
  induction l with
  | nil => simp [ofBytes, rep]
  | cons y ys ih =>
    have hy := h y (by simp)
    have := ih fun z hz => h z (by simp [hz])
    simp only [ofBytes, rep, List.length_cons, List.map_cons]
    rw [shr2_mask _ _ _ hy, land_byte _ _ _ _ hy (by omega), ← this, st2]
    ring

theorem ofBytes_st3 (l : List ℕ) (h : ∀ y ∈ l, y % 16 ≤ 6 ∧ y / 16 ≤ 6) :
    (ofBytes l + ofBytes l / 16) &&& rep 0x0F l.length = ofBytes (l.map st3) := by
  induction l with
  | nil => simp [ofBytes, rep]
  | cons y ys ih =>
    have hy := h y (by simp)
    have := ih fun z hz => h z (by simp [hz])
    simp only [ofBytes, rep, List.length_cons, List.map_cons]
    have hlow : ofBytes ys % 16 ≤ 6 := by
      cases ys with
      | nil => simp [ofBytes]
      | cons z zs =>
        have := h z (by simp)
        simp only [ofBytes]
        omega
    have h1 : (y + 256 * ofBytes ys) + (y + 256 * ofBytes ys) / 16 =
        (y + y / 16 + 16 * (ofBytes ys % 16)) + 256 * (ofBytes ys + ofBytes ys / 16) := by omega
    rw [h1, land_byte _ _ _ _ (by omega) (by omega), this]
    congr 1
    exact st3_high ⟨y, by omega⟩ ⟨_, by omega⟩ hy.1 hy.2

theorem ofBytes_lt (l : List ℕ) (h : ∀ y ∈ l, y < 256) : ofBytes l < 256 ^ l.length := by
  induction l with
  | nil => simp [ofBytes]
  | cons y ys ih =>
    have hy := h y (by simp)
    have := ih fun z hz => h z (by simp [hz])
    simp only [ofBytes, List.length_cons, pow_succ]
    omega

/-- Little-endian bytes of a word. -/
def bytes : ℕ → ℕ → List ℕ
  | 0, _ => []
  | m + 1, x => (x % 256) :: bytes m (x / 256)

theorem length_bytes (m x : ℕ) : (bytes m x).length = m := by
  induction m generalizing x with
  | zero => rfl
  | succ m ih => simp [bytes, ih]

theorem bytes_lt (m x : ℕ) : ∀ y ∈ bytes m x, y < 256 := by
  induction m generalizing x with
  | zero => simp [bytes]
  | succ m ih =>
    intro y hy
    rcases List.mem_cons.1 hy with h | h
    · omega
    · exact ih _ _ h

theorem ofBytes_bytes (m x : ℕ) (h : x < 256 ^ m) : ofBytes (bytes m x) = x := by
  induction m generalizing x with
  | zero => simp at h; simp [bytes, ofBytes, h]
  | succ m ih =>
    rw [bytes, ofBytes, ih]
    · omega
    · rw [pow_succ] at h; omega

/-- the final multiply-and-shift adds up eight small bytes -/
theorem mul_shift (l : List ℕ) (hl : l.length = 8) (h : ∀ y ∈ l, y ≤ 8) :
    (ofBytes l * 0x0101010101010101 % 2 ^ 64) / 2 ^ 56 = l.sum := by
  match l, hl with
  | [a, b, c, d, e, f, g, i], _ =>
    simp only [List.mem_cons, List.not_mem_nil, or_false, forall_eq_or_imp, forall_eq] at h
    obtain ⟨h1, h2, h3, h4, h5, h6, h7, h8⟩ := h
    simp only [ofBytes, List.sum_cons, List.sum_nil]
    have key : (a + 256 * (b + 256 * (c + 256 * (d + 256 * (e + 256 * (f + 256 * (g + 256 *
        (i + 256 * 0)))))))) * 0x0101010101010101 =
        (a + 256 * (a + b) + 256 ^ 2 * (a + b + c) + 256 ^ 3 * (a + b + c + d) +
          256 ^ 4 * (a + b + c + d + e) + 256 ^ 5 * (a + b + c + d + e + f) +
          256 ^ 6 * (a + b + c + d + e + f + g)) +
          2 ^ 56 * (a + b + c + d + e + f + g + i) +
          2 ^ 64 * ((b + c + d + e + f + g + i) + 256 * (c + d + e + f + g + i) +
            256 ^ 2 * (d + e + f + g + i) + 256 ^ 3 * (e + f + g + i) + 256 ^ 4 * (f + g + i) +
            256 ^ 5 * (g + i) + 256 ^ 6 * i) := by ring
    rw [key]
    have aux : ∀ lo S hi : ℕ, lo < 2 ^ 56 → S < 256 →
        (lo + 2 ^ 56 * S + 2 ^ 64 * hi) % 2 ^ 64 / 2 ^ 56 = S := by
      intro lo S hi h1 h2
      omega
    rw [aux]
    · ring
    · clear key aux; omega
    · clear key aux; omega

theorem toNat_sumFields (x : BitVec 64) (l : List ℕ) (hx : x.toNat = ofBytes l)
    (hl : l.length = 8) (hlt : ∀ y ∈ l, y < 256) (h8 : ∀ y ∈ l, st3 (st2 y) ≤ 8) :
    (sumFields x).toNat = (l.map fun y => st3 (st2 y)).sum := by
  have hb2 : ∀ y ∈ l.map st2, y % 16 ≤ 6 ∧ y / 16 ≤ 6 := by
    intro y hy
    obtain ⟨z, hz, rfl⟩ := List.mem_map.1 hy
    exact st2_bound ⟨z, hlt z hz⟩
  have m33 : (0x3333333333333333 : ℕ) = rep 0x33 l.length := by rw [hl]; decide
  have m0F : (0x0F0F0F0F0F0F0F0F : ℕ) = rep 0x0F l.length := by rw [hl]; decide
  have e2 := ofBytes_st2 l hlt
  have lt2 : ofBytes (l.map st2) < 2 ^ 63 := by
    match l, hl with
    | [a, b, c, d, e, f, g, i], _ =>
      simp only [List.map_cons, List.map_nil, List.mem_cons, List.not_mem_nil, or_false,
        forall_eq_or_imp, forall_eq] at hb2
      simp only [List.map_cons, List.map_nil, ofBytes]
      omega
  simp only [sumFields]
  have s2 : ((x &&& mask33) + ((x >>> 2) &&& mask33)).toNat = ofBytes (l.map st2) := by
    have : ((x &&& mask33).toNat + ((x >>> 2) &&& mask33).toNat) = ofBytes (l.map st2) := by
      rw [← e2, BitVec.toNat_and, BitVec.toNat_and, BitVec.toNat_ushiftRight, hx,
        Nat.shiftRight_eq_div_pow]
      rw [show mask33.toNat = rep 0x33 l.length by rw [← m33]; decide]
    rw [BitVec.toNat_add, this, Nat.mod_eq_of_lt (by omega)]
  generalize (x &&& mask33) + ((x >>> 2) &&& mask33) = w at s2 ⊢
  have s3 : ((w + w >>> 4) &&& mask0F).toNat = ofBytes ((l.map st2).map st3) := by
    rw [BitVec.toNat_and, BitVec.toNat_add, BitVec.toNat_ushiftRight, s2,
      Nat.shiftRight_eq_div_pow, Nat.mod_eq_of_lt (by omega)]
    rw [← ofBytes_st3 _ hb2]
    rw [List.length_map, ← m0F]
    rfl
  rw [BitVec.toNat_ushiftRight, BitVec.toNat_mul, s3, Nat.shiftRight_eq_div_pow]
  rw [show mask01.toNat = 0x0101010101010101 by decide, mul_shift _ (by simpa using hl)]
  · rw [List.map_map]; rfl
  · intro y hy
    simp only [List.mem_map] at hy
    obtain ⟨_, ⟨z, hz, rfl⟩, rfl⟩ := hy
    exact h8 z hz

theorem toNat_hammingKernel (x : BitVec 64) :
    (hammingKernel x).toNat = ((bytes 8 x.toNat).map pop8).sum := by
  have hl := length_bytes 8 x.toNat
  have hlt := bytes_lt 8 x.toNat
  have hx : x.toNat = ofBytes (bytes 8 x.toNat) := (ofBytes_bytes 8 _ (by simpa using x.isLt)).symm
  generalize bytes 8 x.toNat = l at hl hlt hx
  have m55 : mask55.toNat = rep 0x55 l.length := by rw [hl]; decide
  have e1 := ofBytes_st1 l hlt
  have s1 : (x - ((x >>> 1) &&& mask55)).toNat = ofBytes (l.map st1) := by
    have hand : ((x >>> 1) &&& mask55).toNat = ofBytes (l.map fun y => y / 2 &&& 0x55) := by
      rw [BitVec.toNat_and, BitVec.toNat_ushiftRight, Nat.shiftRight_eq_div_pow, m55, hx]
      exact ofBytes_shr1_mask l hlt
    have := x.isLt
    rw [BitVec.toNat_sub, hand]
    omega
  simp only [hammingKernel]
  rw [toNat_sumFields _ _ s1 (by simpa using hl)]
  · rw [List.map_map]
    congr 1
    apply List.map_congr_left
    intro y hy
    exact (st_pop ⟨y, hlt y hy⟩).1
  · intro y hy
    obtain ⟨z, hz, rfl⟩ := List.mem_map.1 hy
    exact (st_pop ⟨z, hlt z hz⟩).2.2.1
  · intro y hy
    obtain ⟨z, hz, rfl⟩ := List.mem_map.1 hy
    have := st_pop ⟨z, hlt z hz⟩
    rw [show st3 (st2 (st1 z)) = pop8 z from this.1]
    exact this.2.2.2

theorem toNat_symplecticKernel (x : BitVec 64) :
    (symplecticKernel x).toNat = ((bytes 8 x.toNat).map pair8).sum := by
  have hl := length_bytes 8 x.toNat
  have hlt := bytes_lt 8 x.toNat
  have hx : x.toNat = ofBytes (bytes 8 x.toNat) := (ofBytes_bytes 8 _ (by simpa using x.isLt)).symm
  generalize bytes 8 x.toNat = l at hl hlt hx
  have m55 : mask55.toNat = rep 0x55 l.length := by rw [hl]; decide
  have s1 : (((x >>> 1) ||| x) &&& mask55).toNat = ofBytes (l.map st1s) := by
    rw [BitVec.toNat_and, BitVec.toNat_or, BitVec.toNat_ushiftRight, Nat.shiftRight_eq_div_pow,
      m55, hx]
    exact ofBytes_st1s l hlt
  simp only [symplecticKernel]
  rw [toNat_sumFields _ _ s1 (by simpa using hl)]
  · rw [List.map_map]
    congr 1
    apply List.map_congr_left
    intro y hy
    exact (st_pair ⟨y, hlt y hy⟩).1
  · intro y hy
    obtain ⟨z, hz, rfl⟩ := List.mem_map.1 hy
    exact (st_pair ⟨z, hlt z hz⟩).2.1
  · intro y hy
    obtain ⟨z, hz, rfl⟩ := List.mem_map.1 hy
    have := st_pair ⟨z, hlt z hz⟩
    rw [show st3 (st2 (st1s z)) = pair8 z from this.1]
    have := this.2.2
    exact le_trans this (by omega)

theorem sum_bytes_testBit (f : ℕ → ℕ) (g : (ℕ → Bool) → ℕ) (m : ℕ)
    (hg : ∀ y < 256, f y = g fun i => decide (i < 8) && y.testBit i) (x : ℕ) :
    ((bytes m x).map f).sum =
      ((List.range m).map fun k => g fun i => decide (i < 8) && x.testBit (8 * k + i)).sum := by
  induction m generalizing x with
  | zero => simp [bytes]
  | succ m ih =>
    rw [bytes, List.map_cons, List.sum_cons, ih, List.range_succ_eq_map, List.map_cons,
      List.sum_cons, List.map_map, hg _ (Nat.mod_lt _ (by omega))]
    congr 2
    · funext i
      rw [show 256 = 2 ^ 8 by norm_num, Nat.testBit_mod_two_pow]
      by_cases hi : i < 8 <;> simp [hi]
    · apply List.map_congr_left
      intro k _
      simp only [Function.comp]
      congr 1
      funext i
      rw [show 256 = 2 ^ 8 by norm_num, Nat.testBit_div_two_pow]
      congr 2
      omega

theorem sum_range_blocks (c : ℕ) (h : ℕ → ℕ) (m : ℕ) :
    ((List.range m).map fun k => ((List.range c).map fun i => h (c * k + i)).sum).sum =
      ((List.range (c * m)).map h).sum := by
  induction m with
  | zero => simp
  | succ m ih =>
    rw [List.range_succ, List.map_append, List.sum_append, ih, Nat.mul_succ, List.range_add,
      List.map_append, List.sum_append, List.map_map]
    simp [Function.comp_def]

theorem sum_bytes_pop8 (x : ℕ) :
    ((bytes 8 x).map pop8).sum = ((List.range 64).map fun i => (x.testBit i).toNat).sum := by
  rw [sum_bytes_testBit pop8
    (fun b => ((List.range 8).map fun i => (b i).toNat).sum)]
  · rw [show 64 = 8 * 8 from rfl, ← sum_range_blocks]
    congr 1
  · intro y _
    unfold pop8
    congr 1

theorem sum_bytes_pair8 (x : ℕ) :
    ((bytes 8 x).map pair8).sum =
      ((List.range 32).map fun i => (x.testBit (2 * i) || x.testBit (2 * i + 1)).toNat).sum := by
  rw [sum_bytes_testBit pair8
    (fun b => ((List.range 4).map fun i => (b (2 * i) || b (2 * i + 1)).toNat).sum)]
  · rw [show 32 = 4 * 8 from rfl, ← sum_range_blocks]
    congr 1
  · intro y _
    unfold pair8
    congr 1

end QLDPC
