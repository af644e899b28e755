import Verif.Lemmas.Search
import Mathlib.InformationTheory.Hamming
import Mathlib.Data.ZMod.Basic
import Mathlib.Data.List.OfFn
import Mathlib.Algebra.BigOperators.Fin

set_option linter.unusedSectionVars false

namespace QLDPC

/-- The bit string of a binary vector. -/
def bitsOf {n : ℕ} (v : Fin n → ZMod 2) : List Bool := List.ofFn fun i => decide (v i ≠ 0)

/-- The bit string `[x | z]` of a binary Pauli operator. -/
def pauliBits {n : ℕ} (p : (Fin n → ZMod 2) × (Fin n → ZMod 2)) : List Bool :=
  bitsOf p.1 ++ bitsOf p.2

/-- Number of qubits on which a binary Pauli operator acts nontrivially. -/
def pauliWeight {n : ℕ} (p : (Fin n → ZMod 2) × (Fin n → ZMod 2)) : ℕ :=
  (Finset.univ.filter fun i => p.1 i ≠ 0 ∨ p.2 i ≠ 0).card

theorem length_bitsOf {n : ℕ} (v : Fin n → ZMod 2) : (bitsOf v).length = n := by simp [bitsOf]

theorem bit_add : ∀ a b : ZMod 2, decide (a + b ≠ 0) = xor (decide (a ≠ 0)) (decide (b ≠ 0)) := by
  decide

theorem bitsOf_add {n : ℕ} (v w : Fin n → ZMod 2) :
    bitsOf (v + w) = List.zipWith xor (bitsOf v) (bitsOf w) := by
  apply List.ext_getElem
  · simp [bitsOf]
  · intro i h1 h2
    simp only [bitsOf, List.getElem_ofFn, List.getElem_zipWith, Pi.add_apply]
    exact bit_add _ _

theorem bitsOf_zero (n : ℕ) : bitsOf (0 : Fin n → ZMod 2) = List.replicate n false := by
  rw [List.eq_replicate_iff]
  refine ⟨length_bitsOf _, ?_⟩
  intro b hb
  simp only [bitsOf, List.mem_ofFn] at hb
  obtain ⟨i, rfl⟩ := hb
  simp

theorem count_ofFn {n : ℕ} (f : Fin n → Bool) :
    (List.ofFn f).count true = (Finset.univ.filter fun i => f i = true).card := by
  rw [Finset.card_filter]
  induction n with
  | zero => simp
  | succ n ih =>
    rw [List.ofFn_succ, List.count_cons, ih, Fin.sum_univ_succ]
    cases f 0 <;> simp [add_comm]

theorem count_bitsOf {n : ℕ} (v : Fin n → ZMod 2) : (bitsOf v).count true = hammingNorm v := by
  rw [bitsOf, count_ofFn, hammingNorm]
  simp

theorem range_two_mul_map {α : Type} (f : ℕ → α) (m : ℕ) :
    (List.range (2 * m)).map f = (List.range m).flatMap fun i => [f (2 * i), f (2 * i + 1)] := by
  induction m with
  | zero => simp
  | succ m ih =>
    rw [Nat.mul_succ, List.range_add, List.map_append, ih, List.range_succ (n := m),
      List.flatMap_append]
    simp [List.range_succ]

/-- interleaved bits -/
def interleave {n : ℕ} (p : (Fin n → ZMod 2) × (Fin n → ZMod 2)) : List Bool :=
  (List.finRange n).flatMap fun i => [decide (p.1 i ≠ 0), decide (p.2 i ≠ 0)]

theorem getD_bits_left {n : ℕ} (p : (Fin n → ZMod 2) × (Fin n → ZMod 2)) (i : Fin n) :
    (pauliBits p).getD i false = decide (p.1 i ≠ 0) := by
  rw [pauliBits, List.getD_append _ _ _ _ (by simp [length_bitsOf])]
  rw [List.getD_eq_getElem _ _ (by simp [length_bitsOf])]
  simp [bitsOf]

theorem getD_bits_right {n : ℕ} (p : (Fin n → ZMod 2) × (Fin n → ZMod 2)) (i : Fin n) :
    (pauliBits p).getD (n + i) false = decide (p.2 i ≠ 0) := by
  rw [pauliBits, List.getD_append_right _ _ _ _ (by simp [length_bitsOf]), length_bitsOf]
  rw [List.getD_eq_getElem _ _ (by simp [length_bitsOf])]
  simp [bitsOf]

theorem range_eq_finRange_map (n : ℕ) : List.range n = (List.finRange n).map (fun i => i.val) := by
  apply List.ext_getElem <;> simp

theorem riffle_pauliBits {n : ℕ} (p : (Fin n → ZMod 2) × (Fin n → ZMod 2)) :
    riffle (pauliBits p) = some (interleave p) := by
  have hlen : (pauliBits p).length = 2 * n := by simp [pauliBits, length_bitsOf]; ring
  unfold riffle
  rw [hlen, if_pos (by omega)]
  congr 1
  rw [range_two_mul_map, range_eq_finRange_map, List.flatMap_map, interleave]
  apply List.flatMap_congr
  intro i _
  have h1 : 2 * i.val % 2 * (2 * n / 2) + 2 * i.val / 2 = i.val := by
    rw [show 2 * i.val % 2 = 0 by omega, zero_mul]; omega
  have h2 : (2 * i.val + 1) % 2 * (2 * n / 2) + (2 * i.val + 1) / 2 = n + i.val := by
    rw [show (2 * i.val + 1) % 2 = 1 by omega, one_mul]; omega
  rw [h1, h2, getD_bits_left, getD_bits_right]

theorem length_interleave {n : ℕ} (p : (Fin n → ZMod 2) × (Fin n → ZMod 2)) :
    (interleave p).length = 2 * n := by
  rw [interleave, List.length_flatMap]
  simp; ring

theorem interleave_add {n : ℕ} (p q : (Fin n → ZMod 2) × (Fin n → ZMod 2)) :
    interleave (p + q) = List.zipWith xor (interleave p) (interleave q) := by
  unfold interleave
  generalize List.finRange n = l
  induction l with
  | nil => simp
  | cons i l ih =>
    simp only [List.flatMap_cons, List.cons_append, List.nil_append, List.zipWith_cons_cons, ih,
      Prod.fst_add, Prod.snd_add, Pi.add_apply]
    rw [bit_add, bit_add]
    simp only [Prod.fst_add, Prod.snd_add, Pi.add_apply] at ih
    rw [ih]

theorem interleave_zero (n : ℕ) :
    interleave (0 : (Fin n → ZMod 2) × (Fin n → ZMod 2)) = List.replicate (2 * n) false := by
  rw [List.eq_replicate_iff]
  refine ⟨length_interleave _, ?_⟩
  intro b hb
  simp [interleave] at hb
  exact hb.2

theorem pairCount_interleave {n : ℕ} (p : (Fin n → ZMod 2) × (Fin n → ZMod 2)) :
    pairCount (interleave p) = pauliWeight p := by
  have : ∀ l : List (Fin n), pairCount (l.flatMap fun i => [decide (p.1 i ≠ 0), decide (p.2 i ≠ 0)]) =
      (l.map fun i => if p.1 i ≠ 0 ∨ p.2 i ≠ 0 then 1 else 0).sum := by
    intro l
    induction l with
    | nil => simp [pairCount]
    | cons i l ih =>
      simp only [List.flatMap_cons, List.cons_append, List.nil_append, pairCount, ih, List.map_cons,
        List.sum_cons]
      congr 1
      by_cases h1 : p.1 i = 0 <;> by_cases h2 : p.2 i = 0 <;> simp [h1, h2]
  rw [interleave, this, pauliWeight, Finset.card_filter, ← List.ofFn_eq_map, List.sum_ofFn]

theorem isPacking_hamming (n : ℕ) (hn : 0 < n) :
    IsPacking hammingKernel ((n + 63) / 64) (hammingNorm : (Fin n → ZMod 2) → ℕ)
      (fun v => rowToInts (bitsOf v)) where
  add v w := by
    rw [bitsOf_add, rowToInts_xor _ _ (by simp [length_bitsOf])]
  zero := by
    rw [bitsOf_zero, rowToInts_zero]
  ne v h := by
    have := length_rowToInts (bitsOf v)
    rw [h, length_bitsOf] at this
    simp at this
    omega
  weight v := by rw [sum_hamming_row, count_bitsOf]

theorem isPacking_symplectic (n : ℕ) (hn : 0 < n) :
    IsPacking symplecticKernel ((2 * n + 63) / 64)
      (pauliWeight : (Fin n → ZMod 2) × (Fin n → ZMod 2) → ℕ)
      (fun v => rowToInts (interleave v)) where
  add v w := by
    rw [interleave_add, rowToInts_xor _ _ (by simp [length_interleave])]
  zero := by
    rw [interleave_zero, rowToInts_zero]
  ne v h := by
    have := length_rowToInts (interleave v)
    rw [h, length_interleave] at this
    simp at this
    omega
  weight v := by
    rw [sum_symplectic_row _ (by rw [length_interleave]; omega), pairCount_interleave]

theorem hammingNorm_le {n : ℕ} (v : Fin n → ZMod 2) : hammingNorm v ≤ n := by
  simpa using hammingNorm_le_card_fintype (x := v)

theorem pauliWeight_le {n : ℕ} (p : (Fin n → ZMod 2) × (Fin n → ZMod 2)) : pauliWeight p ≤ n := by
  unfold pauliWeight
  simpa using Finset.card_filter_le (Finset.univ : Finset (Fin n)) _

theorem zmod2_add_self {n : ℕ} (v : Fin n → ZMod 2) : v + v = 0 := by
  funext i
  exact (by decide : ∀ a : ZMod 2, a + a = 0) (v i)

end QLDPC
