import Verif.Lemmas.ExtHamming
import Verif.Lemmas.ReedMuller

/-! The extended Hamming code as a Reed-Muller code. -/

set_option linter.unusedSectionVars false

namespace QLDPC

open Spec

variable {F : Type} [Field F] [DecidableEq F] {n m : ℕ}

theorem length_bits (r : ℕ) : (productRepeat ([0, 1] : List F) r).length = pow2 r := by
  rw [length_productRepeat, pow2_eq]; rfl

/-- bit `i` of the number of a position -/
def coord (F : Type) [Field F] [DecidableEq F] (r i : ℕ) : Fin (pow2 r) → F := fun j =>
  ((productRepeat ([0, 1] : List F) r).getD j []).getD i 0

theorem bits_succ (r : ℕ) : productRepeat ([0, 1] : List F) (r + 1) =
    (productRepeat [0, 1] r).map (0 :: ·) ++ (productRepeat [0, 1] r).map (1 :: ·) := by
  simp [productRepeat]

theorem bits_left (r : ℕ) (j : Fin (pow2 r)) :
    (productRepeat ([0, 1] : List F) (r + 1)).getD j [] = 0 :: (productRepeat ([0, 1] : List F) r).getD j [] := by
  have hj : j.val < (productRepeat ([0, 1] : List F) r).length := by rw [length_bits]; exact j.isLt
  rw [bits_succ, List.getD_append _ _ _ _ (by simpa using hj), List.getD_eq_getElem _ _ (by simpa using hj),
    List.getD_eq_getElem _ _ hj, List.getElem_map]

theorem bits_right (r : ℕ) (j : Fin (pow2 r)) :
    (productRepeat ([0, 1] : List F) (r + 1)).getD (pow2 r + j) []
      = 1 :: (productRepeat ([0, 1] : List F) r).getD j [] := by
  have hj : j.val < (productRepeat ([0, 1] : List F) r).length := by rw [length_bits]; exact j.isLt
  rw [bits_succ, List.getD_append_right _ _ _ _ (by simp [length_bits])]
  simp only [List.length_map, length_bits, Nat.add_sub_cancel_left]
  rw [List.getD_eq_getElem _ _ (by simpa using hj), List.getD_eq_getElem _ _ hj, List.getElem_map]

theorem coord_zero (r : ℕ) : coord F (r + 1) 0 = Fin.append (0 : Fin (pow2 r) → F) (1 : Fin (pow2 r) → F) := by
  funext j
  refine Fin.addCases (fun j => ?_) (fun j => ?_) j
  · rw [Fin.append_left]
    exact (congrArg (fun l => List.getD l 0 (0 : F)) (bits_left r j))
  · rw [Fin.append_right]
    exact (congrArg (fun l => List.getD l 0 (0 : F)) (bits_right r j))

theorem coord_succ (r i : ℕ) : coord F (r + 1) (i + 1) = Fin.append (coord F r i) (coord F r i) := by
  funext j
  refine Fin.addCases (fun j => ?_) (fun j => ?_) j
  · rw [Fin.append_left]
    exact (congrArg (fun l => List.getD l (i + 1) (0 : F)) (bits_left r j))
  · rw [Fin.append_right]
    exact (congrArg (fun l => List.getD l (i + 1) (0 : F)) (bits_right r j))

/-- Orthogonal to the constants and all bits. -/
def AffineChecks (r : ℕ) (w : Fin (pow2 r) → F) : Prop :=
  ∑ j, w j = 0 ∧ ∀ i < r, ∑ j, coord F r i j * w j = 0

theorem affineChecks_succ (r : ℕ) (a b : Fin (pow2 r) → F) :
    AffineChecks (r + 1) (Fin.append a b) ↔ AffineChecks r (a + b) ∧ ∑ j, b j = 0 := by
  have h0 : ∑ j, Fin.append a b j = ∑ j, (a + b) j := by
    rw [Fin.sum_univ_add]
    simp [Fin.append_left, Fin.append_right, -Fin.natAdd_eq_addNat, Finset.sum_add_distrib]
  have h1 : ∑ j, coord F (r + 1) 0 j * Fin.append a b j = ∑ j, b j := by
    rw [coord_zero]
    refine (sum_append_mul _ _ _ _).trans ?_
    simp
  have h2 : ∀ i, ∑ j, coord F (r + 1) (i + 1) j * Fin.append a b j = ∑ j, coord F r i j * (a + b) j := by
    intro i
    rw [coord_succ]
    refine (sum_append_mul _ _ _ _).trans ?_
    simp [mul_add, Finset.sum_add_distrib]
  unfold AffineChecks
  constructor
  · rintro ⟨g0, g⟩
    refine ⟨⟨h0.symm.trans g0, fun i hi => (h2 i).symm.trans (g (i + 1) (by omega))⟩,
      h1.symm.trans (g 0 (by omega))⟩
  · rintro ⟨⟨g0, g⟩, g1⟩
    refine ⟨h0.trans g0, fun i hi => ?_⟩
    cases i with
    | zero => exact h1.trans g1
    | succ i => exact (h2 i).trans (g i (by omega))

theorem affineChecks_iff (r : ℕ) (w : Fin (pow2 (r + 1)) → F) :
    AffineChecks (r + 1) w ↔ w ∈ orth (rmSpace F 1 (r + 1)) := by
  have hconst : ∀ m (w : Fin (pow2 m) → F), w ∈ orth (rmSpace F 0 m) ↔ ∑ i, w i = 0 := by
    intro m w
    constructor
    · intro h
      simpa using h (fun _ => 1) ((mem_rm_zero m _).2 ⟨1, rfl⟩)
    · intro h v hv
      obtain ⟨x, rfl⟩ := (mem_rm_zero m v).1 hv
      rw [← Finset.mul_sum, h, mul_zero]
  induction r with
  | zero =>
    rw [rm_self]
    obtain ⟨a, b, rfl⟩ := exists_append (n := pow2 0) w
    refine (affineChecks_succ 0 a b).trans ?_
    have one : ∀ a : Fin (pow2 0) → F, ∑ j, a j = 0 ↔ a = 0 := by
      intro a
      have e : ∑ j, a j = a ⟨0, by decide⟩ := Fin.sum_univ_one (fun i : Fin 1 => a i)
      rw [e]
      constructor
      · intro h; funext i
        have : i = ⟨0, by decide⟩ := Subsingleton.elim (h := inferInstanceAs (Subsingleton (Fin 1))) _ _
        rw [this]; exact h
      · rintro rfl; rfl
    constructor
    · rintro ⟨⟨h1, _⟩, h2⟩
      rw [one] at h1 h2
      subst h2
      rw [add_zero] at h1
      subst h1
      intro v _
      refine Finset.sum_eq_zero fun i _ => ?_
      refine Fin.addCases (fun j => ?_) (fun j => ?_) i
      · rw [Fin.append_left]; simp
      · rw [Fin.append_right]; simp
    · intro h
      have key : ∀ u : Fin (pow2 0 + pow2 0) → F, ∑ i, u i * Fin.append a b i = 0 := fun u => h u trivial
      have ha : ∀ u v : Fin (pow2 0) → F, ∑ i, u i * a i + ∑ i, v i * b i = 0 := fun u v =>
        (sum_append_mul u v a b).symm.trans (key (Fin.append u v))
      have h1 := ha 1 0
      have h2 := ha 0 1
      simp only [Pi.one_apply, one_mul, Pi.zero_apply, zero_mul, Finset.sum_const_zero, add_zero,
        zero_add] at h1 h2
      refine ⟨⟨?_, fun i hi => by omega⟩, h2⟩
      simp [Finset.sum_add_distrib, h1, h2]
  | succ r ih =>
    obtain ⟨a, b, rfl⟩ := exists_append (n := pow2 (r + 1)) w
    refine (affineChecks_succ (r + 1) a b).trans ((mem_orth_succ (r := 0) (by omega) a b).trans ?_).symm
    exact and_congr (ih _).symm (hconst _ _)

theorem isWord_bits {r : ℕ} (w : Fin ((bitColumns F r).length + 1) → F)
    (hl : pow2 r = (bitColumns F r).length + 1) :
    IsWord (fromColumns r (bitColumns F r)) (Fin.tail w) ↔
      ∀ i < r, ∑ j, coord F r i j * w (Fin.cast hl j) = 0 := by
  have hsum : ∀ i, ∑ j, coord F r i j * w (Fin.cast hl j)
      = ∑ j, ((bitColumns F r).get j).getD i 0 * Fin.tail w j := by
    intro i
    rw [← Equiv.sum_comp (finCongr hl.symm)]
    rw [Fin.sum_univ_succ]
    have h0 : coord F r i (finCongr hl.symm 0) = 0 := by
      obtain ⟨l, hh⟩ := productRepeat_head (0 : F) [1] r
      have : ((productRepeat ([0, 1] : List F) r).getD 0 []).getD i 0 = 0 := by
        rw [hh, List.getD_cons_zero]
        simp only [List.getD_eq_getElem?_getD, List.getElem?_replicate]
        split <;> rfl
      exact this
    rw [h0, zero_mul, zero_add]
    refine Finset.sum_congr rfl fun j _ => ?_
    congr 1
    have hj : j.val + 1 < (productRepeat ([0, 1] : List F) r).length := by
      have := j.isLt
      rw [length_bits]; omega
    have e : (productRepeat ([0, 1] : List F) r).getD (j.val + 1) [] = (bitColumns F r).get j := by
      rw [List.getD_eq_getElem _ _ hj]
      apply Option.some.inj
      rw [← List.getElem?_eq_getElem hj, List.get_eq_getElem, ← List.getElem?_eq_getElem j.isLt]
      have : ∀ k : ℕ, (bitColumns F r)[k]? = (productRepeat ([0, 1] : List F) r)[k + 1]? := by
        intro k
        rw [bitColumns, List.getElem?_drop, Nat.add_comm]
      exact (this j).symm
    exact congrArg (fun l => List.getD l i (0 : F)) e
  constructor
  · intro h i hi
    rw [hsum]
    exact h (fun j => ((bitColumns F r).get j).getD i 0) (List.mem_map.2 ⟨i, List.mem_range.2 hi, rfl⟩)
  · intro h v hv
    obtain ⟨i, hi, rfl⟩ := List.mem_map.1 hv
    rw [← hsum]
    exact h i (List.mem_range.1 hi)

theorem extended_eq_rm (hb : IsBinary F) {r : ℕ} (hr : 2 ≤ r) {c : CCode F ((bitColumns F r).length + 1)}
    (hc : extendedHammingCode F r = some c) (hl : pow2 r = (bitColumns F r).length + 1)
    (w : Fin ((bitColumns F r).length + 1) → F) :
    IsWord c.matrix w ↔ (fun j => w (Fin.cast hl j)) ∈ rmSpace F (r - 2) r := by
  rw [isWord_extended hc, isWord_bits w hl, show r - 2 = r - 1 - 1 by omega, ← rm_dual hb (by omega)]
  obtain ⟨r, rfl⟩ : ∃ s, r = s + 1 := ⟨r - 1, by omega⟩
  rw [← affineChecks_iff]
  unfold AffineChecks
  rw [← Equiv.sum_comp (finCongr hl) (fun j => w j)]
  rfl

end QLDPC
