import Verif.Model.Sampling
import Mathlib.Data.Nat.Choose.Sum
import Mathlib.Algebra.BigOperators.Intervals
import Mathlib.Tactic.Linarith
import Mathlib.Tactic.Ring
import Mathlib.Tactic.FieldSimp
import Mathlib.Tactic.Positivity
import Mathlib.Data.List.TakeWhile

/-! # Lemmas on slices and sampling -/

namespace QLDPC

/-! ### Slices -/

theorem mem_arange {start stop step x : ℤ} (h0 : step ≠ 0) : x ∈ arange start stop step ↔
    ∃ k : ℕ, x = start + k * step ∧ (0 < step → x < stop) ∧ (step < 0 → stop < x) := by
  unfold arange
  simp only [List.mem_map, List.mem_range]
  rcases lt_or_gt_of_ne h0 with h | h
  · rw [if_neg (by omega)]
    constructor
    · rintro ⟨k, hk, rfl⟩
      refine ⟨k, rfl, by omega, fun _ => ?_⟩
      have h1 : (k : ℤ) < (start - stop - step - 1) / (-step) := by omega
      have h2 : (k : ℤ) + 1 ≤ (start - stop - step - 1) / (-step) := h1
      rw [Int.le_ediv_iff_mul_le (by omega)] at h2
      linarith
    · rintro ⟨k, rfl, -, h2⟩
      refine ⟨k, ?_, rfl⟩
      have := h2 h
      have h3 : (k : ℤ) + 1 ≤ (start - stop - step - 1) / (-step) := by
        rw [Int.le_ediv_iff_mul_le (by omega)]
        linarith
      omega
  · rw [if_pos h]
    constructor
    · rintro ⟨k, hk, rfl⟩
      refine ⟨k, rfl, fun _ => ?_, by omega⟩
      have h2 : (k : ℤ) + 1 ≤ (stop - start + step - 1) / step := by omega
      rw [Int.le_ediv_iff_mul_le h] at h2
      linarith
    · rintro ⟨k, rfl, h2, -⟩
      refine ⟨k, ?_, rfl⟩
      have := h2 h
      have h3 : (k : ℤ) + 1 ≤ (stop - start + step - 1) / step := by
        rw [Int.le_ediv_iff_mul_le h]
        linarith
      omega

theorem pairwise_arange {start stop step : ℤ} (h0 : 0 < step) : (arange start stop step).Pairwise (· < ·) := by
  unfold arange
  rw [List.pairwise_map]
  refine List.pairwise_lt_range.imp fun {a b} hab => ?_
  have : (a : ℤ) < b := by exact_mod_cast hab
  have := mul_lt_mul_of_pos_right this h0
  linarith

theorem pairwise_arange_neg {start stop step : ℤ} (h0 : step < 0) :
    (arange start stop step).Pairwise (· > ·) := by
  unfold arange
  rw [List.pairwise_map]
  refine List.pairwise_lt_range.imp fun {a b} hab => ?_
  have : (a : ℤ) < b := by exact_mod_cast hab
  have := mul_lt_mul_of_neg_right this h0
  linarith

theorem orInt_ne_zero (x : Option ℤ) : orInt x 1 ≠ 0 := by
  unfold orInt
  split
  · simp
  · rename_i h
    intro h0
    exact h h0
  · simp

/-! ### Rounding -/

theorem roundEven_int (z : ℤ) : roundEven (z : ℚ) = z := by
  simp [roundEven]

theorem roundEven_floor (x : ℚ) : ⌊x⌋ ≤ roundEven x ∧ roundEven x ≤ ⌊x⌋ + 1 := by
  unfold roundEven
  dsimp only
  split
  · omega
  · split
    · omega
    · split <;> omega

theorem roundEven_mono {x y : ℚ} (h : x ≤ y) : roundEven x ≤ roundEven y := by
  have hf : ⌊x⌋ ≤ ⌊y⌋ := Int.floor_le_floor h
  rcases lt_or_eq_of_le hf with hlt | heq
  · have := roundEven_floor x
    have := roundEven_floor y
    omega
  · unfold roundEven
    dsimp only
    rw [heq]
    have hr : x - (⌊y⌋ : ℚ) ≤ y - ⌊y⌋ := by linarith
    split_ifs <;> first | omega | (exfalso; linarith)

theorem roundEven_nonneg {x : ℚ} (h : 0 ≤ x) : 0 ≤ roundEven x := by
  have := roundEven_mono h
  have h0 : roundEven 0 = 0 := by exact_mod_cast roundEven_int 0
  omega

/-! ### Maxima -/

theorem le_foldl_max (l : List ℚ) (a : ℚ) : a ≤ l.foldl max a ∧ ∀ x ∈ l, x ≤ l.foldl max a := by
  induction l generalizing a with
  | nil => simp
  | cons b l ih =>
    rw [List.foldl_cons]
    obtain ⟨h1, h2⟩ := ih (max a b)
    refine ⟨le_trans (le_max_left _ _) h1, fun x hx => ?_⟩
    rcases List.mem_cons.1 hx with rfl | hx
    · exact le_trans (le_max_right _ _) h1
    · exact h2 x hx

theorem foldl_max_mem (l : List ℚ) (a : ℚ) : l.foldl max a = a ∨ l.foldl max a ∈ l := by
  induction l generalizing a with
  | nil => simp
  | cons b l ih =>
    rw [List.foldl_cons]
    rcases ih (max a b) with h | h
    · rw [h]
      rcases max_choice a b with h' | h'
      · exact .inl h'
      · exact .inr (by rw [h']; simp)
    · exact .inr (by simp [h])

theorem le_listMax {l : List ℚ} {x : ℚ} (h : x ∈ l) : x ≤ listMax l := (le_foldl_max l _).2 x h

theorem listMax_mem {l : List ℚ} (h : l ≠ []) : listMax l ∈ l := by
  unfold listMax
  rcases foldl_max_mem l (l.headD 0) with h' | h'
  · rw [h']
    cases l with
    | nil => exact absurd rfl h
    | cons a l => simp
  · exact h'

theorem argmax_spec {l : List ℚ} (h : l ≠ []) : ∃ hlt : argmax l < l.length, l[argmax l] = listMax l := by
  have hlt : argmax l < l.length := by
    unfold argmax
    rw [List.findIdx_lt_length]
    exact ⟨listMax l, listMax_mem h, by simp⟩
  refine ⟨hlt, ?_⟩
  have := List.findIdx_getElem (w := hlt)
  exact of_decide_eq_true this

/-! ### The binomial distribution -/

/-- The probability of weight `k`. -/
def binomial (n : ℕ) (p : ℚ) (k : ℕ) : ℚ := (n.choose k : ℚ) * p ^ k * (1 - p) ^ (n - k)

theorem binomial_nonneg {n : ℕ} {p : ℚ} (h0 : 0 ≤ p) (h1 : p ≤ 1) (k : ℕ) : 0 ≤ binomial n p k := by
  unfold binomial
  have : 0 ≤ 1 - p := by linarith
  positivity

theorem sum_binomial (n : ℕ) (p : ℚ) : ∑ k ∈ Finset.range (n + 1), binomial n p k = 1 := by
  have := add_pow p (1 - p) n
  rw [add_sub_cancel, one_pow] at this
  rw [this]
  refine Finset.sum_congr rfl fun k _ => ?_
  unfold binomial
  ring

theorem binomial_succ {n k : ℕ} {p : ℚ} (hk : k < n) :
    binomial n p (k + 1) * (k + 1) * (1 - p) = binomial n p k * (n - k) * p := by
  unfold binomial
  have h1 : ((n.choose (k + 1) : ℕ) : ℚ) * (k + 1) = (n.choose k : ℚ) * (n - k) := by
    have := Nat.choose_succ_right_eq n k
    have h : ((n.choose (k + 1) * (k + 1) : ℕ) : ℚ) = ((n.choose k * (n - k) : ℕ) : ℚ) := by rw [this]
    push_cast [Nat.cast_sub hk.le] at h
    exact h
  have h2 : (1 - p) ^ (n - k) = (1 - p) ^ (n - (k + 1)) * (1 - p) := by
    rw [← pow_succ]
    congr 1
    omega
  rw [h2]
  calc (n.choose (k + 1) : ℚ) * p ^ (k + 1) * (1 - p) ^ (n - (k + 1)) * (k + 1) * (1 - p)
      = ((n.choose (k + 1) : ℚ) * (k + 1)) * p ^ (k + 1) * (1 - p) ^ (n - (k + 1)) * (1 - p) := by ring
    _ = ((n.choose k : ℚ) * (n - k)) * p ^ (k + 1) * (1 - p) ^ (n - (k + 1)) * (1 - p) := by rw [h1]
    _ = _ := by ring

/-- Once the probabilities fall, they fall on. -/
theorem binomial_unimodal {n k : ℕ} {p : ℚ} (h0 : 0 < p) (h1 : p < 1) (hk : k + 1 < n)
    (h : binomial n p (k + 1) ≤ binomial n p k) : binomial n p (k + 2) ≤ binomial n p (k + 1) := by
  have hq : (0 : ℚ) < 1 - p := by linarith
  have hpos : ∀ j, j ≤ n → 0 < binomial n p j := fun j hj => by
    unfold binomial
    have : 0 < n.choose j := Nat.choose_pos hj
    positivity
  have e1 := binomial_succ (p := p) (show k < n by omega)
  have e2 := binomial_succ (p := p) (show k + 1 < n by omega)
  push_cast at e2
  have hk' : (k : ℚ) + 1 < n := by exact_mod_cast hk
  have hle : (n - k : ℚ) * p ≤ (k + 1) * (1 - p) := by
    by_contra hc
    push Not at hc
    have a1 : binomial n p k * ((k + 1) * (1 - p)) < binomial n p k * ((n - k) * p) :=
      mul_lt_mul_of_pos_left hc (hpos k (by omega))
    have a2 : binomial n p (k + 1) * ((k + 1) * (1 - p)) ≤ binomial n p k * ((k + 1) * (1 - p)) :=
      mul_le_mul_of_nonneg_right h (by positivity)
    linarith
  have hle2 : (n - (k + 1) : ℚ) * p ≤ (k + 1 + 1) * (1 - p) := by nlinarith
  by_contra hc
  push Not at hc
  have b1 : binomial n p (k + 1) * ((k + 1 + 1) * (1 - p)) < binomial n p (k + 2) * ((k + 1 + 1) * (1 - p)) :=
    mul_lt_mul_of_pos_right hc (by positivity)
  have b2 : binomial n p (k + 1) * ((n - (k + 1)) * p) ≤ binomial n p (k + 1) * ((k + 1 + 1) * (1 - p)) :=
    mul_le_mul_of_nonneg_left hle2 (hpos _ (by omega)).le
  have e2' : binomial n p (k + 2) * ((k + 1 + 1) * (1 - p)) = binomial n p (k + 1) * ((n - (k + 1)) * p) := by
    rw [← mul_assoc, ← mul_assoc]
    exact e2
  linarith

theorem errorProbs_eq {n w : ℕ} (p : ℚ) (hw : w ≠ 0) : errorProbs n p w = (List.range (w + 1)).map (binomial n p) := by
  unfold errorProbs
  simp only [hw, if_false]
  rfl

theorem binomial_pos {n k : ℕ} {p : ℚ} (h0 : 0 < p) (h1 : p < 1) (hk : k ≤ n) : 0 < binomial n p k := by
  unfold binomial
  have : 0 < n.choose k := Nat.choose_pos hk
  have : (0 : ℚ) < 1 - p := by linarith
  positivity

theorem binomial_top (n : ℕ) (p : ℚ) : binomial n p n = p ^ n := by simp [binomial]

theorem binomial_one_lt {n k : ℕ} (hk : k < n) : binomial n 1 k = 0 := by
  unfold binomial
  rw [sub_self, zero_pow (by omega), mul_zero]

/-- The flattened distribution. -/
theorem flattenProbs_spec {n : ℕ} {p : ℚ} (hn : n ≠ 0) (h0 : 0 < p) (h1 : p ≤ 1) :
    ∃ g : ℕ → ℚ, flattenProbs (errorProbs n p n) = (List.range (n + 1)).map g ∧ g 0 = 0 ∧ (∀ k ≤ n, 0 ≤ g k) ∧
      (∀ k, 1 ≤ k → k < n → g (k + 1) ≤ g k) ∧ ((List.range (n + 1)).map g).sum = 1 := by
  rw [errorProbs_eq p hn]
  set q : ℕ → ℚ := fun k => if k = 0 then 0 else binomial n p k with hq
  have hset : ((List.range (n + 1)).map (binomial n p)).set 0 0 = (List.range (n + 1)).map q := by
    refine List.ext_getElem (by simp) fun k h1 h2 => ?_
    rw [List.getElem_set]
    simp only [List.getElem_map, List.getElem_range, hq]
    by_cases hk : k = 0
    · simp [hk]
    · rw [if_neg (Ne.symm hk), if_neg hk]
  set L := (List.range (n + 1)).map q with hL
  have hLne : L ≠ [] := by simp [hL]
  obtain ⟨htop, hmax⟩ := argmax_spec hLne
  have htop' : argmax L < n + 1 := by simpa [hL] using htop
  have hqmax : ∀ k ≤ n, q k ≤ listMax L := fun k hk =>
    le_listMax (List.mem_map.2 ⟨k, List.mem_range.2 (by omega), rfl⟩)
  have hqtop : q (argmax L) = listMax L := by
    rw [← hmax]
    simp [hL]
  have hnn : ∀ k, 0 ≤ q k := fun k => by
    simp only [hq]
    split
    · exact le_rfl
    · exact binomial_nonneg h0.le h1 k
  have hqn : 0 < q n := by
    simp only [hq, if_neg hn, binomial_top]
    positivity
  have hMpos : 0 < listMax L := lt_of_lt_of_le hqn (hqmax n le_rfl)
  have htop1 : 1 ≤ argmax L := by
    by_contra h
    have h : argmax L = 0 := by omega
    rw [h] at hqtop
    simp only [hq, if_true] at hqtop
    linarith
  set h : ℕ → ℚ := fun k => if 1 ≤ k ∧ k < argmax L then listMax L else q k with hh
  have hmap : (L.zipIdx.map fun e => if 1 ≤ e.2 ∧ e.2 < argmax L then listMax L else e.1) =
      (List.range (n + 1)).map h := by
    refine List.ext_getElem (by simp [hL]) fun k h1 h2 => ?_
    simp [hL, hh]
  have hhnn : ∀ k, 0 ≤ h k := fun k => by
    simp only [hh]
    split
    · exact hMpos.le
    · exact hnn k
  have hhn : 0 < h n := by
    simp only [hh]
    split
    · exact hMpos
    · exact hqn
  set S := ((List.range (n + 1)).map h).sum with hS
  have hSpos : 0 < S := by
    rw [hS, List.range_succ, List.map_append, List.sum_append]
    have : 0 ≤ ((List.range n).map h).sum := List.sum_nonneg (by
      intro x hx
      obtain ⟨k, -, rfl⟩ := List.mem_map.1 hx
      exact hhnn k)
    simp only [List.map_cons, List.map_nil, List.sum_cons, List.sum_nil, add_zero]
    linarith
  refine ⟨fun k => h k / S, ?_, ?_, fun k _ => div_nonneg (hhnn k) hSpos.le, ?_, ?_⟩
  · unfold flattenProbs
    simp only [hset]
    rw [hmap, List.map_map, ← hS]
    rfl
  · simp [hh, hq]
  · intro k hk1 hkn
    refine div_le_div_of_nonneg_right ?_ hSpos.le
    have hfall : ∀ j, argmax L ≤ j → j < n → binomial n p (j + 1) ≤ binomial n p j := by
      rcases lt_or_eq_of_le h1 with hlt | rfl
      · intro j hj
        induction j, hj using Nat.le_induction with
        | base =>
          intro hjn
          have := hqmax (argmax L + 1) (by omega)
          rw [← hqtop] at this
          simpa [hq, show argmax L ≠ 0 by omega] using this
        | succ j hj ih =>
          intro hjn
          exact binomial_unimodal h0 hlt (by omega) (ih (by omega))
      · intro j hj hjn
        exfalso
        have htn : argmax L = n := by
          by_contra hne
          have : q (argmax L) = 0 := by
            simp only [hq, if_neg (show argmax L ≠ 0 by omega)]
            exact binomial_one_lt (by omega)
          rw [this] at hqtop
          linarith
        omega
    simp only [hh]
    by_cases ha : k + 1 < argmax L
    · rw [if_pos ⟨by omega, ha⟩, if_pos ⟨hk1, by omega⟩]
    · rw [if_neg (by omega)]
      by_cases hb : k < argmax L
      · rw [if_pos ⟨hk1, hb⟩]
        exact hqmax _ (by omega)
      · rw [if_neg (by omega)]
        simp only [hq, if_neg (show k + 1 ≠ 0 by omega), if_neg (show k ≠ 0 by omega)]
        exact hfall k (by omega) hkn
  · have : ((List.range (n + 1)).map fun k => h k / S).sum = ((List.range (n + 1)).map h).sum / S := by
      rw [div_eq_mul_inv, ← List.sum_map_mul_right]
      simp only [div_eq_mul_inv]
    rw [this, ← hS, div_self hSpos.ne']

/-! ### The loop -/

theorem allocationLoop_spec {probs : List ℚ} {fuel N : ℕ} {l : List ℤ}
    (h : allocationLoop probs fuel N = some l) :
    ∃ N', N ≤ N' ∧ l = roundedAllocation probs N' ∧ (N' : ℤ) ≤ l.sum := by
  induction fuel generalizing N with
  | zero => simp [allocationLoop] at h
  | succ fuel ih =>
    rw [allocationLoop] at h
    split at h
    · obtain ⟨N', h1, h2⟩ := ih h
      exact ⟨N', by omega, h2⟩
    · rename_i hs
      have h := Option.some.inj h
      subst h
      exact ⟨N, le_rfl, rfl, by omega⟩

theorem allocationLoop_terminates {probs : List ℚ} (N k : ℕ)
    (h : ((N + k : ℕ) : ℤ) ≤ (roundedAllocation probs (N + k)).sum) :
    ∃ l, allocationLoop probs (k + 1) N = some l := by
  induction k generalizing N with
  | zero =>
    rw [allocationLoop, if_neg (by simpa using h)]
    exact ⟨_, rfl⟩
  | succ k ih =>
    rw [allocationLoop]
    split
    · refine ih (N + 1) ?_
      have e : N + 1 + k = N + (k + 1) := by omega
      rw [e]
      exact h
    · exact ⟨_, rfl⟩

theorem exists_denominator (l : List ℚ) : ∃ D : ℕ, 0 < D ∧ ∀ x ∈ l, ∃ z : ℤ, x * D = z := by
  induction l with
  | nil => exact ⟨1, by omega, by simp⟩
  | cons a l ih =>
    obtain ⟨D, hD, h⟩ := ih
    refine ⟨a.den * D, Nat.mul_pos a.den_pos hD, fun x hx => ?_⟩
    rcases List.mem_cons.1 hx with rfl | hx
    · refine ⟨x.num * D, ?_⟩
      push_cast
      rw [← mul_assoc, Rat.mul_den_eq_num]
    · obtain ⟨z, hz⟩ := h x hx
      refine ⟨a.den * z, ?_⟩
      push_cast
      rw [← hz]
      ring

theorem rounded_exact {l : List ℚ} {M : ℕ} (h : ∀ x ∈ l, ∃ z : ℤ, x * M = z) :
    ((roundedAllocation l M).sum : ℚ) = l.sum * M := by
  induction l with
  | nil => simp [roundedAllocation]
  | cons a l ih =>
    obtain ⟨z, hz⟩ := h a (by simp)
    have := ih fun x hx => h x (by simp [hx])
    unfold roundedAllocation at this ⊢
    rw [List.map_cons, List.sum_cons, List.sum_cons, hz, roundEven_int]
    rw [Int.cast_add, this, add_mul, hz]

theorem dropTrailing_spec {l r : List ℤ} (h : dropTrailingZeros l = some r) :
    ∃ k, l = r ++ List.replicate k 0 ∧ ∃ hr : r ≠ [], r.getLast hr ≠ 0 := by
  unfold dropTrailingZeros at h
  split at h
  · cases h
  · rename_i hall
    have h := Option.some.inj h
    subst h
    refine ⟨(l.reverse.takeWhile fun x => decide (x = 0)).length, ?_, ?_, ?_⟩
    · have h1 : l.reverse = (l.reverse.takeWhile fun x => decide (x = 0)) ++
          l.reverse.dropWhile fun x => decide (x = 0) := List.takeWhile_append_dropWhile.symm
      have h2 : (l.reverse.takeWhile fun x => decide (x = 0)) =
          List.replicate (l.reverse.takeWhile fun x => decide (x = 0)).length 0 := by
        rw [List.eq_replicate_iff]
        refine ⟨rfl, fun x hx => ?_⟩
        have := List.all_takeWhile (p := fun x : ℤ => decide (x = 0)) (l := l.reverse)
        simpa using List.all_eq_true.1 this x hx
      have h3 := congrArg List.reverse h1
      rw [List.reverse_reverse, List.reverse_append] at h3
      rw [h2, List.reverse_replicate] at h3
      exact h3
    · intro hnil
      rw [List.reverse_eq_nil_iff, List.dropWhile_eq_nil_iff] at hnil
      apply hall
      rw [List.all_eq_true]
      intro x hx
      exact hnil x (by simpa using hx)
    · rw [List.getLast_reverse]
      have hne : l.reverse.dropWhile (fun x => decide (x = 0)) ≠ [] := by
        intro hnil
        rw [List.dropWhile_eq_nil_iff] at hnil
        apply hall
        rw [List.all_eq_true]
        intro x hx
        exact hnil x (by simpa using hx)
      have := List.head_dropWhile_not (fun x : ℤ => decide (x = 0)) hne
      simpa using this

end QLDPC
