import Verif.Model.ILP
import Verif.Lemmas.Tanner
import Mathlib.Data.Int.ModEq
import Mathlib.Algebra.BigOperators.Intervals
import Mathlib.Algebra.Order.BigOperators.Group.Finset
import Mathlib.InformationTheory.Hamming
import Mathlib.Tactic.IntervalCases

/-!
# C59: the integer linear program of `ILPDecoder`
-/

namespace QLDPC.Props

open QLDPC

variable {n : ℕ}

/-- `x` explains the syndrome: `H @ x = s` modulo `q`, entry by entry. -/
def Explains (q : ℕ) (H : List (Fin n → ℤ)) (s : List ℤ) (x : Fin n → ℤ) : Prop :=
  ∀ i (h₁ : i < H.length) (h₂ : i < s.length), ∑ j, H[i] j * x j ≡ s[i] [ZMOD q]

/-- `x` meets a constraint for some values of its boolean slack variables. -/
def Meets (x : Fin n → ℤ) (c : IlpConstraint n) : Prop :=
  ∃ slack : List Bool, slack.length = c.powers.length ∧
    ∑ j, c.coeffs j * x j = c.rhs + (List.zipWith (fun p b => if b then p else 0) c.powers slack).sum

/-- Feasible points of the program built for a syndrome. -/
def Feasible (flog : ℕ → ℕ → ℤ) (q : ℕ) (H : List (Fin n → ℤ)) (s : List ℤ) (x : Fin n → ℤ) (flags : Fin n → Bool) :
    Prop :=
  VariableConstraints q x flags ∧ ∃ cs, ilpConstraints flog q H s = some cs ∧ ∀ c ∈ cs, Meets x c

/-- Optimal points. -/
def Optimal (flog : ℕ → ℕ → ℤ) (q : ℕ) (H : List (Fin n → ℤ)) (s : List ℤ) (x : Fin n → ℤ) (flags : Fin n → Bool) :
    Prop :=
  Feasible flog q H s x flags ∧
    ∀ x' flags', Feasible flog q H s x' flags' → ilpObjective q x flags ≤ ilpObjective q x' flags'

/-- `x` has entries between zero and `q - 1`. -/
def InRange (q : ℕ) (x : Fin n → ℤ) : Prop := ∀ i, 0 ≤ x i ∧ x i < q

theorem variables_inRange {q : ℕ} (hq : 2 ≤ q) {x : Fin n → ℤ} {flags : Fin n → Bool}
    (h : VariableConstraints q x flags) : InRange q x := by
  unfold VariableConstraints at h
  intro i
  split at h
  · rename_i h2
    subst h2
    rcases h i with h | h <;> rw [h] <;> decide
  · have := h.1 i
    have := h.2.1 i
    omega

theorem slack_dvd (q : ℕ) (P : ℕ) (slack : List Bool) :
    (q : ℤ) ∣ (List.zipWith (fun p b => if b then p else 0)
      ((List.range P).map fun j => (q : ℤ) ^ (j + 1)) slack).sum := by
  refine List.dvd_sum fun y hy => ?_
  rw [List.mem_iff_getElem] at hy
  obtain ⟨i, hi, rfl⟩ := hy
  rw [List.getElem_zipWith, List.getElem_map]
  split
  · exact Dvd.intro_left _ (pow_succ _ _).symm
  · exact dvd_zero _

theorem constraint_sound {flog : ℕ → ℕ → ℤ} {q : ℕ} {check x : Fin n → ℤ} {bit : ℤ} {c : IlpConstraint n}
    (hc : ilpConstraint flog q check bit = some c) (hm : Meets x c) : ∑ j, check j * x j ≡ bit [ZMOD q] := by
  unfold ilpConstraint at hc
  obtain ⟨P, -, rfl⟩ := Option.map_eq_some_iff.1 hc
  obtain ⟨slack, -, hs⟩ := hm
  dsimp only at hs
  rw [hs]
  have : (q : ℤ) ∣ (List.zipWith (fun p b => if b then p else 0)
      (if 0 < P then (List.range P.toNat).map fun j => (q : ℤ) ^ (j + 1) else []) slack).sum := by
    split
    · exact slack_dvd _ _ _
    · simp
  exact (Int.modEq_iff_dvd.2 (by simpa using (dvd_neg.2 this)))

theorem sum_mod (q : ℕ) (h x : Fin n → ℤ) : ∑ j, h j % (q : ℤ) * x j ≡ ∑ j, h j * x j [ZMOD q] := by
  refine Int.ModEq.symm ?_
  rw [Int.modEq_iff_dvd, ← Finset.sum_sub_distrib]
  refine Finset.dvd_sum fun j _ => ?_
  rw [← sub_mul]
  exact Dvd.dvd.mul_right (Int.modEq_iff_dvd.1 (Int.mod_modEq _ _).symm) _

theorem constraints_get {flog : ℕ → ℕ → ℤ} {q : ℕ} {H : List (Fin n → ℤ)} {s : List ℤ}
    {cs : List (IlpConstraint n)} (h : ilpConstraints flog q H s = some cs) (i : ℕ) (h₁ : i < H.length)
    (h₂ : i < s.length) :
    ∃ c ∈ cs, ilpConstraint flog q (fun j => H[i] j % (q : ℤ)) (s[i] % (q : ℤ)) = some c := by
  have := mapM_some_iff.1 h
  obtain ⟨c, hc, hc'⟩ := forall₂_left this (fun j => H[i] j % (q : ℤ), s[i] % (q : ℤ)) (by
    rw [List.mem_iff_getElem]
    refine ⟨i, ?_, ?_⟩
    · simp [ilpMatrix]
      exact ⟨h₁, h₂⟩
    · simp [ilpMatrix])
  exact ⟨c, hc, hc'⟩

/-- **C59**, soundness, for every modulus: feasible points explain the syndrome, with entries in the field. -/
theorem C59_sound (flog : ℕ → ℕ → ℤ) (q : ℕ) (hq : 2 ≤ q) (H : List (Fin n → ℤ)) (s : List ℤ) (x : Fin n → ℤ)
    (flags : Fin n → Bool) (h : Feasible flog q H s x flags) : Explains q H s x ∧ InRange q x := by
  obtain ⟨hv, cs, hcs, hmeets⟩ := h
  refine ⟨fun i h₁ h₂ => ?_, variables_inRange hq hv⟩
  obtain ⟨c, hc, hc'⟩ := constraints_get hcs i h₁ h₂
  have h1 := constraint_sound hc' (hmeets c hc)
  exact ((sum_mod q H[i] x).symm.trans h1).trans (Int.mod_modEq _ _)

/-- Every even number up to twice `2 ^ P - 1` is a sum of distinct powers among `2, 4, ..., 2 ^ P`. -/
theorem binary_slack (P : ℕ) : ∀ m : ℕ, m < 2 ^ P → ∃ slack : List Bool, slack.length = P ∧
    (List.zipWith (fun p b => if b then p else 0) ((List.range P).map fun j => ((2 : ℕ) : ℤ) ^ (j + 1)) slack).sum =
      2 * m := by
  induction P with
  | zero =>
    intro m hm
    exact ⟨[], rfl, by simp; omega⟩
  | succ P ih =>
    intro m hm
    have hpow : 2 ^ (P + 1) = 2 * 2 ^ P := by ring
    rcases Nat.lt_or_ge m (2 ^ P) with h | h
    · obtain ⟨sl, hl, hs⟩ := ih m h
      refine ⟨sl ++ [false], by simp [hl], ?_⟩
      rw [List.range_succ, List.map_append, List.zipWith_append (by simp [hl]), List.sum_append, hs]
      simp
    · obtain ⟨sl, hl, hs⟩ := ih (m - 2 ^ P) (by omega)
      refine ⟨sl ++ [true], by simp [hl], ?_⟩
      rw [List.range_succ, List.map_append, List.zipWith_append (by simp [hl]), List.sum_append, hs]
      have hc : ((m - 2 ^ P : ℕ) : ℤ) = m - 2 ^ P := by rw [Nat.cast_sub h]; simp
      have hpz : (2 : ℤ) ^ (P + 1) = 2 * 2 ^ P := by ring
      simp [hc, hpz]
      ring

theorem constraint_complete_binary {flog : ℕ → ℕ → ℤ} {check x : Fin n → ℤ} {bit : ℤ}
    (hb : 0 ≤ bit ∧ bit < 2) (hcheck : ∀ j, 0 ≤ check j) (hx : ∀ j, x j = 0 ∨ x j = 1)
    (hmod : ∑ j, check j * x j ≡ bit [ZMOD (2 : ℕ)]) :
    ∃ c, ilpConstraint flog 2 check bit = some c ∧ Meets x c := by
  unfold ilpConstraint
  have hP : maxPower flog 2 ((∑ i, check i) * (((2 : ℕ) : ℤ) - 1) - bit) =
      some ((((∑ i, check i) - bit).natAbs.size : ℤ) - 1) := by
    unfold maxPower
    rw [if_pos (Or.inr rfl)]
    rw [show (∑ i, check i) * (((2 : ℕ) : ℤ) - 1) - bit = (∑ i, check i) - bit by push_cast; omega]
  rw [hP]
  refine ⟨_, rfl, ?_⟩
  set S := ∑ i, check i with hS
  set E := ∑ j, check j * x j with hE
  have h0 : 0 ≤ E := Finset.sum_nonneg fun j _ => mul_nonneg (hcheck j) (by rcases hx j with h | h <;> rw [h] <;> decide)
  have hle : E ≤ S := Finset.sum_le_sum fun j _ => by
    rcases hx j with h | h
    · rw [h, mul_zero]; exact hcheck j
    · rw [h, mul_one]
  obtain ⟨k, hk⟩ := Int.modEq_iff_dvd.1 hmod.symm
  push_cast at hk
  -- `E = bit + 2 k`
  have hk0 : 0 ≤ k := by omega
  have hSb : 0 ≤ S - bit := by omega
  have hlt : (S - bit).natAbs < 2 ^ (S - bit).natAbs.size := Nat.lt_size_self _
  set L := (S - bit).natAbs.size with hL
  by_cases hpos : 0 < (L : ℤ) - 1
  · obtain ⟨P, hLP⟩ : ∃ P, L = P + 1 := ⟨L - 1, by omega⟩
    obtain ⟨sl, hl, hs⟩ := binary_slack P k.toNat (by
      rw [hLP] at hlt
      have : 2 ^ (P + 1) = 2 * 2 ^ P := by ring
      omega)
    have hPn : ((L : ℤ) - 1).toNat = P := by omega
    refine ⟨sl, ?_, ?_⟩
    · simp only [if_pos hpos, hPn, List.length_map, List.length_range, hl]
    · simp only [if_pos hpos, hPn]
      rw [hs, Int.toNat_of_nonneg hk0]
      change E = _
      omega
  · refine ⟨[], by simp only [if_neg hpos, List.length_nil], ?_⟩
    simp only [if_neg hpos]
    have : L ≤ 1 := by omega
    have h2 : 2 ^ L ≤ 2 ^ 1 := Nat.pow_le_pow_right (by omega) this
    change E = bit + _
    simp
    omega

theorem constraints_of_rows {flog : ℕ → ℕ → ℤ} {q : ℕ} {H : List (Fin n → ℤ)} {s : List ℤ} {x : Fin n → ℤ}
    (hone : ∀ i (h₁ : i < H.length) (h₂ : i < s.length), ∃ c,
      ilpConstraint flog q (fun j => H[i] j % (q : ℤ)) (s[i] % (q : ℤ)) = some c ∧ Meets x c) :
    ∃ cs, ilpConstraints flog q H s = some cs ∧ ∀ c ∈ cs, Meets x c := by
  have hall : ∀ e ∈ (ilpMatrix q H).zip (s.map fun y : ℤ => y % (q : ℤ)),
      ∃ c, ilpConstraint flog q e.1 e.2 = some c ∧ Meets x c := by
    intro e he
    obtain ⟨i, hi, rfl⟩ := List.mem_iff_getElem.1 he
    simp only [ilpMatrix, List.length_zip, List.length_map, lt_min_iff] at hi
    obtain ⟨c, hc, hm⟩ := hone i hi.1 hi.2
    refine ⟨c, ?_, hm⟩
    simpa [ilpMatrix] using hc
  obtain ⟨cs, hcs⟩ := Option.isSome_iff_exists.1
    (mapM_isSome (f := fun e : (Fin n → ℤ) × ℤ => ilpConstraint flog q e.1 e.2) fun e he => by
      obtain ⟨c, hc, -⟩ := hall e he
      rw [hc]; rfl)
  refine ⟨cs, hcs, fun c hc => ?_⟩
  obtain ⟨e, he, hec⟩ := forall₂_right (mapM_some_iff.1 hcs) c hc
  obtain ⟨c', hc', hm⟩ := hall e he
  rw [hec] at hc'
  cases hc'
  exact hm

/-- **C59** for `q = 2`: the feasible points are exactly the binary vectors which explain the syndrome. -/
theorem C59_binary (flog : ℕ → ℕ → ℤ) (H : List (Fin n → ℤ)) (s : List ℤ) (x : Fin n → ℤ) (flags : Fin n → Bool) :
    Feasible flog 2 H s x flags ↔ Explains 2 H s x ∧ InRange 2 x := by
  refine ⟨C59_sound flog 2 le_rfl H s x flags, ?_⟩
  rintro ⟨hexp, hr⟩
  have hx : ∀ j, x j = 0 ∨ x j = 1 := fun j => by
    have := hr j
    push_cast at this
    omega
  refine ⟨by simpa [VariableConstraints] using hx, ?_⟩
  have hone : ∀ i (h₁ : i < H.length) (h₂ : i < s.length), ∃ c,
      ilpConstraint flog 2 (fun j => H[i] j % ((2 : ℕ) : ℤ)) (s[i] % ((2 : ℕ) : ℤ)) = some c ∧ Meets x c := by
    intro i h₁ h₂
    refine constraint_complete_binary ⟨Int.emod_nonneg _ (by decide), Int.emod_lt_of_pos _ (by decide)⟩
      (fun j => Int.emod_nonneg _ (by decide)) hx ?_
    exact ((sum_mod 2 H[i] x).trans (hexp i h₁ h₂)).trans (Int.mod_modEq _ _).symm
  exact constraints_of_rows hone

theorem objective_binary {x : Fin n → ℤ} {flags : Fin n → Bool} (hx : InRange 2 x) :
    ilpObjective 2 x flags = hammingNorm x := by
  unfold ilpObjective hammingNorm
  rw [if_pos rfl, Finset.card_filter]
  push_cast
  refine Finset.sum_congr rfl fun i _ => ?_
  have := hx i
  push_cast at this
  have : x i = 0 ∨ x i = 1 := by omega
  rcases this with h | h <;> simp [h]

/-- **C59** for `q = 2`: the optimal points are the binary vectors of least weight which explain the syndrome. -/
theorem C59_optimal (flog : ℕ → ℕ → ℤ) (H : List (Fin n → ℤ)) (s : List ℤ) (x : Fin n → ℤ) (flags : Fin n → Bool) :
    Optimal flog 2 H s x flags ↔ (Explains 2 H s x ∧ InRange 2 x) ∧
      ∀ x', Explains 2 H s x' → InRange 2 x' → hammingNorm x ≤ hammingNorm x' := by
  unfold Optimal
  rw [C59_binary]
  refine and_congr_right fun hx => ⟨fun h x' h1 h2 => ?_, fun h x' flags' hf => ?_⟩
  · have := h x' flags ((C59_binary flog H s x' flags).2 ⟨h1, h2⟩)
    rw [objective_binary hx.2, objective_binary h2] at this
    exact_mod_cast this
  · have h' := (C59_binary flog H s x' flags').1 hf
    rw [objective_binary hx.2, objective_binary h'.2]
    exact_mod_cast h x' h'.1 h'.2

/-- C59 for `q > 2`: the objective counts the nonzero entries of an optimal point, and the point has the least
weight among the feasible points. -/
theorem C59_flags (flog : ℕ → ℕ → ℤ) (q : ℕ) (hq : 2 < q) (H : List (Fin n → ℤ)) (s : List ℤ) (x : Fin n → ℤ)
    (flags : Fin n → Bool) (h : Optimal flog q H s x flags) :
    ilpObjective q x flags = hammingNorm x ∧
      ∀ x' flags', Feasible flog q H s x' flags' → hammingNorm x ≤ hammingNorm x' := by
  have hne : q ≠ 2 := by omega
  have hobj : ∀ x' : Fin n → ℤ, ilpObjective q x' (fun i => decide (x' i ≠ 0)) = hammingNorm x' := by
    intro x'
    unfold ilpObjective hammingNorm
    rw [if_neg hne, Finset.card_filter]
    push_cast
    exact Finset.sum_congr rfl fun i _ => by simp
  have hmin : ∀ x' flags', Feasible flog q H s x' flags' → Feasible flog q H s x' (fun i => decide (x' i ≠ 0)) := by
    intro x' flags' hf
    have hr := variables_inRange (by omega) hf.1
    have hv := hf.1
    unfold VariableConstraints at hv
    rw [if_neg hne] at hv
    refine ⟨?_, hf.2⟩
    unfold VariableConstraints
    rw [if_neg hne]
    refine ⟨hv.1, hv.2.1, fun i => ?_⟩
    by_cases h0 : x' i = 0
    · simp [h0]
    · simp only [ne_eq, h0, not_false_eq_true, decide_true, if_true, mul_one]
      exact (hr i).2.le
  have hlow : (hammingNorm x : ℤ) ≤ ilpObjective q x flags := by
    have hv := h.1.1
    unfold VariableConstraints at hv
    rw [if_neg hne] at hv
    unfold ilpObjective hammingNorm
    rw [if_neg hne, Finset.card_filter]
    push_cast
    refine Finset.sum_le_sum fun i _ => ?_
    have h1 := hv.1 i
    have h2 := hv.2.2 i
    cases hf : flags i with
    | false =>
      rw [hf] at h2
      simp at h2
      have : x i = 0 := by omega
      simp [this]
    | true => simp; split <;> decide
  have hup := h.2 x _ (hmin x flags h.1)
  rw [hobj] at hup
  refine ⟨le_antisymm hup hlow, fun x' flags' hf => ?_⟩
  have := h.2 x' _ (hmin x' flags' hf)
  rw [hobj] at this
  exact_mod_cast hlow.trans this

/-- C59 for `q > 2`, as far as it holds: if in every row `sum(row) * (q - 1) - syndrome < 2 q` (so that one power
of `q` suffices) and the logarithm is at least one from `q` on and the conversion does not raise, the feasible
points are exactly the vectors over the field that explain the syndrome.  What is missing: rows with larger
sums, for which the boolean slack variables do not reach every multiple of `q`; see `C59_disagreement`. -/
theorem C59_complete_partial (flog : ℕ → ℕ → ℤ) (q : ℕ) (hq : 2 < q) (hlog : ∀ m, q ≤ m → 1 ≤ flog m q)
    (H : List (Fin n → ℤ)) (s : List ℤ) (hlen : s.length = H.length)
    (hnon : ∀ i (h₁ : i < H.length) (h₂ : i < s.length), 0 ≤ (∑ j, H[i] j % (q : ℤ)) * ((q : ℤ) - 1) - s[i] % (q : ℤ))
    (hsmall : ∀ i (h₁ : i < H.length) (h₂ : i < s.length), (∑ j, H[i] j % (q : ℤ)) * ((q : ℤ) - 1) - s[i] % (q : ℤ) < 2 * q)
    (x : Fin n → ℤ) :
    (∃ flags, Feasible flog q H s x flags) ↔ Explains q H s x ∧ InRange q x := by
  have hne : q ≠ 2 := by omega
  have hqz : (2 : ℤ) < q := by exact_mod_cast hq
  refine ⟨fun ⟨flags, h⟩ => C59_sound flog q hq.le H s x flags h, ?_⟩
  rintro ⟨hexp, hr⟩
  refine ⟨fun i => decide (x i ≠ 0), ?_, ?_⟩
  · unfold VariableConstraints
    rw [if_neg hne]
    refine ⟨fun i => (hr i).1, fun i => by have := (hr i).2; omega, fun i => ?_⟩
    by_cases h0 : x i = 0
    · simp [h0]
    · simp only [ne_eq, h0, not_false_eq_true, decide_true, if_true, mul_one]
      exact (hr i).2.le
  have hone : ∀ i (h₁ : i < H.length) (h₂ : i < s.length), ∃ c,
      ilpConstraint flog q (fun j => H[i] j % (q : ℤ)) (s[i] % (q : ℤ)) = some c ∧ Meets x c := by
    intro i h₁ h₂
    have hn := hnon i h₁ h₂
    have hsm := hsmall i h₁ h₂
    have hmod := ((sum_mod q H[i] x).trans (hexp i h₁ h₂)).trans (Int.mod_modEq _ _).symm
    have hb0 : 0 ≤ s[i] % (q : ℤ) := Int.emod_nonneg _ (by omega)
    have hb1 : s[i] % (q : ℤ) < q := Int.emod_lt_of_pos _ (by omega)
    have hc0 : ∀ j, 0 ≤ H[i] j % (q : ℤ) := fun j => Int.emod_nonneg _ (by omega)
    have hE0 : 0 ≤ ∑ j, H[i] j % (q : ℤ) * x j := Finset.sum_nonneg fun j _ => mul_nonneg (hc0 j) (hr j).1
    have hE1 : ∑ j, H[i] j % (q : ℤ) * x j ≤ (∑ j, H[i] j % (q : ℤ)) * ((q : ℤ) - 1) := by
      rw [Finset.sum_mul]
      exact Finset.sum_le_sum fun j _ => mul_le_mul_of_nonneg_left (by have := (hr j).2; omega) (hc0 j)
    have hbound : ∑ j, H[i] j % (q : ℤ) * x j - s[i] % (q : ℤ) < 2 * q := by linarith
    unfold ilpConstraint
    generalize hmz : (∑ j, H[i] j % (q : ℤ)) * ((q : ℤ) - 1) - s[i] % (q : ℤ) = mz at *
    obtain ⟨k, hk⟩ := Int.modEq_iff_dvd.1 hmod.symm
    have hk0 : 0 ≤ k := by nlinarith
    have hk2 : k < 2 := by nlinarith
    have hle : (q : ℤ) * k ≤ mz := by linarith
    have hk01 : k = 0 ∨ k = 1 := by omega
    -- the conversion does not raise, and some power is available if `k = 1`
    have hP : ∃ P, maxPower flog q mz = some P ∧ (k = 1 → 1 ≤ P) := by
      unfold maxPower
      by_cases h0 : mz = 0
      · rw [if_pos (Or.inl h0)]
        refine ⟨_, rfl, fun h1 => ?_⟩
        rw [h1] at hle
        omega
      · rw [if_neg (by tauto), if_neg (by omega)]
        refine ⟨_, rfl, fun h1 => hlog _ ?_⟩
        rw [h1] at hle
        omega
    obtain ⟨P, hP, hP1⟩ := hP
    rw [hP]
    refine ⟨_, rfl, ?_⟩
    by_cases hpos : 0 < P
    · obtain ⟨p, hp⟩ : ∃ p, P.toNat = p + 1 := ⟨P.toNat - 1, by omega⟩
      refine ⟨decide (k = 1) :: List.replicate p false, by simp [hpos, hp], ?_⟩
      simp only [if_pos hpos, hp]
      rw [List.range_succ_eq_map, List.map_cons, List.zipWith_cons_cons, List.sum_cons]
      have hz : ∀ (m : ℕ) (l : List ℤ),
          (List.zipWith (fun p b => if b = true then p else 0) l (List.replicate m false)).sum = 0 := by
        intro m
        induction m with
        | zero => simp
        | succ m ih =>
          rintro (- | ⟨y, l⟩)
          · simp
          · rw [List.replicate_succ, List.zipWith_cons_cons, List.sum_cons, ih]
            simp
      rw [hz]
      rcases hk01 with h | h
      · rw [h] at hk
        simp [h]
        linarith
      · rw [h] at hk
        simp [h]
        linarith
    · have : k = 0 := by
        rcases hk01 with h | h
        · exact h
        · exact absurd (hP1 h) (by omega)
      refine ⟨[], by simp [hpos], ?_⟩
      simp only [if_neg hpos]
      rw [this] at hk
      simp
      linarith
  exact constraints_of_rows hone

/-- C59 for `q > 2`: if the conversion of the logarithm raises for one row, there is no program; this happens
exactly for zero rows with a nonzero syndrome. -/
theorem C59_raises (flog : ℕ → ℕ → ℤ) (q : ℕ) (hq : 2 < q) (check : Fin n → ℤ) (hc : ∀ j, 0 ≤ check j) (bit : ℤ)
    (hb : 0 ≤ bit ∧ bit < q) : ilpConstraint flog q check bit = none ↔ (∀ j, check j = 0) ∧ bit ≠ 0 := by
  have hS : 0 ≤ ∑ j, check j := Finset.sum_nonneg fun j _ => hc j
  have hqz : (2 : ℤ) < q := by exact_mod_cast hq
  have key : (∑ j, check j) * ((q : ℤ) - 1) - bit < 0 ↔ (∀ j, check j = 0) ∧ bit ≠ 0 := by
    constructor
    · intro h
      have h0 : ∑ j, check j = 0 := by
        by_contra hne
        have : 1 ≤ ∑ j, check j := by omega
        nlinarith
      refine ⟨fun j => (Finset.sum_eq_zero_iff_of_nonneg fun j _ => hc j).1 h0 j (Finset.mem_univ _), ?_⟩
      rw [h0] at h
      omega
    · rintro ⟨h, hne⟩
      rw [Finset.sum_eq_zero fun j _ => h j]
      omega
  rw [← key]
  unfold ilpConstraint maxPower
  rw [Option.map_eq_none_iff]
  split_ifs with h1 h2
  · simp only [reduceCtorEq, false_iff]
    rcases h1 with h1 | h1 <;> omega
  · simp [h2]
  · simp [h2]

/-- C59, disagreement: for `q = 3`, the vector `(2, 2)` explains the syndrome `(2, 2, 0)` of these three rows,
but no point is feasible, so that the decoder raises.  The logarithm is the exact one. -/
theorem C59_disagreement :
    Explains 3 [![1, 0], ![0, 1], ![2, 1]] [2, 2, 0] ![2, 2] ∧
      ¬ ∃ x flags, Feasible (fun m q => Nat.log q m) 3 [![1, 0], ![0, 1], ![2, 1]] [2, 2, 0] x flags := by
  refine ⟨?_, ?_⟩
  · intro i h₁ h₂
    simp at h₁
    interval_cases i <;> first | decide | decide +revert | (simp [Fin.sum_univ_succ, Int.ModEq])
  · rintro ⟨x, flags, hf⟩
    obtain ⟨hexp, hr⟩ := C59_sound _ _ (by decide) _ _ _ _ hf
    obtain ⟨-, cs, hcs, hm⟩ := hf
    have h0 := hexp 0 (by decide) (by decide)
    have h1 := hexp 1 (by decide) (by decide)
    have hr0 := hr 0
    have hr1 := hr 1
    simp [Fin.sum_univ_two, Int.ModEq] at h0 h1
    push_cast at hr0 hr1
    have e0 : x 0 = 2 := by omega
    have e1 : x 1 = 2 := by omega
    obtain ⟨c, hc, hc'⟩ := constraints_get hcs 2 (by decide) (by decide)
    obtain ⟨slack, hl, hs⟩ := hm c hc
    have hcv : c = ⟨fun j => (![2, 1] : Fin 2 → ℤ) j % ((3 : ℕ) : ℤ), 0, [3]⟩ := by
      have hlog : Nat.log 3 6 = 1 := by decide +kernel
      simp [ilpConstraint, maxPower, Fin.sum_univ_two, hlog] at hc'
      rw [← hc']
      simp
    subst hcv
    dsimp only at hl hs
    rw [List.length_singleton, List.length_eq_one_iff] at hl
    obtain ⟨b, rfl⟩ := hl
    simp [Fin.sum_univ_two, e0, e1] at hs
    cases b <;> simp at hs

/-- Three bits with two checks and the syndrome `(1, 1)`: the second bit alone is optimal. -/
example : Optimal (fun _ _ => 0) 2 [![1, 1, 0], ![0, 1, 1]] [1, 1] ![0, 1, 0] (fun _ => false) := by
  rw [C59_optimal]
  refine ⟨⟨?_, ?_⟩, ?_⟩
  · intro i h₁ h₂
    simp at h₁
    interval_cases i <;> first | decide | decide +revert | (simp [Fin.sum_univ_succ, Int.ModEq])
  · intro i
    fin_cases i <;> decide
  · intro x h1 _
    have h0 : x ≠ 0 := by
      rintro rfl
      have := h1 0 (by decide) (by decide)
      simp [Int.ModEq] at this
    have : hammingNorm x ≠ 0 := fun h => h0 (hammingNorm_eq_zero.1 h)
    have h3 : hammingNorm (![0, 1, 0] : Fin 3 → ℤ) = 1 := by decide
    omega
example : ∃ flags, Feasible (fun m q => Nat.log q m) 3 [![1, 1, 0], ![0, 1, 1]] [2, 2] ![0, 2, 0] flags := by
  refine (C59_complete_partial _ 3 (by decide) (fun m hm => ?_) _ _ rfl ?_ ?_ _).2 ⟨?_, ?_⟩
  · exact_mod_cast Nat.log_pos (by decide) hm
  · intro i h₁ h₂
    simp at h₁
    interval_cases i <;> first | decide | decide +revert | (simp [Fin.sum_univ_succ, Int.ModEq])
  · intro i h₁ h₂
    simp at h₁
    interval_cases i <;> first | decide | decide +revert | (simp [Fin.sum_univ_succ, Int.ModEq])
  · intro i h₁ h₂
    simp at h₁
    interval_cases i <;> first | decide | decide +revert | (simp [Fin.sum_univ_succ, Int.ModEq])
  · intro i
    fin_cases i <;> decide

/-! ### Instances of the theorems: concrete cases meet the hypotheses -/

example := C59_raises (n := 2) (fun m q => Nat.log q m) 3 (by decide) ![1, 2] (by decide) 2 (by decide)

example : True := by
  have hf : ∃ flags, Feasible (fun m q => Nat.log q m) 3 [![1, 1, 0], ![0, 1, 1]] [2, 2] ![0, 2, 0] flags := by
    refine (C59_complete_partial _ 3 (by decide) (fun m hm => ?_) _ _ rfl ?_ ?_ _).2 ⟨?_, ?_⟩
    · exact_mod_cast Nat.log_pos (by decide) hm
    all_goals first
      | (intro i h₁ h₂; simp at h₁; interval_cases i <;> first | decide | decide +revert)
      | (intro i; fin_cases i <;> decide)
  obtain ⟨flags, h⟩ := hf
  have h1 := C59_sound _ 3 (by decide) _ _ _ flags h
  trivial

end QLDPC.Props

section AxiomReport
open QLDPC.Props
#print axioms C59_sound
#print axioms C59_binary
#print axioms C59_optimal
#print axioms C59_flags
#print axioms C59_complete_partial
#print axioms C59_raises
#print axioms C59_disagreement
end AxiomReport
