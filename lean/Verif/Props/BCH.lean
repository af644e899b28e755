import Verif.Model.BCH
import Verif.Props.ClassicalDistance
import Mathlib.Data.Nat.Digits.Lemmas
import Mathlib.Data.ZMod.Basic
import Mathlib.Tactic.IntervalCases
import Mathlib.Tactic.Ring

/-!
# C91: block lengths of BCH codes
-/

namespace QLDPC.Props

open QLDPC QLDPC.Spec

/-- The character of a digit. -/
def reprChar (d : ℕ) : Char := reprDigits.getD d '?'

theorem reprLoop_eq {b : ℕ} (hb : 2 ≤ b) : ∀ fuel num : ℕ, num < fuel → reprLoop b fuel num = (Nat.digits b num).map reprChar
  | 0, _, h => absurd h (by omega)
  | fuel + 1, num, h => by
    unfold reprLoop
    by_cases h0 : num = 0
    · simp [h0]
    · rw [if_neg h0, Nat.digits_def' (by omega) (by omega), List.map_cons, reprLoop_eq hb fuel (num / b)
        (lt_of_lt_of_le (Nat.div_lt_self (by omega) (by omega)) (by omega))]
      rfl

theorem reprChar_injective : ∀ d < 36, ∀ e < 36, reprChar d = reprChar e → d = e := by decide +kernel

theorem reprChar_minus : ∀ d < 36, reprChar d ≠ '-' := by decide +kernel

theorem intText_digit {q : ℕ} (h2 : 2 ≤ q) (h10 : q ≤ 10) : intText ((q : ℤ) - 1) = [reprChar (q - 1)] := by
  interval_cases q <;> decide +kernel

theorem flatten_replicate_single {α : Type} (k : ℕ) (c : α) : (List.replicate k [c]).flatten = List.replicate k c := by
  induction k with
  | zero => rfl
  | succ k ih => simp [List.replicate_succ, ih]

theorem ofDigits_replicate_top {q : ℕ} (hq : 1 ≤ q) (m : ℕ) : Nat.ofDigits q (List.replicate m (q - 1)) = q ^ m - 1 := by
  have key : Nat.ofDigits q (List.replicate m (q - 1)) + 1 = q ^ m := by
    induction m with
    | zero => simp
    | succ m ih =>
      rw [List.replicate_succ, Nat.ofDigits_cons, pow_succ', ← ih, mul_add]
      omega
  omega

theorem baseRepr_eq {q : ℕ} (h2 : 2 ≤ q) (h36 : q ≤ 36) (length : ℤ) (hpos : 0 < length) :
    baseRepr length q = .ok (((Nat.digits q length.natAbs).map reprChar).reverse) := by
  unfold baseRepr
  rw [if_neg (by omega)]
  simp only [Int.toNat_natCast]
  rw [reprLoop_eq h2 _ _ (by omega), if_neg (show ¬ length < 0 by omega), List.append_nil, if_neg]
  rw [List.map_eq_nil_iff, Nat.digits_eq_nil_iff_eq_zero]
  omega

/-- **C91**: over fields of at most ten elements, the block lengths that pass are those of the form `q^m - 1`, `m ≥ 1`. -/
theorem C91_length (q : ℕ) (h2 : 2 ≤ q) (h10 : q ≤ 10) (length : ℤ) :
    bchCheck length (some q) = .ok () ↔ ∃ m : ℕ, 1 ≤ m ∧ length = (q : ℤ) ^ m - 1 := by
  have hfield : fieldOrDefault (some (q : ℤ)) = q := by
    unfold fieldOrDefault
    simp only
    rw [if_neg (by omega)]
  have hpow : ∀ m : ℕ, 1 ≤ m → (1 : ℤ) ≤ (q : ℤ) ^ m - 1 := by
    intro m hm
    have h1 : q ^ 1 ≤ q ^ m := Nat.pow_le_pow_right (by omega) hm
    have h3 : ((q ^ m : ℕ) : ℤ) = (q : ℤ) ^ m := by push_cast; rfl
    rw [← h3]
    rw [pow_one] at h1
    omega
  have hcast : ∀ m : ℕ, ((q ^ m - 1 : ℕ) : ℤ) = (q : ℤ) ^ m - 1 := by
    intro m
    have : 1 ≤ q ^ m := Nat.one_le_pow _ _ (by omega)
    push_cast [this]
    rfl
  unfold bchCheck
  rw [hfield]
  simp only [intText_digit h2 h10, flatten_replicate_single]
  rcases lt_trichotomy length 0 with hneg | rfl | hpos
  · constructor
    · intro h
      exfalso
      unfold baseRepr at h
      rw [if_neg (by omega)] at h
      simp only [Int.toNat_natCast, hneg, if_true, Except.bind, List.append_eq_nil_iff, List.cons_ne_nil, and_false,
        if_false] at h
      split at h
      · rename_i hr
        have := (List.eq_replicate_iff.1 hr).2 '-' (by simp)
        exact reprChar_minus (q - 1) (by omega) this.symm
      · exact absurd h (by simp)
    · rintro ⟨m, hm, rfl⟩
      have := hpow m hm
      omega
  · constructor
    · intro h
      exfalso
      have hz : baseRepr 0 (q : ℤ) = .ok ['0'] := by
        unfold baseRepr
        rw [if_neg (by omega)]
        rfl
      rw [hz] at h
      simp only [Except.bind] at h
      split at h
      · rename_i hr
        have h1 := (List.eq_replicate_iff.1 hr).2 '0' (by simp)
        have h2 : reprChar 0 = reprChar (q - 1) := h1
        have := reprChar_injective 0 (by omega) (q - 1) (by omega) h2
        omega
      · exact absurd h (by simp)
    · rintro ⟨m, hm, he⟩
      have := hpow m hm
      omega
  · rw [baseRepr_eq h2 (by omega) length hpos]
    simp only [Except.bind]
    have hne : Nat.digits q length.natAbs ≠ [] := by
      rw [Ne, Nat.digits_eq_nil_iff_eq_zero]; omega
    have hdig : ∀ d ∈ Nat.digits q length.natAbs, d < q := fun d hd => Nat.digits_lt_base (by omega) hd
    constructor
    · intro h
      split at h
      · rename_i hr
        have hall := (List.eq_replicate_iff.1 hr).2
        have hrep : Nat.digits q length.natAbs = List.replicate (Nat.digits q length.natAbs).length (q - 1) := by
          rw [List.eq_replicate_iff]
          refine ⟨rfl, fun d hd => ?_⟩
          have hlt := hdig d hd
          exact reprChar_injective d (by omega) (q - 1) (by omega)
            (hall (reprChar d) (by rw [List.mem_reverse]; exact List.mem_map_of_mem hd))
        refine ⟨(Nat.digits q length.natAbs).length, List.length_pos_of_ne_nil hne, ?_⟩
        have h1 := Nat.ofDigits_digits q length.natAbs
        rw [hrep, ofDigits_replicate_top (by omega)] at h1
        rw [← hcast, h1]
        omega
      · exact absurd h (by simp)
    · rintro ⟨m, hm, he⟩
      have h1 : length.natAbs = q ^ m - 1 := by
        have := hcast m
        omega
      have h3 : Nat.digits q length.natAbs = List.replicate m (q - 1) := by
        rw [h1, ← ofDigits_replicate_top (by omega)]
        apply Nat.digits_ofDigits q (by omega)
        · intro l hl
          have := List.eq_of_mem_replicate hl
          omega
        · intro hn
          rw [List.getLast_replicate]
          omega
      rw [h3, if_pos]
      simp

/-- Without a field, or with `field=0`, codes are binary. -/
theorem C91_default (length : ℤ) : bchCheck length none = bchCheck length (some 2) ∧
    bchCheck length (some 0) = bchCheck length (some 2) := ⟨rfl, rfl⟩

theorem decimal_length_two {k : ℕ} (h : 10 ≤ k) : 2 ≤ (decimal k).length := by
  unfold decimal
  rw [← Nat.lt_iff_add_one_le, ← not_le, Nat.length_toDigits_le_iff (by omega) (by omega)]
  omega

theorem length_flatten_replicate {α : Type} (k : ℕ) (l : List α) : (List.replicate k l).flatten.length = k * l.length := by
  induction k with
  | zero => simp
  | succ k ih => simp [List.replicate_succ, ih, Nat.succ_mul, add_comm]

/-- **C91** fails over fields of more than ten elements: no block length passes, not even those of the form `q^m - 1`. -/
theorem C91_disagreement (q : ℕ) (h11 : 11 ≤ q) :
    (∀ length : ℤ, bchCheck length (some q) = .error "ValueError") ∧
      ∃ length : ℤ, (∃ m : ℕ, 1 ≤ m ∧ length = (q : ℤ) ^ m - 1) ∧ bchCheck length (some q) = .error "ValueError" := by
  have key : ∀ length : ℤ, bchCheck length (some q) = .error "ValueError" := by
    intro length
    have hfield : fieldOrDefault (some (q : ℤ)) = q := by
      unfold fieldOrDefault
      simp only
      rw [if_neg (by omega)]
    unfold bchCheck
    rw [hfield]
    simp only
    cases hb : baseRepr length q with
    | error e =>
      simp only [Except.bind]
      unfold baseRepr at hb
      split at hb
      · cases hb
        rfl
      · cases hb
    | ok text =>
      have hne : text ≠ [] := by
        unfold baseRepr at hb
        split at hb
        · cases hb
        · simp only [Except.ok.injEq] at hb
          rw [← hb]
          by_cases hr : (reprLoop (q : ℤ).toNat (length.natAbs + 1) length.natAbs ++ if length < 0 then ['-'] else []) = []
          · rw [if_pos hr]
            simp
          · rw [if_neg hr, Ne, List.reverse_eq_nil_iff]
            exact hr
      simp only [Except.bind]
      rw [if_neg]
      intro he
      have h1 := congrArg List.length he
      rw [length_flatten_replicate] at h1
      have h2 : 2 ≤ (intText ((q : ℤ) - 1)).length := by
        unfold intText
        rw [if_neg (by omega)]
        exact decimal_length_two (by omega)
      have h3 := List.length_pos_of_ne_nil hne
      nlinarith
  exact ⟨key, (q : ℤ) ^ 1 - 1, ⟨1, le_refl _, rfl⟩, key _⟩

section Codes

variable {F : Type} [Field F] [DecidableEq F] {n : ℕ}

/-- **C91** for the code: if the constructor succeeds, the block length is `q^m - 1`, the checks are those of galois, and
the dimension that the code reports is right whenever galois provides a matrix of a code of the given dimension. -/
theorem C91_code (bch : ℤ → ℤ → Except String (Rows F n)) (length : ℤ) (k q : ℕ) (h2 : 2 ≤ q) (c : CCode F n)
    (h : bchCode bch length k (some q) = .ok c) :
    (q ≤ 10 ∧ ∃ m : ℕ, 1 ≤ m ∧ length = (q : ℤ) ^ m - 1) ∧ bch length k = .ok c.matrix ∧ c.dimension = k ∧
      ((∀ H, bch length k = .ok H → codeDim H = k) → c.dimension = codeDim c.matrix) := by
  unfold bchCode at h
  cases hc : bchCheck length (some q) with
  | error e => rw [hc] at h; cases h
  | ok u =>
    rw [hc] at h
    simp only [Except.bind] at h
    cases hb : bch length k with
    | error e => rw [hb] at h; cases h
    | ok H =>
      rw [hb] at h
      simp only [Except.map, Except.ok.injEq] at h
      subst h
      have h10 : q ≤ 10 := by
        by_contra hq
        rw [(C91_disagreement q (by omega)).1 length] at hc
        cases hc
      exact ⟨⟨h10, (C91_length q h2 h10 length).1 hc⟩, rfl, rfl, fun hd => (hd H rfl).symm⟩

/-- Conversely the constructor succeeds for every block length `q^m - 1` with `q ≤ 10` for which galois has a code. -/
theorem C91_success (bch : ℤ → ℤ → Except String (Rows F n)) (k q m : ℕ) (h2 : 2 ≤ q) (h10 : q ≤ 10) (hm : 1 ≤ m) (H : Rows F n)
    (hb : bch ((q : ℤ) ^ m - 1) k = .ok H) :
    ∃ c, bchCode bch ((q : ℤ) ^ m - 1) k (some q) = .ok c ∧ c.matrix = H ∧ c.dimension = k := by
  refine ⟨{ matrix := H, dim? := some k }, ?_, rfl, rfl⟩
  unfold bchCode
  rw [(C91_length q h2 h10 _).2 ⟨m, hm, rfl⟩, hb]
  rfl

/-- `ReedSolomonCode` reports the dimension it was asked for; this is right whenever galois provides a matrix of a code of
this dimension. -/
theorem C91_reed_solomon (rs : ℤ → ℤ → Except String (Rows F n)) (bits : ℤ) (k : ℕ) (c : CCode F n)
    (h : reedSolomonCode rs bits k = .ok c) :
    rs bits k = .ok c.matrix ∧ c.dimension = k ∧ ((∀ H, rs bits k = .ok H → codeDim H = k) → c.dimension = codeDim c.matrix) := by
  unfold reedSolomonCode at h
  cases hb : rs bits k with
  | error e => rw [hb] at h; cases h
  | ok H =>
    rw [hb] at h
    simp only [Except.map, Except.ok.injEq] at h
    subst h
    exact ⟨rfl, rfl, fun hd => (hd H rfl).symm⟩

end Codes

section Examples

example : bchCheck 15 (some 2) = .ok () := (C91_length 2 (by omega) (by omega) 15).2 ⟨4, by omega, by norm_num⟩
example : bchCheck 63 (some 4) = .ok () := (C91_length 4 (by omega) (by omega) 63).2 ⟨3, by omega, by norm_num⟩
example : bchCheck 14 (some 2) = .error "ValueError" := by decide +kernel
/-- The binary code with the one check `1 1 1`. -/
private def oneCheck : ℤ → ℤ → Except String (Rows (ZMod 2) 3) := fun _ _ => .ok [fun _ => 1]
example : ∃ c, bchCode oneCheck ((2 : ℕ) ^ 2 - 1) 2 (some (2 : ℕ)) = .ok c ∧ c.matrix = [fun _ => 1] ∧ c.dimension = 2 :=
  C91_success oneCheck 2 2 2 (by omega) (by omega) (by omega) _ rfl
example : ∃ c, reedSolomonCode oneCheck 3 2 = .ok c := ⟨_, rfl⟩

end Examples

#print axioms C91_length
#print axioms C91_default
#print axioms C91_disagreement
#print axioms C91_code
#print axioms C91_success
#print axioms C91_reed_solomon

/-! ### Instances of the theorems: concrete cases meet the hypotheses -/

example := C91_code (fun _ _ => .ok ([![0, 0, 0, 1, 1, 1, 1], ![0, 1, 1, 0, 0, 1, 1], ![1, 0, 1, 0, 1, 0, 1]] : Rows (ZMod 2) 7)) 7 4 2
  (by decide) { matrix := [![0, 0, 0, 1, 1, 1, 1], ![0, 1, 1, 0, 0, 1, 1], ![1, 0, 1, 0, 1, 0, 1]], dim? := some 4 } (by rfl)
example := C91_reed_solomon (fun _ _ => .ok ([![1, 1, 1]] : Rows (ZMod 2) 3)) 3 2 { matrix := [![1, 1, 1]], dim? := some 2 } (by rfl)

end QLDPC.Props
