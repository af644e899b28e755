import Verif.Lemmas.Strings
import Mathlib.Data.ZMod.Basic
import Mathlib.Data.List.TakeWhile
import Mathlib.Tactic.FinCases

/-! # C18, C19, C69: text -/

namespace QLDPC.Props

open Spec

/-- The character table restricted to ASCII, for examples. -/
def asciiTable : CharTable where
  numeric := Char.isDigit
  digit c := if c.isDigit then some (c.toNat - '0'.toNat) else none
  space c := c = ' ' || c = '\t' || c = '\n'

theorem asciiTable_ok : asciiTable.Ok where
  numeric_digit c h := h
  digit c h := by simp [asciiTable, h]
  numeric_of_digit c h := by
    by_contra hc
    exact h (by simp only [asciiTable] at hc ⊢; rw [if_neg (by simpa using hc)])
  not_numeric c h := by
    simp only [List.mem_cons, List.not_mem_nil, or_false] at h
    rcases h with rfl | rfl | rfl | rfl | rfl | rfl <;> decide
  not_numeric_space c h := by
    simp only [asciiTable, Bool.or_eq_true, decide_eq_true_eq] at h
    rcases h with (rfl | rfl) | rfl <;> decide
  space := by decide
  not_space c h := by
    simp only [List.mem_cons, List.not_mem_nil, or_false] at h
    rcases h with rfl | rfl | rfl | rfl | rfl | rfl | rfl | rfl | rfl | rfl <;> decide

/-- The integers of the prime field `F_p`. -/
def primeInts (p : ℕ) [NeZero p] : FieldInts (ZMod p) where
  order := p
  toInt x := x.val
  ofInt z := if 0 ≤ z ∧ z < p then some (z : ZMod p) else none

theorem primeInts_ok (p : ℕ) [NeZero p] (hp : 1 < p) : Spec.FieldInts.Ok (primeInts p) where
  ofInt_toInt x := by
    simp only [primeInts]
    rw [if_pos ⟨by omega, by exact_mod_cast ZMod.val_lt x⟩]
    simp
  toInt_ofInt z x h := by
    simp only [primeInts] at h ⊢
    split at h
    · rename_i hz
      have h := Option.some.inj h
      subst h
      rw [ZMod.val_intCast, Int.emod_eq_of_lt hz.1 hz.2]
    · cases h
  nonneg x := Int.natCast_nonneg _
  zero := by simp [primeInts]
  one := by
    haveI : Fact (1 < p) := ⟨hp⟩
    simp only [primeInts, ZMod.val_one, Nat.cast_one]
  two h x := by
    simp only [primeInts] at h ⊢
    have := ZMod.val_lt x
    omega

variable {t : CharTable}

/-! ### C19 -/

/-- C19: `QuditOperator.from_string` accepts a text exactly if it is `I`, or one or two factors `X(k)`,
`Y(k)`, `Z(k)` joined by `*`, with `k` a decimal numeral; its value then has the exponents set by the factors
from left to right. -/
theorem C19_from_string (ht : t.Ok) (s : List Char) (e : ℤ × ℤ) :
    quditFromString t s = .ok e ↔ IsQuditText t s e := quditFromString_iff ht

/-- C19: `QuditOperator.from_string(str(op)) == op` if the exponents are not negative. -/
theorem C19_round_trip (ht : t.Ok) (e : ℤ × ℤ) (h1 : 0 ≤ e.1) (h2 : 0 ≤ e.2) :
    quditFromString t (quditToString e) = .ok e := quditFromString_toString ht h1 h2

/-- C19: different operators have different texts. -/
theorem C19_injective (ht : t.Ok) (e e' : ℤ × ℤ) (h : 0 ≤ e.1 ∧ 0 ≤ e.2) (h' : 0 ≤ e'.1 ∧ 0 ≤ e'.2)
    (heq : quditToString e = quditToString e') : e = e' := by
  have := C19_round_trip ht e h.1 h.2
  rw [heq, C19_round_trip ht e' h'.1 h'.2] at this
  exact (Except.ok.inj this).symm

/-- C19, disagreement: the text of an operator with a negative exponent (as given by `-op`) cannot be read
back. -/
theorem C19_negative_disagreement (ht : t.Ok) (e : ℤ × ℤ) (h : e.1 < 0 ∨ e.2 < 0) (v : ℤ × ℤ) :
    quditFromString t (quditToString e) ≠ .ok v := by
  intro hq
  have hminus : '-' ∈ quditToString e := by
    have hi : ∀ z : ℤ, z < 0 → '-' ∈ intText z := fun z hz => by simp [intText, hz]
    unfold quditToString
    rw [if_neg (by omega)]
    split
    · rename_i heq
      have := hi e.2 (by omega)
      simp [this]
    · by_cases h1 : e.1 = 0
      · have h2 : e.2 < 0 := by omega
        have := hi _ h2
        simp [h1, h2.ne, List.intercalate, List.intersperse, this]
      · by_cases h2 : e.2 = 0
        · have h1' : e.1 < 0 := by omega
          have := hi _ h1'
          simp [h1, h2, List.intercalate, List.intersperse, this]
        · simp only [ne_eq, h1, not_false_eq_true, if_true, h2]
          rcases h with h | h <;>
            simp [List.intercalate, List.intersperse, hi _ h]
  have hno : ∀ (s : List Char) (p : Char) (k : ℕ), IsFactor t s p k → '-' ∉ s := by
    rintro s p k ⟨hp, w, hw, rfl⟩ hm
    simp only [List.cons_append, List.nil_append, List.mem_cons, List.mem_append, List.not_mem_nil,
      or_false] at hm
    rcases hm with h | h | h | h
    · subst h
      simp at hp
    · exact absurd h (by decide)
    · have := IsNumeral.numeric ht hw _ h
      rw [ht.not_numeric '-' (by simp)] at this
      simp at this
    · exact absurd h (by decide)
  have := (quditFromString_iff ht).1 hq
  revert hminus
  generalize quditToString e = s at this
  cases this with
  | one => simp
  | single hf => exact hno _ _ _ hf
  | double hf hf' =>
    intro hm
    rcases List.mem_append.1 hm with hm | hm
    · exact hno _ _ _ hf hm
    · rcases List.mem_cons.1 hm with hm | hm
      · exact absurd hm (by decide)
      · exact hno _ _ _ hf' hm

/-- C19, disagreement: a product with the same letter twice is accepted, and the first factor is lost. -/
theorem C19_repeated_disagreement :
    (quditFromString asciiTable "X(1)*X(2)".toList).toOption = some (2, 0) := by
  decide +kernel

/-- C19, disagreement: an empty factor raises an `IndexError`, not the `ValueError` of other bad texts. -/
theorem C19_empty_disagreement :
    (match quditFromString asciiTable "X(1)*".toList with
      | .ok _ => false | .error e => decide (e = "IndexError")) = true := by
  decide +kernel

example : quditToString (12, 7) = "X(12)*Z(7)".toList := by decide +kernel
example : (quditFromString asciiTable "Z(3)*X(10)".toList).toOption = some (10, 3) := by decide +kernel
example : quditFromString asciiTable (quditToString (12, 7)) = .ok (12, 7) :=
  C19_round_trip asciiTable_ok _ (by decide) (by decide)

/-! ### C18 -/

variable {F : Type} [Zero F] [One F]

/-- C18: `from_strings` accepts exactly nonempty lists of checks, each made of one operator text per qudit
between white space, and returns the matrix with these operators. -/
theorem C18_from_strings (ht : t.Ok) (fi : FieldInts F) (hf : Spec.FieldInts.Ok fi)
    (checks : List (List Char)) (n : ℕ) (M : Rows F (n + n)) :
    fromStrings t fi checks = .ok ⟨n, M⟩ ↔
      checks ≠ [] ∧ List.Forall₂ (fun s r => RowText t fi s r) checks M := fromStrings_iff ht hf

/-- C18: `get_strings` never fails, and gives one text per check with one operator per qudit. -/
theorem C18_get_strings (ht : t.Ok) (fi : FieldInts F) (hf : Spec.FieldInts.Ok fi) (n : ℕ)
    (M : Rows F (n + n)) :
    ∃ ss, getStrings fi M = some ss ∧ List.Forall₂ (fun s r => RowText t fi s r) ss M :=
  getStrings_spec ht hf M

/-- C18: `from_strings(*code.get_strings(), field=q)` reproduces the parity check matrix of a code with at
least one check. -/
theorem C18_round_trip (ht : t.Ok) (fi : FieldInts F) (hf : Spec.FieldInts.Ok fi) (n : ℕ)
    (M : Rows F (n + n)) (hM : M ≠ []) :
    ∃ ss, getStrings fi M = some ss ∧ fromStrings t fi ss = .ok ⟨n, M⟩ := by
  obtain ⟨ss, h1, h2⟩ := getStrings_spec ht hf M
  refine ⟨ss, h1, (fromStrings_iff ht hf).2 ⟨?_, h2⟩⟩
  rintro rfl
  cases h2
  exact hM rfl

/-- C18, disagreement: a code without checks has no strings, from which it cannot be rebuilt. -/
theorem C18_no_checks_disagreement (fi : FieldInts F) (n : ℕ) :
    getStrings fi ([] : Rows F (n + n)) = some [] ∧
      fromStrings t fi [] = .error "IndexError" := ⟨rfl, rfl⟩

/-- C18: `op_to_string` gives stim the letter of each qubit, and fails if an entry is neither 0 nor 1. -/
theorem C18_op_to_string (n : ℕ) (op : Fin (n + n) → ℤ) (ps : List (List Char)) :
    opToString op = some ps ↔ (∀ j, op j = 0 ∨ op j = 1) ∧ ∃ h : ps.length = n, ∀ i : Fin n,
      ps.get (i.cast h.symm) = if xPart op i = 0 then (if zPart op i = 0 then ['I'] else ['Z'])
        else if zPart op i = 0 then ['X'] else ['Y'] := by
  have key : ∀ (a b : ℤ) (s : List Char), pauliToString (a, b) = some s ↔ (a = 0 ∨ a = 1) ∧ (b = 0 ∨ b = 1) ∧
      s = if a = 0 then (if b = 0 then ['I'] else ['Z']) else if b = 0 then ['X'] else ['Y'] := by
    intro a b s
    unfold pauliToString
    by_cases a0 : a = 0
    · by_cases b0 : b = 0
      · simp [a0, b0, eq_comm]
      · by_cases b1 : b = 1
        · simp [a0, b1, eq_comm]
        · simp [a0, b0, b1]
    · by_cases a1 : a = 1
      · by_cases b0 : b = 0
        · simp [a1, b0, eq_comm]
        · by_cases b1 : b = 1
          · simp [a1, b1, eq_comm]
          · simp [a1, b0, b1]
      · simp [a0, a1]
  unfold opToString
  rw [mapM_some_iff, List.forall₂_iff_get]
  simp only [List.length_finRange, key]
  constructor
  · rintro ⟨hl, h⟩
    refine ⟨fun j => ?_, hl.symm, fun i => ?_⟩
    · refine Fin.addCases (fun i => ?_) (fun i => ?_) j
      · have := (h i.val i.isLt (by omega)).1
        simpa [xPart] using this
      · have := (h i.val i.isLt (by omega)).2.1
        simpa [zPart, -Fin.natAdd_eq_addNat] using this
    · have := (h i.val i.isLt (by omega)).2.2
      simpa using this
  · rintro ⟨h0, hl, h⟩
    refine ⟨hl.symm, fun i h1 h2 => ?_⟩
    refine ⟨h0 _, h0 _, ?_⟩
    have := h ⟨i, h1⟩
    simpa using this

/-- The matrix of the strings `X Z Y`, `I X Z`. -/
def sampleChecks : Rows (ZMod 2) (3 + 3) := [![1, 0, 1, 0, 1, 1], ![0, 1, 0, 0, 0, 1]]

example : getStrings (primeInts 2) sampleChecks = some ["X Z Y".toList, "I X Z".toList] := by decide +kernel
example : getStrings (n := 2) (primeInts 5) [![1, 0, 4, 3], ![2, 0, 2, 0]] =
    some ["X(1)*Z(4) Z(3)".toList, "Y(2) I".toList] := by decide +kernel
example : ∃ ss, getStrings (primeInts 2) sampleChecks = some ss ∧
    fromStrings asciiTable (primeInts 2) ss = .ok ⟨3, sampleChecks⟩ :=
  C18_round_trip asciiTable_ok _ (primeInts_ok 2 (by decide)) 3 _ (by simp [sampleChecks])
example : opToString (n := 2) ![1, 0, 1, 1] = some [['Y'], ['Z']] := by decide +kernel

/-! ### C69 -/

/-- C69: parsing the text GAP prints for a product of (nonempty) cycles of positive integers gives these
cycles with all integers decremented. -/
theorem C69_parse (ht : t.Ok) (cycles : List (List ℕ)) (h : ∀ c ∈ cycles, c ≠ []) :
    parseGapLine t (gapText cycles) = some (cycles.map fun c => c.map fun i : ℕ => (i : ℤ) - 1) :=
  parseGapLine_gapText ht cycles h

/-- C69: `to_gap_cycles` writes the text of the cycles with all integers incremented. -/
theorem C69_to_gap_cycles (cycles : List (List ℕ)) :
    toGapCycles cycles = gapText (cycles.map fun c => c.map (· + 1)) := toGapCycles_eq cycles

/-- C69: parsing what `to_gap_cycles` writes gives the cyclic form back. -/
theorem C69_round_trip (ht : t.Ok) (cycles : List (List ℕ)) (h : ∀ c ∈ cycles, c ≠ []) :
    parseGapLine t (toGapCycles cycles) = some (cycles.map fun c => c.map fun i : ℕ => (i : ℤ)) := by
  rw [C69_to_gap_cycles, C69_parse ht]
  · simp [Function.comp_def]
  · intro c hc
    obtain ⟨c', h', rfl⟩ := List.mem_map.1 hc
    simpa using h c' h'

/-- C69: all generators, one for each line; blank lines are skipped. -/
theorem C69_lines (ht : t.Ok) (gens : List (List (List ℕ))) (h : ∀ g ∈ gens, ∀ c ∈ g, c ≠ [])
    (blank : List (List Char)) (hb : ∀ l ∈ blank, ∀ c ∈ l, t.space c = true) :
    parseGap t (blank ++ gens.map gapText) =
      some (gens.map fun g => g.map fun c => c.map fun i : ℕ => (i : ℤ) - 1) := by
  unfold parseGap
  have h1 : blank.filter (fun l => strip t l ≠ []) = [] := by
    refine List.filter_eq_nil_iff.2 fun l hl => ?_
    have : l.dropWhile t.space = [] := List.dropWhile_eq_nil_iff.2 (hb l hl)
    simp [strip, this]
  have h2 : (gens.map gapText).filter (fun l => strip t l ≠ []) = gens.map gapText := by
    refine List.filter_eq_self.2 fun l hl => ?_
    obtain ⟨g, -, rfl⟩ := List.mem_map.1 hl
    have hhead : ∃ l, gapText g = '(' :: l := by
      unfold gapText
      split
      · exact ⟨_, rfl⟩
      · cases g with
        | nil => contradiction
        | cons c g => exact ⟨_, by rw [List.map_cons, List.flatten_cons]; rfl⟩
    obtain ⟨l, hl⟩ := hhead
    rw [hl]
    simp only [strip, List.dropWhile_cons, ht.not_space '(' (by simp)]
    have : ∃ x ∈ (('(' :: l).reverse), ¬(t.space x = true) :=
      ⟨'(', by simp, by simp [ht.not_space '(' (by simp)]⟩
    simp only [Bool.false_eq_true, if_false, ne_eq, List.reverse_eq_nil_iff, List.dropWhile_eq_nil_iff,
      decide_not, Bool.not_eq_eq_eq_not, Bool.not_true, decide_eq_false_iff_not]
    intro hall
    obtain ⟨x, hx, hx'⟩ := this
    exact hx' (hall x hx)
  rw [List.filter_append, h1, h2, List.nil_append, mapM_some_iff, List.forall₂_map_left_iff,
    List.forall₂_map_right_iff]
  exact List.forall₂_same.2 fun g hg => C69_parse ht g (h g hg)

example : gapText [[1, 2, 10], [3, 4]] = "(1,2,10)(3,4)".toList := by decide +kernel
example : parseGapLine asciiTable "(1,2,10)(3,4)".toList = some [[0, 1, 9], [2, 3]] := by decide +kernel
example : parseGapLine asciiTable "()".toList = some [] := by decide +kernel

/-! ### Instances of the theorems: concrete cases meet the hypotheses -/

example := C19_from_string asciiTable_ok "XZ".toList (1, 1)
example := C19_injective asciiTable_ok (1, 2) (1, 2) (by decide) (by decide) rfl
example := C18_from_strings asciiTable_ok (primeInts 3) (primeInts_ok 3 (by decide)) ["XZ".toList] 2 [![1, 0, 0, 1]]
example := C18_get_strings asciiTable_ok (primeInts 3) (primeInts_ok 3 (by decide)) 2 [![1, 0, 0, 1]]
example := C69_parse asciiTable_ok [[0, 1], [2]] (by decide)
example := C69_round_trip asciiTable_ok [[0, 1], [2]] (by decide)
example := C69_lines asciiTable_ok [[[0, 1], [2]], [[1, 2]]] (by decide) [[' '], []] (by decide +kernel)

end QLDPC.Props

#print axioms QLDPC.Props.C19_from_string
#print axioms QLDPC.Props.C19_round_trip
#print axioms QLDPC.Props.C19_injective
#print axioms QLDPC.Props.C19_negative_disagreement
#print axioms QLDPC.Props.C19_repeated_disagreement
#print axioms QLDPC.Props.C19_empty_disagreement
#print axioms QLDPC.Props.C18_from_strings
#print axioms QLDPC.Props.C18_get_strings
#print axioms QLDPC.Props.C18_round_trip
#print axioms QLDPC.Props.C18_no_checks_disagreement
#print axioms QLDPC.Props.C18_op_to_string
#print axioms QLDPC.Props.C69_parse
#print axioms QLDPC.Props.C69_to_gap_cycles
#print axioms QLDPC.Props.C69_round_trip
#print axioms QLDPC.Props.C69_lines
