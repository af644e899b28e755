import Verif.Model.Text
import Verif.Spec.Text
import Verif.Lemmas.Tanner
import Mathlib.Data.Nat.Digits.Defs
import Mathlib.Tactic.Ring
import Mathlib.Tactic.IntervalCases

/-! # Lemmas on text -/

namespace QLDPC

/-- What is assumed of python's character tables, all of it on ASCII characters. -/
structure CharTable.Ok (t : CharTable) : Prop where
  numeric_digit : ∀ c : Char, c.isDigit → t.numeric c = true
  digit : ∀ c : Char, c.isDigit → t.digit c = some (c.toNat - '0'.toNat)
  numeric_of_digit : ∀ c : Char, t.digit c ≠ none → t.numeric c = true
  not_numeric : ∀ c ∈ ['*', '(', ')', ',', '-', '+'], t.numeric c = false
  not_numeric_space : ∀ c : Char, t.space c = true → t.numeric c = false
  space : t.space ' ' = true
  not_space : ∀ c ∈ ['I', 'X', 'Y', 'Z', '*', '(', ')', ',', '-', '+'], t.space c = false

variable {t : CharTable}

theorem isDigit_decimal {n : ℕ} {c : Char} (h : c ∈ decimal n) : c.isDigit = true :=
  Nat.isDigit_of_mem_toDigits (by omega) (by omega) h

theorem decimal_ne_nil (n : ℕ) : decimal n ≠ [] := Nat.toDigits_ne_nil

theorem foldlM_digits (ht : t.Ok) (l : List Char) (h : ∀ c ∈ l, c.isDigit = true) (a : ℕ) :
    l.foldlM (fun acc c => (t.digit c).map fun d => 10 * acc + d) a = some (Nat.ofDigitChars 10 l a) := by
  induction l generalizing a with
  | nil => simp [Nat.ofDigitChars_nil]
  | cons c l ih =>
    rw [List.foldlM_cons, ht.digit c (h c (by simp))]
    simp only [Option.map_some, Option.bind_eq_bind, Option.bind_some]
    rw [ih (fun c hc => h c (by simp [hc])), Nat.ofDigitChars_cons]

theorem digitsValue_decimal (ht : t.Ok) (n : ℕ) : digitsValue t (decimal n) = some n := by
  rw [digitsValue, if_neg (decimal_ne_nil n), foldlM_digits ht _ (fun c hc => isDigit_decimal hc)]
  rw [decimal, Nat.ofDigitChars_ten_toDigits]

theorem not_space_numeric (ht : t.Ok) {c : Char} (h : t.numeric c = true) : t.space c = false := by
  by_contra hc
  have := ht.not_numeric_space c (by simpa using hc)
  simp [this] at h

theorem dropWhile_none {p : Char → Bool} {l : List Char} (h : ∀ c ∈ l, p c = false) : l.dropWhile p = l := by
  cases l with
  | nil => rfl
  | cons a l => simp [List.dropWhile_cons, h a (by simp)]

theorem strip_none {l : List Char} (h : ∀ c ∈ l, t.space c = false) : strip t l = l := by
  rw [strip, dropWhile_none h, dropWhile_none (by simpa using h), List.reverse_reverse]

theorem pyInt_numeric (ht : t.Ok) {l : List Char} (h : ∀ c ∈ l, t.numeric c = true) :
    pyInt t l = (digitsValue t l).map fun v : ℕ => (v : ℤ) := by
  rw [pyInt, strip_none fun c hc => not_space_numeric ht (h c hc)]
  split
  · have := h '-' (by simp)
    rw [ht.not_numeric '-' (by simp)] at this
    simp at this
  · have := h '+' (by simp)
    rw [ht.not_numeric '+' (by simp)] at this
    simp at this
  · rfl

theorem numeric_decimal (ht : t.Ok) {n : ℕ} {c : Char} (h : c ∈ decimal n) : t.numeric c = true :=
  ht.numeric_digit c (isDigit_decimal h)

theorem pyInt_decimal (ht : t.Ok) (n : ℕ) : pyInt t (decimal n) = some (n : ℤ) := by
  rw [pyInt_numeric ht fun c hc => numeric_decimal ht hc, digitsValue_decimal ht]
  rfl

theorem intText_nonneg {z : ℤ} (h : 0 ≤ z) : intText z = decimal z.toNat := by
  rw [intText, if_neg (by omega)]
  congr 1
  omega

theorem drop_two_dropLast (p : Char) (v : List Char) :
    ((([p, '('] ++ v ++ [')']).drop 2).dropLast) = v := by simp

theorem parseFactor_ok (ht : t.Ok) {p : Char} (hp : p ∈ ['X', 'Y', 'Z']) {v : List Char} (hv : v ≠ [])
    (hn : ∀ c ∈ v, t.numeric c = true) {k : ℕ} (hk : digitsValue t v = some k) :
    parseFactor t ([p, '('] ++ v ++ [')']) = .ok (p, (k : ℤ)) := by
  have hd : (List.drop 2 (p :: '(' :: (v ++ [')']))).dropLast = v := by simp
  have hall : v.all t.numeric = true := by simpa using hn
  simp only [parseFactor, List.cons_append, List.nil_append, hd]
  rw [if_neg]
  · simp only [pyInt_numeric ht hn, hk, Option.map_some]
  · simp only [not_or, not_not]
    exact ⟨hp, ⟨hv, hall⟩, trivial⟩

/-- What a factor must look like. -/
theorem parseFactor_eq (ht : t.Ok) {s : List Char} {p : Char} {k : ℤ} :
    parseFactor t s = .ok (p, k) ↔ p ∈ ['X', 'Y', 'Z'] ∧ ∃ v : List Char, v ≠ [] ∧
      (∀ c ∈ v, t.numeric c = true) ∧ (∃ j : ℕ, digitsValue t v = some j ∧ k = j) ∧
      s = [p, '('] ++ v ++ [')'] := by
  constructor
  · intro h
    unfold parseFactor at h
    split at h
    · cases h
    · rename_i a l
      dsimp only at h
      split at h
      · cases h
      · rename_i hc
        simp only [not_or, not_not] at hc
        obtain ⟨hp, ⟨hne, hall⟩, hs⟩ := hc
        have hall' : ∀ c ∈ ((a :: l).drop 2).dropLast, t.numeric c = true := by simpa using hall
        rw [pyInt_numeric ht hall'] at h
        cases hdv : digitsValue t ((a :: l).drop 2).dropLast with
        | none => rw [hdv] at h; simp at h
        | some j =>
          rw [hdv] at h
          simp only [Option.map_some, Except.ok.injEq, Prod.mk.injEq] at h
          obtain ⟨rfl, rfl⟩ := h
          exact ⟨hp, _, hne, hall', ⟨j, hdv, rfl⟩, hs⟩
  · rintro ⟨hp, v, hv, hn, ⟨j, hj, rfl⟩, rfl⟩
    exact parseFactor_ok ht hp hv hn hj

open Spec

theorem foldlM_iff (l : List Char) (a k : ℕ) :
    l.foldlM (fun acc c => (t.digit c).map fun d => 10 * acc + d) a = some k ↔
      ∃ ds : List ℕ, l.map t.digit = ds.map some ∧ k = 10 ^ ds.length * a + Nat.ofDigits 10 ds.reverse := by
  induction l generalizing a with
  | nil =>
    constructor
    · intro h
      simp only [List.foldlM_nil, Option.pure_def, Option.some.injEq] at h
      exact ⟨[], rfl, by simp [h]⟩
    · rintro ⟨ds, h, rfl⟩
      simp only [List.map_nil] at h
      have : ds = [] := by simpa using h.symm
      subst this
      simp
  | cons c l ih =>
    rw [List.foldlM_cons]
    constructor
    · intro h
      cases hc : t.digit c with
      | none => rw [hc] at h; simp at h
      | some d =>
        rw [hc] at h
        simp only [Option.map_some, Option.bind_eq_bind, Option.bind_some] at h
        obtain ⟨ds, h1, h2⟩ := (ih _).1 h
        refine ⟨d :: ds, by simp [hc, h1], ?_⟩
        rw [h2, List.reverse_cons, Nat.ofDigits_append]
        simp only [List.length_cons, List.length_reverse, Nat.ofDigits_singleton]
        ring
    · rintro ⟨ds, h, rfl⟩
      cases ds with
      | nil => simp at h
      | cons d ds =>
        simp only [List.map_cons, List.cons.injEq] at h
        rw [h.1]
        simp only [Option.map_some, Option.bind_eq_bind, Option.bind_some]
        refine (ih _).2 ⟨ds, h.2, ?_⟩
        rw [List.reverse_cons, Nat.ofDigits_append]
        simp only [List.length_cons, List.length_reverse, Nat.ofDigits_singleton]
        ring

theorem digitsValue_iff {l : List Char} {k : ℕ} : digitsValue t l = some k ↔ IsNumeral t l k := by
  unfold digitsValue IsNumeral
  by_cases h : l = []
  · simp [h]
  · rw [if_neg h, foldlM_iff]
    simp [h]

theorem IsNumeral.numeric (ht : t.Ok) {l : List Char} {k : ℕ} (h : IsNumeral t l k) :
    ∀ c ∈ l, t.numeric c = true := by
  obtain ⟨-, ds, h, -⟩ := h
  intro c hc
  refine ht.numeric_of_digit c ?_
  have : t.digit c ∈ ds.map some := h ▸ List.mem_map_of_mem hc
  obtain ⟨d, -, hd⟩ := List.mem_map.1 this
  simp [← hd]

theorem parseFactor_iff (ht : t.Ok) {s : List Char} {p : Char} {k : ℤ} :
    parseFactor t s = .ok (p, k) ↔ ∃ j : ℕ, k = j ∧ IsFactor t s p j := by
  rw [parseFactor_eq ht]
  constructor
  · rintro ⟨hp, v, -, -, ⟨j, hj, rfl⟩, rfl⟩
    exact ⟨j, rfl, by simpa using hp, v, digitsValue_iff.1 hj, rfl⟩
  · rintro ⟨j, rfl, hp, v, hv, rfl⟩
    exact ⟨by simpa using hp, v, hv.1, IsNumeral.numeric ht hv, ⟨j, digitsValue_iff.2 hv, rfl⟩, rfl⟩

theorem IsFactor.no_star (ht : t.Ok) {s : List Char} {p : Char} {k : ℕ} (h : IsFactor t s p k) : '*' ∉ s := by
  obtain ⟨hp, v, hv, rfl⟩ := h
  intro hm
  simp only [List.cons_append, List.nil_append, List.mem_cons, List.mem_append, List.not_mem_nil,
    or_false] at hm
  rcases hm with h | h | h | h
  · subst h
    simp at hp
  · exact absurd h (by decide)
  · have := IsNumeral.numeric ht hv _ h
    rw [ht.not_numeric '*' (by simp)] at this
    simp at this
  · exact absurd h (by decide)

theorem IsFactor.ne_one {s : List Char} {p : Char} {k : ℕ} (h : IsFactor t s p k) : s ≠ ['I'] := by
  obtain ⟨hp, v, hv, rfl⟩ := h
  simp

theorem applyFactor_eq {e : ℤ × ℤ} {p : Char} {k : ℕ} (hp : p = 'X' ∨ p = 'Y' ∨ p = 'Z') :
    applyFactor e (p, (k : ℤ)) = setExponents e p k := by
  rcases hp with rfl | rfl | rfl <;> simp [applyFactor, setExponents]

theorem except_map_ok {ε α β : Type} {f : α → β} {x : Except ε α} {b : β} :
    x.map f = .ok b ↔ ∃ a, x = .ok a ∧ f a = b := by
  cases x <;> simp [Except.map]

/-- `from_string` accepts exactly the texts of the grammar, with their exponents. -/
theorem quditFromString_iff (ht : t.Ok) {s : List Char} {e : ℤ × ℤ} :
    quditFromString t s = .ok e ↔ IsQuditText t s e := by
  constructor
  · intro h
    unfold quditFromString at h
    split at h
    · rename_i hs
      simp only [Except.ok.injEq] at h
      subst hs; subst h
      exact .one
    · split at h
      · cases h
      · rename_i hlen
        have hjoin := List.intercalate_splitOn (xs := s) '*'
        match hl : s.splitOn '*' with
        | [] => exact absurd hl (List.splitOn_ne_nil _ _)
        | [a] =>
          rw [hl] at h hjoin
          simp only [List.foldlM_cons, List.foldlM_nil] at h
          have h' : (parseFactor t a).map (applyFactor (0, 0)) = .ok e := by
            cases hx : (parseFactor t a).map (applyFactor (0, 0)) with
            | error e => rw [hx] at h; cases h
            | ok v => rw [hx] at h; exact h
          obtain ⟨⟨p, k⟩, h1, h2⟩ := except_map_ok.1 h'
          obtain ⟨j, rfl, hf⟩ := (parseFactor_iff ht).1 h1
          rw [applyFactor_eq hf.1] at h2
          simp only [List.intercalate, List.intersperse, List.flatten_cons, List.flatten_nil,
            List.append_nil] at hjoin
          subst hjoin; subst h2
          exact .single hf
        | [a, b] =>
          rw [hl] at h hjoin
          simp only [List.foldlM_cons, List.foldlM_nil] at h
          cases hx : (parseFactor t a).map (applyFactor (0, 0)) with
          | error e => rw [hx] at h; cases h
          | ok v =>
            rw [hx] at h
            cases hy : (parseFactor t b).map (applyFactor v) with
            | error e => simp only [bind, Except.bind] at h; rw [hy] at h; cases h
            | ok w =>
              simp only [bind, Except.bind] at h; rw [hy] at h
              have h : w = e := by simpa [pure, Except.pure] using h
              obtain ⟨⟨p, k⟩, h1, h2⟩ := except_map_ok.1 hx
              obtain ⟨j, rfl, hf⟩ := (parseFactor_iff ht).1 h1
              obtain ⟨⟨p', k'⟩, h1', h2'⟩ := except_map_ok.1 hy
              obtain ⟨j', rfl, hf'⟩ := (parseFactor_iff ht).1 h1'
              rw [applyFactor_eq hf.1] at h2
              rw [applyFactor_eq hf'.1] at h2'
              have : s = a ++ '*' :: b := by
                rw [← hjoin]; simp [List.intercalate, List.intersperse]
              subst h2; subst h2'; subst h; subst this
              exact .double hf hf'
        | a :: b :: c :: l => rw [hl] at hlen; simp at hlen
  · intro h
    cases h with
    | one => rfl
    | single hf =>
      unfold quditFromString
      rw [if_neg (IsFactor.ne_one hf), List.splitOn_eq_singleton (IsFactor.no_star ht hf)]
      rw [if_neg (by simp), List.foldlM_cons, (parseFactor_iff ht).2 ⟨_, rfl, hf⟩]
      simp [Except.map, applyFactor_eq hf.1, bind, Except.bind, pure, Except.pure]
    | double hf hf' =>
      unfold quditFromString
      rw [if_neg, List.splitOn_append_cons_self, List.splitOn_eq_singleton (IsFactor.no_star ht hf),
        List.splitOn_eq_singleton (IsFactor.no_star ht hf')]
      · rw [if_neg (by simp), List.singleton_append, List.foldlM_cons, (parseFactor_iff ht).2 ⟨_, rfl, hf⟩]
        simp only [Except.map, applyFactor_eq hf.1, bind, Except.bind]
        rw [List.foldlM_cons, (parseFactor_iff ht).2 ⟨_, rfl, hf'⟩]
        simp [Except.map, applyFactor_eq hf'.1, bind, Except.bind, pure, Except.pure]
      · obtain ⟨hp, v, hv, rfl⟩ := hf
        simp

theorem isNumeral_decimal (ht : t.Ok) (n : ℕ) : IsNumeral t (decimal n) n :=
  digitsValue_iff.1 (digitsValue_decimal ht n)

/-- Reading what was printed. -/
theorem quditFromString_toString (ht : t.Ok) {v : ℤ × ℤ} (h1 : 0 ≤ v.1) (h2 : 0 ≤ v.2) :
    quditFromString t (quditToString v) = .ok v := by
  obtain ⟨x, z⟩ := v
  lift x to ℕ using h1
  lift z to ℕ using h2
  rw [quditFromString_iff ht]
  have hX : ∀ k : ℕ, intText (k : ℤ) = decimal k := fun k => by rw [intText_nonneg (by omega)]; simp
  have fac : ∀ (p : Char) (k : ℕ), (p = 'X' ∨ p = 'Y' ∨ p = 'Z') →
      IsFactor t ([p, '('] ++ decimal k ++ [')']) p k :=
    fun p k hp => ⟨hp, _, isNumeral_decimal ht k, rfl⟩
  unfold quditToString
  simp only [hX]
  split
  · rename_i h
    obtain ⟨h1, h2⟩ := h
    simp only [h1, h2]
    exact .one
  · rename_i h
    split
    · rename_i h'
      have h' : x = z := by exact_mod_cast h'
      subst h'
      have := IsQuditText.single (fac 'Y' x (by simp))
      simpa [setExponents] using this
    · by_cases hx : x = 0
      · subst hx
        by_cases hz : z = 0
        · exact absurd ⟨rfl, by simp [hz]⟩ h
        · have := IsQuditText.single (fac 'Z' z (by simp))
          simpa [setExponents, hz, List.intercalate, List.intersperse] using this
      · by_cases hz : z = 0
        · subst hz
          have := IsQuditText.single (fac 'X' x (by simp))
          simpa [setExponents, hx, List.intercalate, List.intersperse] using this
        · have := IsQuditText.double (fac 'X' x (by simp)) (fac 'Z' z (by simp))
          simpa [setExponents, hx, hz, List.intercalate, List.intersperse] using this

end QLDPC
