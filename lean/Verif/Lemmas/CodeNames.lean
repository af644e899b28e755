import Verif.Model.CodeNames
import Verif.Lemmas.GroupNames
import Verif.Lemmas.Regex
import Verif.Lemmas.Text

/-! # Lemmas on codes by name -/

namespace QLDPC

open QLDPC.Spec

/-! ### Splitting and replacing -/

theorem occursAt_take {pat text : List Char} {i j : ℕ} (h : OccursAt pat (text.take i) j) : OccursAt pat text j := by
  obtain ⟨a, b, hab, ha⟩ := h
  refine ⟨a, b ++ text.drop i, ?_, ha⟩
  conv_lhs => rw [← List.take_append_drop i text, hab]
  simp only [List.append_assoc]

theorem infix_iff_occursAt {pat text : List Char} : pat <:+: text ↔ ∃ i, OccursAt pat text i := by
  constructor
  · rintro ⟨a, b, h⟩; exact ⟨_, a, b, h.symm, rfl⟩
  · rintro ⟨i, a, b, h, -⟩; exact ⟨a, b, h.symm⟩

theorem splitFuel_spec {sep : List Char} (hs : sep ≠ []) : ∀ (n : ℕ) (text : List Char), text.length ≤ n →
    sep.intercalate (splitFuel sep n text) = text ∧ splitFuel sep n text ≠ [] ∧
      ∀ w ∈ splitFuel sep n text, ¬ sep <:+: w
  | 0, text, h => by
    have : text = [] := List.length_eq_zero_iff.1 (by omega)
    subst this
    refine ⟨by simp [splitFuel, List.intercalate], by simp [splitFuel], ?_⟩
    intro w hw
    obtain rfl : w = [] := by simpa [splitFuel] using hw
    intro h
    exact hs (List.infix_nil.1 h)
  | n + 1, text, h => by
    rw [splitFuel]
    cases hf : textFind sep text with
    | none =>
      refine ⟨by simp [List.intercalate], by simp, ?_⟩
      intro w hw
      obtain rfl : w = text := by simpa using hw
      intro hi
      obtain ⟨i, hi⟩ := infix_iff_occursAt.1 hi
      exact textFind_eq_none.1 hf i hi
    | some i =>
      simp only
      obtain ⟨⟨a, b, hab, ha⟩, hfirst⟩ := textFind_eq_some.1 hf
      have hlen : 0 < sep.length := List.length_pos_iff.2 hs
      have hdrop : text.drop (i + sep.length) = b := by
        rw [hab, ← ha, ← List.length_append, List.drop_left]
      have htake : text.take i = a := by
        rw [hab, ← ha, List.append_assoc, List.take_left]
      have hl : text.length = a.length + sep.length + b.length := by rw [hab]; simp; omega
      obtain ⟨h1, h2, h3⟩ := splitFuel_spec hs n b (by omega)
      rw [hdrop]
      refine ⟨?_, by simp, ?_⟩
      · obtain ⟨x, xs, hx⟩ := List.exists_cons_of_ne_nil h2
        rw [hx] at h1 ⊢
        have : sep.intercalate (text.take i :: x :: xs) = text.take i ++ sep ++ sep.intercalate (x :: xs) := by
          simp [List.intercalate, List.intersperse]
        rw [this, h1, htake, hab]
      · intro w hw
        rcases List.mem_cons.1 hw with rfl | hw
        · intro hi
          obtain ⟨j, hj⟩ := infix_iff_occursAt.1 hi
          have hj' := occursAt_take hj
          refine hfirst j ?_ hj'
          obtain ⟨c, d, hcd, hc⟩ := hj
          have := congrArg List.length hcd
          simp only [List.length_append, List.length_take] at this
          omega
        · exact h3 w hw

theorem splitText_spec {sep : List Char} (hs : sep ≠ []) (text : List Char) :
    sep.intercalate (splitText sep text) = text ∧ splitText sep text ≠ [] ∧ ∀ w ∈ splitText sep text, ¬ sep <:+: w :=
  splitFuel_spec hs _ _ le_rfl

theorem intercalate_cons_cons (sep w x : List Char) (xs : List (List Char)) :
    sep.intercalate (w :: x :: xs) = w ++ (sep ++ sep.intercalate (x :: xs)) := by
  simp [List.intercalate, List.intersperse]

/-- No occurrence of `pat` begins in a text without the first letter of `pat`. -/
theorem infix_skip {a : Char} {p : List Char} : ∀ {u r : List Char}, a ∉ u → (a :: p) <:+: (u ++ r) → (a :: p) <:+: r
  | [], _, _, h => h
  | c :: u, r, hu, h => by
    rw [List.cons_append, List.infix_cons_iff] at h
    rcases h with h | h
    · obtain ⟨s, hs⟩ := h
      rw [List.cons_append] at hs
      exact absurd (List.cons.inj hs).1 (fun e => hu (by rw [e]; simp))
    · exact infix_skip (fun hm => hu (by simp [hm])) h

/-- An occurrence of `pat` in `w ++ r`, where `r` begins with the first letter of `pat` and this letter occurs only once in
`pat`, is an occurrence in `w` or in `r`. -/
theorem infix_boundary {a : Char} {p : List Char} (hp : a ∉ p) {r : List Char} : ∀ {w : List Char},
    (a :: p) <:+: (w ++ (a :: r)) → (a :: p) <:+: w ∨ (a :: p) <:+: (a :: r)
  | [], h => .inr h
  | c :: w, h => by
    rw [List.cons_append, List.infix_cons_iff] at h
    rcases h with h | h
    · have h' : (a :: p) <+: (c :: w) ++ (a :: r) := h
      rcases List.prefix_or_prefix_of_prefix h' (List.prefix_append (c :: w) (a :: r)) with h1 | h1
      · exact .inl h1.isInfix
      · obtain ⟨s, hs⟩ := h1
        cases s with
        | nil => exact .inl (by rw [← hs, List.append_nil])
        | cons x s =>
          obtain ⟨z, hz⟩ := h'
          rw [← hs, List.append_assoc] at hz
          have hx : x = a := (List.cons.inj (List.append_cancel_left hz)).1
          rw [List.cons_append] at hs
          exact absurd (by rw [← (List.cons.inj hs).2, hx]; simp) hp
    · rcases infix_boundary hp h with h | h
      · exact .inl (List.infix_cons h)
      · exact .inr h

theorem not_infix_intercalate {a : Char} {p q : List Char} (hp : a ∉ p) (hq : a ∉ q)
    (hpq : ∀ r, ¬ (a :: p) <+: (a :: q) ++ r) : ∀ ws : List (List Char), (∀ w ∈ ws, ¬ (a :: p) <:+: w) →
      ¬ (a :: p) <:+: (a :: q).intercalate ws
  | [], _ => by simp [List.intercalate]
  | [w], h => by simpa [List.intercalate] using h w (by simp)
  | w :: x :: xs, h => by
    rw [intercalate_cons_cons, List.cons_append]
    intro hi
    rcases infix_boundary hp hi with h1 | h1
    · exact h w (by simp) h1
    · rw [List.infix_cons_iff] at h1
      rcases h1 with h1 | h1
      · exact hpq _ h1
      · exact not_infix_intercalate hp hq hpq (x :: xs) (fun w hw => h w (by simp [hw])) (infix_skip hq h1)

/-! ### The line with the field -/

theorem first_digits {g : List (ℕ × List Char)} : ∀ {ds r : List Char}, (∀ c ∈ ds, c.isDigit = true) →
    (∀ c ∈ r.head?, c.isDigit = false) → First (.star (.char Char.isDigit)) (ds ++ r, g) (r, g)
  | [], r, _, hr => First.star_stop (Fails.char hr)
  | d :: ds, r, hd, hr => by
    refine First.star_step (r := (ds ++ r, g)) ?_ (by simp) (first_digits (fun c hc => hd c (by simp [hc])) hr)
    unfold First
    rw [List.cons_append, run_char (hd d (by simp))]
    rfl

theorem first_plus_digits {g : List (ℕ × List Char)} {ds r : List Char} (h0 : ds ≠ []) (hd : ∀ c ∈ ds, c.isDigit = true)
    (hr : ∀ c ∈ r.head?, c.isDigit = false) : First (.plus (.char Char.isDigit)) (ds ++ r, g) (r, g) := by
  obtain ⟨d, ds, rfl⟩ := List.exists_cons_of_ne_nil h0
  refine First.plus (r := (ds ++ r, g)) ?_ (first_digits (fun c hc => hd c (by simp [hc])) hr)
  unfold First
  rw [List.cons_append, run_char (hd d (by simp))]
  rfl

/-- A group around an expression that captures groups itself. -/
theorem First.group' {a : Regex} {u r : List Char} {g g' : List (ℕ × List Char)} (i : ℕ)
    (h : First a (u ++ r, g) (r, g')) : First (.group i a) (u ++ r, g) (r, (i, u) :: g') := by
  unfold First at h ⊢
  rw [Regex.run, List.head?_map, h]
  simp

theorem search_of_first {re : Regex} {text : List Char} {s : MatchState} (h : First re (text, []) s) :
    re.search text = some s := by
  have h' : re.first text = some s := h
  cases text with
  | nil => rw [Regex.search, h']
  | cons c r => rw [Regex.search, h']

end QLDPC
