import Verif.Model.Idempotents
import Verif.Spec.Idempotents
import Verif.Lemmas.Text

/-! # Lemmas on regular expressions -/

namespace QLDPC

open QLDPC.Spec

/-- The first match found. -/
def First (a : Regex) (s r : MatchState) : Prop := (a.run s).head? = some r

/-- No match. -/
def Fails (a : Regex) (s : MatchState) : Prop := a.run s = []

theorem First.eps (s : MatchState) : First .eps s s := rfl

theorem first_flatMap {α β : Type} {l : List α} {f : α → List β} {a : α} {b : β} (h : l.head? = some a)
    (h' : (f a).head? = some b) : (l.flatMap f).head? = some b := by
  cases l with
  | nil => simp at h
  | cons x l =>
    obtain rfl : x = a := by simpa using h
    cases hf : f x with
    | nil => simp [hf] at h'
    | cons y ys =>
      obtain rfl : y = b := by simpa [hf] using h'
      simp [hf]

theorem First.cat {a b : Regex} {s r q : MatchState} (h : First a s r) (h' : First b r q) : First (.cat a b) s q := by
  unfold First
  rw [Regex.run]
  exact first_flatMap h h'

theorem First.left {a b : Regex} {s r : MatchState} (h : First a s r) : First (.alt a b) s r := by
  unfold First at h ⊢
  rw [Regex.run, List.head?_append, h]
  rfl

theorem First.right {a b : Regex} {s r : MatchState} (h : Fails a s) (h' : First b s r) : First (.alt a b) s r := by
  unfold First Fails at *
  rw [Regex.run, h, List.nil_append, h']

theorem Fails.cat {a b : Regex} {s : MatchState} (h : Fails a s) : Fails (.cat a b) s := by
  unfold Fails at *
  rw [Regex.run, h, List.flatMap_nil]

theorem Fails.cat_of_eq {a b : Regex} {s r : MatchState} (h : a.run s = [r]) (h' : Fails b r) : Fails (.cat a b) s := by
  unfold Fails at *
  rw [Regex.run, h]
  simpa using h'

theorem Fails.alt {a b : Regex} {s : MatchState} (h : Fails a s) (h' : Fails b s) : Fails (.alt a b) s := by
  unfold Fails at *
  rw [Regex.run, h, h', List.nil_append]

theorem First.group {a : Regex} {u r : List Char} {g : List (ℕ × List Char)} (i : ℕ)
    (h : First a (u ++ r, g) (r, g)) : First (.group i a) (u ++ r, g) (r, (i, u) :: g) := by
  unfold First at h ⊢
  rw [Regex.run, List.head?_map, h]
  simp

theorem run_char {p : Char → Bool} {c : Char} {r : List Char} {g : List (ℕ × List Char)} (h : p c = true) :
    (Regex.char p).run (c :: r, g) = [(r, g)] := by rw [Regex.run, if_pos h]

theorem First.lit (c : Char) (r : List Char) (g : List (ℕ × List Char)) :
    First (.lit c) (c :: r, g) (r, g) := by
  unfold First Regex.lit
  rw [run_char (by simp)]
  rfl

theorem Fails.char {p : Char → Bool} {l : List Char} {g : List (ℕ × List Char)} (h : ∀ c ∈ l.head?, p c = false) :
    Fails (.char p) (l, g) := by
  unfold Fails
  cases l with
  | nil => rfl
  | cons c l =>
    rw [Regex.run, if_neg]
    simp [h c (by simp)]

theorem Fails.lit {c : Char} {l : List Char} {g : List (ℕ × List Char)} (h : ∀ d ∈ l.head?, d ≠ c) :
    Fails (.lit c) (l, g) := Fails.char fun d hd => by simpa using h d hd

/-! ### Repetition -/

theorem starRun_eq (f : MatchState → List MatchState) : ∀ (n m : ℕ) (s : MatchState), s.1.length ≤ n → s.1.length ≤ m →
    starRun f n s = starRun f m s := by
  intro n
  induction n with
  | zero =>
    intro m s hn _
    cases m with
    | zero => rfl
    | succ m =>
      have h0 : s.1.length = 0 := by omega
      simp [starRun, h0]
  | succ n ih =>
    intro m s hn hm
    cases m with
    | zero =>
      have h0 : s.1.length = 0 := by omega
      simp [starRun, h0]
    | succ m =>
      simp only [starRun]
      congr 2
      funext r
      split
      · rename_i hr
        exact ih m r (by omega) (by omega)
      · rfl

theorem First.star_stop {a : Regex} {s : MatchState} (h : Fails a s) : First (.star a) s s := by
  unfold First Fails at *
  rw [Regex.run]
  cases s.1.length with
  | zero => rfl
  | succ n => simp [starRun, h]

theorem First.star_step {a : Regex} {s r q : MatchState} (h : First a s r) (hl : r.1.length < s.1.length)
    (h' : First (.star a) r q) : First (.star a) s q := by
  unfold First at *
  rw [Regex.run] at h' ⊢
  obtain ⟨n, hn⟩ : ∃ n, s.1.length = n + 1 := ⟨s.1.length - 1, by omega⟩
  rw [hn, starRun, List.head?_append]
  have : ((a.run s).flatMap fun r => if r.1.length < s.1.length then starRun a.run n r else []).head? = some q := by
    refine first_flatMap h ?_
    rw [if_pos hl, starRun_eq _ n r.1.length r (by omega) le_rfl, h']
  rw [this]
  rfl

theorem First.plus {a : Regex} {s r q : MatchState} (h : First a s r) (h' : First (.star a) r q) :
    First (.plus a) s q := h.cat h'

theorem Fails.plus {a : Regex} {s : MatchState} (h : Fails a s) : Fails (.plus a) s := h.cat

/-- Repetition over pieces of the text; `ok` says what may follow a piece. -/
theorem First.star_pieces {a : Regex} {g : List (ℕ × List Char)} (ok : List Char → Prop) :
    ∀ (us : List (List Char)) (r : List Char), (∀ u ∈ us, u ≠ []) → (∀ u ∈ us, ∀ v, ok (u ++ v)) → ok r →
      (∀ u ∈ us, ∀ v, ok v → First a (u ++ v, g) (v, g)) →
      Fails a (r, g) → First (.star a) (us.flatten ++ r, g) (r, g) := by
  intro us
  induction us with
  | nil => intro r _ _ _ _ hf; exact First.star_stop hf
  | cons u us ih =>
    intro r hne hok hr h hf
    rw [List.flatten_cons, List.append_assoc]
    have hrest : ok (us.flatten ++ r) := by
      cases us with
      | nil => simpa using hr
      | cons w ws =>
        rw [List.flatten_cons, List.append_assoc]
        exact hok w (by simp) _
    have hu := h u (by simp) (us.flatten ++ r) hrest
    refine First.star_step hu ?_ (ih r (fun w hw => hne w (by simp [hw])) (fun w hw => hok w (by simp [hw])) hr
      (fun w hw => h w (by simp [hw])) hf)
    have := List.length_pos_iff.2 (hne u (by simp))
    simp only [List.length_append]
    omega

/-! ### `finditer` -/

theorem find_step {re : Regex} {n : ℕ} {u r : List Char} {gs : List (ℕ × List Char)} (hu : u ≠ [])
    (h : First re (u ++ r, []) (r, gs)) (hn : (u ++ r).length ≤ n) :
    ∃ m, r.length ≤ m ∧ re.findFuel n (u ++ r) = u :: re.findFuel m r := by
  obtain ⟨c, u', rfl⟩ := List.exists_cons_of_ne_nil hu
  cases n with
  | zero => simp at hn
  | succ n =>
    refine ⟨n, by simp at hn; omega, ?_⟩
    have h1 : re.first (c :: (u' ++ r)) = some (r, gs) := h
    rw [List.cons_append, Regex.findFuel, h1]
    simp only [List.length_append]
    rw [if_pos (by omega)]
    congr 1
    have : u'.length + r.length + 1 - r.length = (c :: u').length := by simp; omega
    rw [this, ← List.cons_append, List.take_left]

theorem find_skip {re : Regex} (p : Char → Prop) (hp : ∀ c r, p c → Fails re (c :: r, [])) :
    ∀ (s r : List Char) (n : ℕ), (∀ c ∈ s, p c) → (s ++ r).length ≤ n →
      ∃ m, r.length ≤ m ∧ re.findFuel n (s ++ r) = re.findFuel m r := by
  intro s
  induction s with
  | nil => intro r n _ hn; exact ⟨n, by simpa using hn, rfl⟩
  | cons c s ih =>
    intro r n hs hn
    cases n with
    | zero => simp at hn
    | succ n =>
      have h1 : re.first (c :: (s ++ r)) = none := by
        have := hp c (s ++ r) (hs c (by simp))
        unfold Fails at this
        rw [Regex.first, this]
        rfl
      obtain ⟨m, hm, he⟩ := ih r n (fun d hd => hs d (by simp [hd])) (by simpa using hn)
      exact ⟨m, hm, by rw [List.cons_append, Regex.findFuel, h1, he]⟩

theorem find_nil {re : Regex} (h : Fails re ([], [])) (n : ℕ) : re.findFuel n [] = [] := by
  have : re.first [] = none := by
    unfold Fails at h
    rw [Regex.first, h]
    rfl
  cases n <;> simp [Regex.findFuel, this]

end QLDPC
