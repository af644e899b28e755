import Verif.Lemmas.Regex
import Verif.Lemmas.Strings

/-! # Reading group algebra elements printed by GAP -/

namespace QLDPC

open QLDPC.Spec

variable {t : CharTable} {g : List (ℕ × List Char)}

theorem First.seq_cons {a : Regex} {l : List Regex} {s r q : MatchState} (h : First a s r) (h' : First (.seq l) r q) :
    First (.seq (a :: l)) s q := First.cat h h'

theorem First.seq_nil (s : MatchState) : First (.seq []) s s := First.eps s

theorem Fails.seq {a : Regex} {l : List Regex} {s : MatchState} (h : Fails a s) : Fails (.seq (a :: l)) s := Fails.cat h

theorem Fails.seq_lit {c : Char} {l : List Regex} {r : List Char} (h : Fails (.seq l) (r, g)) :
    Fails (.seq (.lit c :: l)) (c :: r, g) := Fails.cat_of_eq (run_char (by simp)) h

/-! ### Numbers -/

theorem number_digit (ht : t.Ok) {n : ℕ} {c : Char} (h : c ∈ number n) : (t.digit c).isSome = true := by
  rw [ht.digit c (isDigit_decimal h)]
  rfl

theorem number_ne_nil (n : ℕ) : number n ≠ [] := decimal_ne_nil n

theorem number_not_mem {n : ℕ} {c : Char} (h : c.isDigit = false) : c ∉ number n := fun hc => by
  have h' := isDigit_decimal hc
  rw [h] at h'
  cases h'

theorem not_digit (ht : t.Ok) {c : Char} (h : c ∈ ['*', '(', ')', ',', '-', '+']) : t.digit c = none := by
  by_contra hc
  have h1 := ht.numeric_of_digit c hc
  rw [ht.not_numeric c h] at h1
  cases h1

theorem first_integer (ht : t.Ok) (n : ℕ) {r : List Char} (hr : ∀ c ∈ r.head?, t.digit c = none) :
    First (reInteger t) (number n ++ r, g) (r, g) := by
  have hd : ∀ (l : List Char), (∀ c ∈ l, (t.digit c).isSome = true) →
      First (.star (.digit t)) (l ++ r, g) (r, g) := by
    intro l
    induction l with
    | nil =>
      intro _
      exact First.star_stop (Fails.char fun c hc => by simp [hr c hc])
    | cons c l ih =>
      intro h
      refine First.star_step (r := (l ++ r, g)) ?_ (by simp) (ih fun d hd => h d (by simp [hd]))
      unfold First Regex.digit
      rw [List.cons_append, run_char (h c (by simp))]
      rfl
  obtain ⟨c, l, hl⟩ := List.exists_cons_of_ne_nil (number_ne_nil n)
  have hall : ∀ d ∈ number n, (t.digit d).isSome = true := fun d hd => number_digit ht hd
  rw [hl] at hall ⊢
  refine First.plus (r := (l ++ r, g)) ?_ (hd l fun d hd => hall d (by simp [hd]))
  unfold First Regex.digit
  rw [List.cons_append, run_char (hall c (by simp))]
  rfl

theorem fails_integer {r : List Char} (hr : ∀ c ∈ r.head?, t.digit c = none) : Fails (reInteger t) (r, g) :=
  Fails.plus (Fails.char fun c hc => by simp [hr c hc])

theorem first_power (ht : t.Ok) (hc : t.digit '^' = none) (k : Option ℕ) (r : List Char) :
    First (.opt (rePower t)) (exponentText k ++ ')' :: r, g) (')' :: r, g) := by
  cases k with
  | none =>
    exact First.right (Fails.seq (Fails.lit (by simp [exponentText]))) (First.eps _)
  | some k =>
    refine First.left (First.seq_cons (First.lit '^' _ g) (First.seq_cons (first_integer ht k ?_) (First.seq_nil _)))
    simp [not_digit ht]

theorem exponent_not_digit (ht : t.Ok) (hc : t.digit '^' = none) (k : Option ℕ) (r : List Char) :
    ∀ c ∈ (exponentText k ++ ')' :: r).head?, t.digit c = none := by
  cases k with
  | none => simp [exponentText, not_digit ht]
  | some k => simp [exponentText, hc]

/-! ### Coefficients -/

theorem coefText_eq (e : GapTerm) (r : List Char) : e.coefText ++ r =
    '(' :: 'Z' :: '(' :: (number e.p ++ (exponentText e.k ++ ')' :: (exponentText e.m ++ ')' :: r))) := by
  simp [GapTerm.coefText, List.append_assoc]

theorem first_coefficient (ht : t.Ok) (hc : t.digit '^' = none) (e : GapTerm) (r : List Char) :
    First (reCoefficient t) (e.coefText ++ r, g) (r, g) := by
  rw [coefText_eq]
  exact First.seq_cons (First.lit _ _ _) (First.seq_cons (First.lit _ _ _) (First.seq_cons (First.lit _ _ _)
    (First.seq_cons (first_integer ht _ (exponent_not_digit ht hc _ _)) (First.seq_cons (first_power ht hc _ _)
      (First.seq_cons (First.lit _ _ _) (First.seq_cons (first_power ht hc _ _) (First.seq_cons (First.lit _ _ _)
        (First.seq_nil _))))))))

/-- The groups captured for an exponent. -/
def expGroup (i : ℕ) : Option ℕ → List (ℕ × List Char)
  | none => []
  | some k => [(i, number k)]

theorem first_power_group (ht : t.Ok) (i : ℕ) (k : Option ℕ) (r : List Char) :
    First (.opt (.seq [.lit '^', .group i (reInteger t)])) (exponentText k ++ ')' :: r, g)
      (')' :: r, expGroup i k ++ g) := by
  cases k with
  | none => exact First.right (Fails.seq (Fails.lit (by simp [exponentText]))) (First.eps _)
  | some k =>
    refine First.left (First.seq_cons (First.lit '^' _ g) (First.seq_cons (First.group i (first_integer ht k ?_))
      (First.seq_nil _)))
    simp [not_digit ht]

theorem first_components (ht : t.Ok) (hc : t.digit '^' = none) (e : GapTerm) :
    (reComponents t).first e.coefText =
      some ([], expGroup 3 e.m ++ (expGroup 2 e.k ++ [(1, number e.p)])) := by
  have h := coefText_eq e []
  rw [List.append_nil] at h
  rw [h]
  exact First.seq_cons (First.lit _ _ _) (First.seq_cons (First.lit _ _ _) (First.seq_cons (First.lit _ _ _)
    (First.seq_cons (First.group 1 (first_integer ht _ (exponent_not_digit ht hc _ _)))
      (First.seq_cons (first_power_group ht 2 _ _) (First.seq_cons (First.lit _ _ _)
        (First.seq_cons (first_power_group ht 3 _ _) (First.seq_cons (First.lit _ _ _) (First.seq_nil _))))))))

theorem groupOrOne_number (ht : t.Ok) {gs : List (ℕ × List Char)} {i k : ℕ} (h : gs.lookup i = some (number k)) :
    groupOrOne t gs i = some k := by
  unfold groupOrOne
  rw [h]
  split
  · simp_all
  · rename_i h'
    exact absurd (Option.some.inj h') (number_ne_nil k)
  · rename_i s _ h'
    obtain rfl := Option.some.inj h'
    exact digitsValue_decimal ht k

theorem parseCoefficient_text (ht : t.Ok) (hc : t.digit '^' = none) (e : GapTerm) :
    parseCoefficient t e.coefText = some (e.p, e.k.getD 1, e.m.getD 1) := by
  unfold parseCoefficient
  rw [first_components ht hc]
  have h1 : (expGroup 3 e.m ++ (expGroup 2 e.k ++ [(1, number e.p)])).lookup 1 = some (number e.p) := by
    cases e.m <;> cases e.k <;> simp [expGroup, List.lookup]
  have h2 : groupOrOne t (expGroup 3 e.m ++ (expGroup 2 e.k ++ [(1, number e.p)])) 2 = some (e.k.getD 1) := by
    cases hk : e.k with
    | none => cases e.m <;> simp [expGroup, List.lookup, groupOrOne]
    | some k => exact groupOrOne_number ht (by cases e.m <;> simp [expGroup, List.lookup])
  have h3 : groupOrOne t (expGroup 3 e.m ++ (expGroup 2 e.k ++ [(1, number e.p)])) 3 = some (e.m.getD 1) := by
    cases hk : e.m with
    | none => cases e.k <;> simp [expGroup, List.lookup, groupOrOne]
    | some k => exact groupOrOne_number ht (by simp [expGroup, List.lookup])
  simp only [Option.bind_some, h1, h2, h3, Option.map_some]
  rw [show digitsValue t (number e.p) = some e.p from digitsValue_decimal ht e.p]
  rfl

/-! ### Cycles -/

/-- The text of one cycle. -/
def cycleText (c : List ℕ) : List Char := '(' :: ([','].intercalate (c.map number) ++ [')'])

/-- The texts of the cycles of a permutation; that of the identity has one empty cycle. -/
def cycleTexts (cycles : List (List ℕ)) : List (List ℕ) := if cycles = [] then [[]] else cycles

theorem gapText_eq (cycles : List (List ℕ)) : gapText cycles = ((cycleTexts cycles).map cycleText).flatten := by
  unfold gapText cycleTexts
  split
  · simp [cycleText]
  · simp only [List.cons_append, List.nil_append]
    rfl

theorem intercalate_cons (sep x : List Char) (xs : List (List Char)) :
    sep.intercalate (x :: xs) = x ++ (xs.map (sep ++ ·)).flatten := by
  induction xs generalizing x with
  | nil => simp [List.intercalate]
  | cons y ys ih =>
    rw [List.intercalate_cons_cons, ih]
    simp [List.append_assoc]

theorem comma_head (ht : t.Ok) (is : List ℕ) (v : List Char) :
    ∀ c ∈ (((is.map number).map ([','] ++ ·)).flatten ++ ')' :: v).head?, t.digit c = none := by
  cases is with
  | nil => simp [not_digit ht]
  | cons i is => simp [not_digit ht]

theorem first_cycle (ht : t.Ok) (c : List ℕ) (v : List Char) :
    First (reCycle t) (cycleText c ++ v, g) (v, g) := by
  cases c with
  | nil =>
    refine First.right ?_ (First.seq_cons (First.lit '(' _ g) (First.seq_cons (First.lit ')' _ g) (First.seq_nil _)))
    exact Fails.seq_lit (Fails.seq (fails_integer (by simp [not_digit ht])))
  | cons i is =>
    refine First.left ?_
    have e : cycleText (i :: is) ++ v =
        '(' :: (number i ++ (((is.map number).map ([','] ++ ·)).flatten ++ ')' :: v)) := by
      rw [cycleText, List.map_cons, intercalate_cons]
      simp [List.append_assoc]
    rw [e]
    refine First.seq_cons (First.lit _ _ _) (First.seq_cons (first_integer ht i ?_) (First.seq_cons ?_
      (First.seq_cons (First.lit ')' v g) (First.seq_nil _))))
    · exact comma_head ht is v
    · refine First.star_pieces (fun v => ∀ c ∈ v.head?, t.digit c = none) _ _ ?_ ?_ ?_ ?_ ?_
      · intro u hu
        obtain ⟨w, -, rfl⟩ := List.mem_map.1 hu
        simp
      · intro u hu v
        obtain ⟨w, -, rfl⟩ := List.mem_map.1 hu
        simp [not_digit ht]
      · simp [not_digit ht]
      · intro u hu v hv
        obtain ⟨w, hw, rfl⟩ := List.mem_map.1 hu
        obtain ⟨j, -, rfl⟩ := List.mem_map.1 hw
        exact First.seq_cons (First.lit ',' _ g) (First.seq_cons (first_integer ht j hv) (First.seq_nil _))
      · exact Fails.seq (Fails.lit (by simp))

theorem fails_cycle {r : List Char} (h : ∀ c ∈ r.head?, c ≠ '(') : Fails (reCycle t) (r, g) :=
  Fails.alt (Fails.seq (Fails.lit h)) (Fails.seq (Fails.lit h))

theorem cycleTexts_ne_nil (cycles : List (List ℕ)) : cycleTexts cycles ≠ [] := by
  unfold cycleTexts
  split <;> simp_all

theorem first_cycles (ht : t.Ok) (cycles : List (List ℕ)) {r : List Char} (hr : ∀ c ∈ r.head?, c ≠ '(') :
    First (reCycles t) (gapText cycles ++ r, g) (r, g) := by
  rw [gapText_eq]
  obtain ⟨c, cs, hcs⟩ := List.exists_cons_of_ne_nil (cycleTexts_ne_nil cycles)
  rw [hcs, List.map_cons, List.flatten_cons, List.append_assoc]
  refine First.plus (first_cycle ht c _) (First.star_pieces (fun _ => True) _ _ ?_ (fun _ _ _ => trivial) trivial ?_
    (fails_cycle hr))
  · intro u hu
    obtain ⟨w, -, rfl⟩ := List.mem_map.1 hu
    simp [cycleText]
  · intro u hu v _
    obtain ⟨w, -, rfl⟩ := List.mem_map.1 hu
    exact first_cycle ht w v

/-! ### Terms and sums -/

theorem text_eq (e : GapTerm) (r : List Char) : e.text ++ r = e.coefText ++ '*' :: (gapText e.cycles ++ r) := by
  simp [GapTerm.text, List.append_assoc]

theorem text_ne_nil (e : GapTerm) : e.text ≠ [] := by simp [GapTerm.text, GapTerm.coefText]

theorem first_term (ht : t.Ok) (hc : t.digit '^' = none) (e : GapTerm) {r : List Char}
    (hr : ∀ c ∈ r.head?, c ≠ '(') : First (reTerm t) (e.text ++ r, g) (r, g) := by
  rw [text_eq]
  exact First.seq_cons (first_coefficient ht hc e _) (First.seq_cons (First.lit '*' _ g)
    (First.seq_cons (first_cycles ht e.cycles hr) (First.seq_nil _)))

theorem fails_term {r : List Char} (h : ∀ c ∈ r.head?, c ≠ '(') : Fails (reTerm t) (r, g) :=
  Fails.seq (Fails.seq (Fails.lit h))

theorem sumText_cons (e : GapTerm) (es : List GapTerm) (r : List Char) :
    sumText (e :: es) ++ r = e.text ++ (((es.map fun e => '+' :: e.text).flatten) ++ r) := by
  rw [sumText, List.map_cons, intercalate_cons, List.append_assoc, List.map_map]
  rfl

theorem first_member (ht : t.Ok) (hc : t.digit '^' = none) {es : List GapTerm} (hes : es ≠ []) {r : List Char}
    (hr : ∀ c ∈ r.head?, c ≠ '(' ∧ c ≠ '+') : First (reMember t) (sumText es ++ r, g) (r, g) := by
  obtain ⟨e, es, rfl⟩ := List.exists_cons_of_ne_nil hes
  rw [sumText_cons]
  have hhead : ∀ c ∈ ((es.map fun e => '+' :: e.text).flatten ++ r).head?, c ≠ '(' := by
    cases es with
    | nil => intro c h; exact (hr c (by simpa using h)).1
    | cons e es => simp
  refine First.seq_cons (first_term ht hc e hhead) (First.seq_cons ?_ (First.seq_nil _))
  refine First.star_pieces (fun v => ∀ c ∈ v.head?, c ≠ '(') _ _ ?_ ?_ (fun c h => (hr c h).1) ?_ ?_
  · intro u hu
    obtain ⟨w, -, rfl⟩ := List.mem_map.1 hu
    simp
  · intro u hu v
    obtain ⟨w, -, rfl⟩ := List.mem_map.1 hu
    simp
  · intro u hu v hv
    obtain ⟨w, -, rfl⟩ := List.mem_map.1 hu
    exact First.seq_cons (First.lit '+' _ g) (First.seq_cons (first_term ht hc w hv) (First.seq_nil _))
  · exact Fails.seq (Fails.lit fun c h => (hr c h).2)

/-! ### All matches -/

theorem find_members (ht : t.Ok) (hc : t.digit '^' = none) {text : List Char} {ms : List (List GapTerm)}
    (h : IsGapOutput text ms) : (reMember t).find text = ms.map sumText := by
  have hskip : ∀ c r, c ≠ '(' → Fails (reMember t) (c :: r, []) := fun c r h =>
    Fails.seq (fails_term (by simpa using h))
  have key : ∀ n, text.length ≤ n → (reMember t).findFuel n text = ms.map sumText := by
    induction h with
    | @nil s hs =>
      intro n hn
      obtain ⟨m, -, e⟩ := find_skip (fun c => c ≠ '(') hskip s [] n (fun c h h' => hs (h' ▸ h)) (by simpa using hn)
      rw [List.append_nil] at e
      rw [e, find_nil (re := reMember t) (Fails.seq (fails_term (by simp)))]
      rfl
    | @cons s es r ms hs hes _ hr ih =>
      intro n hn
      rw [List.append_assoc] at hn ⊢
      obtain ⟨m, hm, e⟩ := find_skip (fun c => c ≠ '(') hskip s (sumText es ++ r) n (fun c h h' => hs (h' ▸ h)) hn
      obtain ⟨m', hm', e'⟩ := find_step (re := reMember t) (n := m) (u := sumText es) (r := r) (gs := []) (by
        obtain ⟨e₀, es, rfl⟩ := List.exists_cons_of_ne_nil hes
        intro h0
        have := sumText_cons e₀ es []
        rw [h0] at this
        exact text_ne_nil e₀ (List.append_eq_nil_iff.1 this.symm).1) (first_member ht hc hes hr) hm
      rw [e, e', ih m' hm']
      rfl
  exact key _ le_rfl

theorem find_terms (ht : t.Ok) (hc : t.digit '^' = none) (es : List GapTerm) :
    (reTerm t).find (sumText es) = es.map GapTerm.text := by
  have hskip : ∀ c r, c ≠ '(' → Fails (reTerm t) (c :: r, []) := fun c r h => fails_term (by simpa using h)
  have key : ∀ (es : List GapTerm) (n : ℕ), ((es.map fun e => '+' :: e.text).flatten).length ≤ n →
      (reTerm t).findFuel n ((es.map fun e => '+' :: e.text).flatten) = es.map GapTerm.text := by
    intro es
    induction es with
    | nil => intro n _; exact find_nil (fails_term (by simp)) n
    | cons e es ih =>
      intro n hn
      have e1 : ((e :: es).map fun e => '+' :: e.text).flatten =
          ['+'] ++ (e.text ++ (es.map fun e => '+' :: e.text).flatten) := by simp
      rw [e1] at hn ⊢
      obtain ⟨m, hm, h1⟩ := find_skip (fun c => c ≠ '(') hskip ['+'] _ n (by simp) hn
      obtain ⟨m', hm', h2⟩ := find_step (text_ne_nil e) (first_term ht hc e (r :=
        (es.map fun e => '+' :: e.text).flatten) (by cases es <;> simp)) hm
      rw [h1, h2, ih m' hm']
      rfl
  cases es with
  | nil => exact find_nil (fails_term (by simp)) _
  | cons e es =>
    have e1 : sumText (e :: es) = e.text ++ (es.map fun e => '+' :: e.text).flatten := by
      have := sumText_cons e es []
      simpa using this
    unfold Regex.find
    rw [e1]
    obtain ⟨m, hm, h2⟩ := find_step (text_ne_nil e) (first_term ht hc e (r :=
      (es.map fun e => '+' :: e.text).flatten) (by cases es <;> simp)) le_rfl
    rw [h2, key es m hm]
    rfl

theorem find_cycles (ht : t.Ok) (cycles : List (List ℕ)) :
    (reCycle t).find (gapText cycles) = (cycleTexts cycles).map cycleText := by
  have key : ∀ (cs : List (List ℕ)) (n : ℕ), ((cs.map cycleText).flatten).length ≤ n →
      (reCycle t).findFuel n ((cs.map cycleText).flatten) = cs.map cycleText := by
    intro cs
    induction cs with
    | nil => intro n _; exact find_nil (fails_cycle (by simp)) n
    | cons c cs ih =>
      intro n hn
      rw [List.map_cons, List.flatten_cons] at hn ⊢
      obtain ⟨m, hm, h⟩ := find_step (by simp [cycleText]) (first_cycle ht c _) hn
      rw [h, ih m hm]
  rw [gapText_eq]
  exact key _ _ le_rfl

theorem find_integers (ht : t.Ok) (c : List ℕ) : (reInteger t).find (cycleText c) = c.map number := by
  have hskip : ∀ d r, t.digit d = none → Fails (reInteger t) (d :: r, []) := fun d r h =>
    fails_integer (by simpa using h)
  have hend : ∀ n, 1 ≤ n → (reInteger t).findFuel n [')'] = [] := by
    intro n hn
    obtain ⟨m, -, h⟩ := find_skip _ hskip [')'] [] n (by simp [not_digit ht]) (by simpa using hn)
    rw [List.append_nil] at h
    rw [h]
    exact find_nil (fails_integer (by simp)) m
  have key : ∀ (is : List ℕ) (n : ℕ), (((is.map number).map ([','] ++ ·)).flatten ++ [')']).length ≤ n →
      (reInteger t).findFuel n (((is.map number).map ([','] ++ ·)).flatten ++ [')']) = is.map number := by
    intro is
    induction is with
    | nil => intro n hn; exact hend n (by simpa using hn)
    | cons i is ih =>
      intro n hn
      have e : ((((i :: is).map number).map ([','] ++ ·)).flatten ++ [')']) =
          [','] ++ (number i ++ (((is.map number).map ([','] ++ ·)).flatten ++ [')'])) := by
        simp [List.append_assoc]
      rw [e] at hn ⊢
      obtain ⟨m, hm, h1⟩ := find_skip _ hskip [','] _ n (by simp [not_digit ht]) hn
      obtain ⟨m', hm', h2⟩ := find_step (number_ne_nil i) (first_integer ht i (comma_head ht is [])) hm
      rw [h1, h2, ih m' hm']
      rfl
  unfold Regex.find
  cases c with
  | nil =>
    obtain ⟨m, hm, h1⟩ := find_skip _ hskip ['('] [')'] 2 (by simp [not_digit ht]) (by simp)
    have e : cycleText [] = ['('] ++ [')'] := by simp [cycleText]
    rw [e]
    exact h1.trans (hend m (by simpa using hm))
  | cons i is =>
    have e : cycleText (i :: is) = ['('] ++ (number i ++ (((is.map number).map ([','] ++ ·)).flatten ++ [')'])) := by
      rw [cycleText, List.map_cons, intercalate_cons]
      simp [List.append_assoc]
    rw [e]
    obtain ⟨m, hm, h1⟩ := find_skip _ hskip ['('] _ _ (by simp [not_digit ht]) le_rfl
    obtain ⟨m', hm', h2⟩ := find_step (number_ne_nil i) (first_integer ht i (comma_head ht is [])) hm
    rw [h1, h2, key is m' hm']
    rfl

theorem parseCycles_text (ht : t.Ok) (cycles : List (List ℕ)) :
    parseCycles t (gapText cycles) = some ((cycleTexts cycles).map fun c => c.map fun i : ℕ => (i : ℤ) - 1) := by
  unfold parseCycles
  rw [find_cycles ht, mapM_some_iff, List.forall₂_map_left_iff, List.forall₂_map_right_iff]
  refine List.forall₂_same.2 fun c _ => ?_
  rw [find_integers ht, mapM_some_iff, List.forall₂_map_left_iff, List.forall₂_map_right_iff]
  refine List.forall₂_same.2 fun i _ => ?_
  rw [show digitsValue t (number i) = some i from digitsValue_decimal ht i]
  rfl

theorem mem_intercalate_comma {c : Char} {l : List (List Char)} (h : c ∈ [','].intercalate l) :
    c = ',' ∨ ∃ w ∈ l, c ∈ w := by
  cases l with
  | nil => simp [List.intercalate] at h
  | cons x xs =>
    rw [intercalate_cons] at h
    simp only [List.mem_append, List.mem_flatten, List.mem_map] at h
    rcases h with h | ⟨w, ⟨v, hv, rfl⟩, hw⟩
    · exact .inr ⟨x, by simp, h⟩
    · rcases List.mem_append.1 hw with hw | hw
      · exact .inl (by simpa using hw)
      · exact .inr ⟨v, by simp [hv], hw⟩

theorem star_not_mem (e : GapTerm) : '*' ∉ e.coefText ∧ '*' ∉ gapText e.cycles := by
  have hn : ∀ n, '*' ∉ number n := fun n => number_not_mem (by decide)
  have he : ∀ k, '*' ∉ exponentText k := fun k => by
    cases k with
    | none => simp [exponentText]
    | some k => simp [exponentText, hn k]
  constructor
  · simp [GapTerm.coefText, hn, he]
  · rw [gapText_eq]
    intro h
    obtain ⟨w, hw, hc⟩ := List.mem_flatten.1 h
    obtain ⟨c, -, rfl⟩ := List.mem_map.1 hw
    simp only [cycleText, List.mem_cons, List.mem_append, List.not_mem_nil, or_false] at hc
    rcases hc with hc | hc | hc
    · simp at hc
    · rcases mem_intercalate_comma hc with hc | ⟨w, hw, hc⟩
      · simp at hc
      · obtain ⟨i, -, rfl⟩ := List.mem_map.1 hw
        exact hn i hc
    · simp at hc

theorem splitOn_text (e : GapTerm) : e.text.splitOn '*' = [e.coefText, gapText e.cycles] := by
  have h := text_eq e []
  rw [List.append_nil, List.append_nil] at h
  rw [h]
  change (e.coefText ++ '*' :: gapText e.cycles).splitOnP (· == '*') = _
  have h1 := (star_not_mem e).1
  have h2 := (star_not_mem e).2
  rw [List.splitOnP_append_cons _ _ (by decide), List.splitOnP_eq_singleton (xs := e.coefText),
    List.splitOnP_eq_singleton (xs := gapText e.cycles)]
  · rfl
  · intro c hc
    simpa using fun h : c = '*' => h2 (h ▸ hc)
  · intro c hc
    simpa using fun h : c = '*' => h1 (h ▸ hc)

/-- What is read for a term. -/
theorem parseTerm_text (ht : t.Ok) (hc : t.digit '^' = none) (generator : ℕ → ℕ → Option ℤ) (toField : ℤ → Option ℤ)
    (e : GapTerm) : parseTerm t generator toField e.text =
      ((generator (e.p ^ e.k.getD 1) (e.m.getD 1)).bind toField).map fun v =>
        (v, (cycleTexts e.cycles).map fun c => c.map fun i : ℕ => (i : ℤ) - 1) := by
  unfold parseTerm
  rw [splitOn_text]
  simp only [parseCoefficient_text ht hc, parseCycles_text ht, Option.bind_some, Option.map_some]
  cases (generator (e.p ^ e.k.getD 1) (e.m.getD 1)).bind toField <;> rfl

/-- What is read of the output. -/
theorem parseIdempotents_text (ht : t.Ok) (hc : t.digit '^' = none) (generator : ℕ → ℕ → Option ℤ)
    (toField : ℤ → Option ℤ) {text : List Char} {ms : List (List GapTerm)} (h : IsGapOutput text ms) :
    parseIdempotents t generator toField text = ms.mapM fun es => es.mapM fun e =>
      ((generator (e.p ^ e.k.getD 1) (e.m.getD 1)).bind toField).map fun v =>
        (v, (cycleTexts e.cycles).map fun c => c.map fun i : ℕ => (i : ℤ) - 1) := by
  unfold parseIdempotents
  rw [find_members ht hc h, List.mapM_map]
  congr 1
  funext es
  simp only [Function.comp_apply, find_terms ht hc, List.mapM_map]
  congr 1
  funext e
  exact parseTerm_text ht hc _ _ e

end QLDPC
