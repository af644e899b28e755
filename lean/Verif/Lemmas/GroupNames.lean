import Verif.Model.GroupNames
import Verif.Spec.GroupNames
import Verif.Lemmas.Strings

/-! # Lemmas on searching in texts -/

namespace QLDPC

open Spec

theorem occursAt_iff {pat text : List Char} {i : ℕ} :
    OccursAt pat text i ↔ i ≤ text.length ∧ pat <+: text.drop i := by
  constructor
  · rintro ⟨a, b, rfl, rfl⟩
    refine ⟨by simp, b, ?_⟩
    rw [List.append_assoc, List.drop_left]
  · rintro ⟨h, b, hb⟩
    refine ⟨text.take i, b, ?_, by simp [h]⟩
    rw [List.append_assoc, hb, List.take_append_drop]

theorem occursAt_succ {pat r : List Char} {c : Char} {i : ℕ} :
    OccursAt pat (c :: r) (i + 1) ↔ OccursAt pat r i := by
  rw [occursAt_iff, occursAt_iff]; simp

theorem occursAt_zero {pat text : List Char} : OccursAt pat text 0 ↔ pat <+: text := by
  rw [occursAt_iff]; simp

theorem textFind_eq_some {pat : List Char} : ∀ {text : List Char} {i : ℕ},
    textFind pat text = some i ↔ FirstAt pat text i
  | [], i => by
    unfold textFind FirstAt
    cases i with
    | zero =>
      rw [occursAt_zero]
      split <;> simp_all
    | succ i =>
      rw [occursAt_iff]
      split <;> simp
  | c :: r, i => by
    unfold textFind
    by_cases h : pat.isPrefixOf (c :: r) = true
    · rw [if_pos h]
      rw [List.isPrefixOf_iff_prefix] at h
      constructor
      · intro hi
        cases hi
        exact ⟨occursAt_zero.2 h, fun j hj => absurd hj (by omega)⟩
      · rintro ⟨_, h2⟩
        cases i with
        | zero => rfl
        | succ i => exact absurd (occursAt_zero.2 h) (h2 0 (by omega))
    · rw [if_neg h]
      rw [List.isPrefixOf_iff_prefix] at h
      cases i with
      | zero =>
        constructor
        · intro hi
          cases hf : textFind pat r <;> simp [hf] at hi
        · rintro ⟨h1, _⟩
          exact absurd (occursAt_zero.1 h1) h
      | succ i =>
        have ih := textFind_eq_some (pat := pat) (text := r) (i := i)
        rw [show ((textFind pat r).map (· + 1) = some (i + 1)) ↔ textFind pat r = some i by
          cases textFind pat r <;> simp]
        rw [ih]
        unfold FirstAt
        rw [occursAt_succ]
        refine and_congr_right fun _ => ⟨fun hj j hlt => ?_, fun hj j hlt => ?_⟩
        · cases j with
          | zero => exact fun ho => h (occursAt_zero.1 ho)
          | succ j => rw [occursAt_succ]; exact hj j (by omega)
        · have := hj (j + 1) (by omega)
          rwa [occursAt_succ] at this

theorem textFind_eq_none {pat : List Char} : ∀ {text : List Char},
    textFind pat text = none ↔ ∀ i, ¬ OccursAt pat text i
  | [] => by
    unfold textFind
    split
    · rename_i h
      subst h
      simp only [reduceCtorEq, false_iff, not_forall, not_not]
      exact ⟨0, occursAt_zero.2 (List.nil_prefix)⟩
    · rename_i h
      simp only [true_iff]
      intro i hi
      obtain ⟨a, b, hab, _⟩ := hi
      simp at hab
      exact h hab.2.1
  | c :: r => by
    unfold textFind
    by_cases h : pat.isPrefixOf (c :: r) = true
    · rw [if_pos h]
      rw [List.isPrefixOf_iff_prefix] at h
      simp only [reduceCtorEq, false_iff, not_forall, not_not]
      exact ⟨0, occursAt_zero.2 h⟩
    · rw [if_neg h]
      rw [List.isPrefixOf_iff_prefix] at h
      rw [Option.map_eq_none_iff, textFind_eq_none]
      constructor
      · intro hr i
        cases i with
        | zero => exact fun ho => h (occursAt_zero.1 ho)
        | succ i => rw [occursAt_succ]; exact hr i
      · intro hr i
        have := hr (i + 1)
        rwa [occursAt_succ] at this

theorem textFind_skip {a : Char} {p w : List Char} (h : a ∉ w) (l : List Char) :
    textFind (a :: p) (w ++ l) = (textFind (a :: p) l).map (· + w.length) := by
  induction w with
  | nil => simp
  | cons c w ih =>
    have hc : a ≠ c := fun e => h (by simp [e])
    rw [List.cons_append, textFind, if_neg (by simp [List.isPrefixOf, hc])]
    rw [ih (fun hm => h (by simp [hm]))]
    cases textFind (a :: p) l with
    | none => rfl
    | some i => simp; omega

theorem textFind_none_of_not_mem {a : Char} {p w : List Char} (h : a ∉ w) :
    textFind (a :: p) w = none := by
  have := textFind_skip (p := p) h []
  rw [List.append_nil] at this
  rw [this]
  simp [textFind]

theorem textFind_here {pat : List Char} (l : List Char) : textFind pat (pat ++ l) = some 0 := by
  rw [textFind_eq_some]
  exact ⟨occursAt_zero.2 (List.prefix_append _ _), fun j hj => absurd hj (by omega)⟩

theorem textFind_after {a : Char} {p w : List Char} (h : a ∉ w) (l : List Char) :
    textFind (a :: p) (w ++ (a :: p) ++ l) = some w.length := by
  rw [List.append_assoc, textFind_skip h, textFind_here]
  simp

/-! ### Splitting -/

theorem splitFuel_join {a : Char} {p : List Char} : ∀ (ws : List (List Char)) (n : ℕ), ws ≠ [] →
    (∀ w ∈ ws, a ∉ w) → ((a :: p).intercalate ws).length ≤ n →
    splitFuel (a :: p) n ((a :: p).intercalate ws) = ws
  | [], _, h, _, _ => absurd rfl h
  | [w], n, _, h, _ => by
    have he : (a :: p).intercalate [w] = w := by simp [List.intercalate, List.intersperse]
    rw [he]
    cases n with
    | zero => rfl
    | succ n => rw [splitFuel, textFind_none_of_not_mem (h w (by simp))]
  | w :: v :: ws, n, _, h, hn => by
    have he : (a :: p).intercalate (w :: v :: ws) = w ++ (a :: p) ++ (a :: p).intercalate (v :: ws) := by
      simp [List.intercalate, List.intersperse]
    rw [he] at hn ⊢
    cases n with
    | zero => simp at hn
    | succ n =>
      rw [splitFuel, textFind_after (h w (by simp))]
      simp only
      have h1 : (w ++ (a :: p) ++ (a :: p).intercalate (v :: ws)).take w.length = w := by
        rw [List.append_assoc, List.take_left]
      have h2 : (w ++ (a :: p) ++ (a :: p).intercalate (v :: ws)).drop (w.length + (a :: p).length) =
          (a :: p).intercalate (v :: ws) := by
        rw [← List.length_append, List.drop_left]
      rw [h1, h2, splitFuel_join (v :: ws) n (by simp) (fun u hu => h u (by simp [hu])) (by
        simp only [List.length_append, List.length_cons] at hn; omega)]

theorem splitText_join {a : Char} {p : List Char} (ws : List (List Char)) (h0 : ws ≠ [])
    (h : ∀ w ∈ ws, a ∉ w) : splitText (a :: p) ((a :: p).intercalate ws) = ws :=
  splitFuel_join ws _ h0 h (le_refl _)

/-! ### Slices -/

theorem textSlice_nat (text : List Char) (i j : ℕ) :
    textSlice text (i : ℤ) (j : ℤ) = (text.take j).drop i := by
  unfold textSlice sliceIndex
  rw [if_neg (by omega), if_neg (by omega)]
  simp only [Int.toNat_natCast]
  apply List.ext_getElem?
  intro k
  simp only [List.getElem?_drop, List.getElem?_take]
  by_cases hk : i ≤ text.length
  · rw [min_eq_left hk]
    split <;> split <;> first | rfl | (rw [List.getElem?_eq_none]; omega) | (rw [eq_comm, List.getElem?_eq_none]; omega)
  · rw [min_eq_right (by omega)]
    split <;> split <;> simp <;> omega

/-! ### Lines on the page of a group -/

variable {t : CharTable}

theorem pySplit_spaces (hs : t.space ' ' = true) : ∀ ws : List (List Char), (∀ w ∈ ws, w ≠ []) →
    (∀ w ∈ ws, ∀ c ∈ w, t.space c = false) → pySplit t ([' '].intercalate ws) = ws
  | [], _, _ => by simp [List.intercalate, List.intersperse, pySplit_nil]
  | [w], h0, h => by
    simp only [List.intercalate, List.intersperse, List.flatten_cons, List.flatten_nil, List.append_nil]
    exact pySplit_word (h0 w (by simp)) (h w (by simp))
  | w :: v :: ws, h0, h => by
    have he : [' '].intercalate (w :: v :: ws) = w ++ ' ' :: [' '].intercalate (v :: ws) := by
      simp [List.intercalate, List.intersperse]
    rw [he, pySplit_word_cons (h0 w (by simp)) (h w (by simp)) hs,
      pySplit_spaces hs (v :: ws) (fun u hu => h0 u (by simp [hu])) (fun u hu => h u (by simp [hu]))]

theorem mem_cycleWord {c : List ℕ} : ∀ x ∈ [' '].intercalate (c.map (Nat.toDigits 10)),
    x = ' ' ∨ x.isDigit = true := by
  induction c with
  | nil => simp
  | cons a c ih =>
    cases c with
    | nil =>
      intro x hx
      simp only [List.intercalate, List.map_cons, List.map_nil, List.intersperse, List.flatten_cons,
        List.flatten_nil, List.append_nil] at hx
      exact .inr (Nat.isDigit_of_mem_toDigits (by omega) (by omega) hx)
    | cons b c =>
      intro x hx
      have he : [' '].intercalate ((a :: b :: c).map (Nat.toDigits 10)) =
          Nat.toDigits 10 a ++ ' ' :: [' '].intercalate ((b :: c).map (Nat.toDigits 10)) := by
        simp [List.intercalate, List.intersperse]
      rw [he] at hx
      rcases List.mem_append.1 hx with hx | hx
      · exact .inr (Nat.isDigit_of_mem_toDigits (by omega) (by omega) hx)
      · rcases List.mem_cons.1 hx with rfl | hx
        · exact .inl rfl
        · exact ih x hx

theorem parseNamesLine_generator (ht : t.Ok) (cycles : List (List ℕ)) (h0 : cycles ≠ []) :
    parseNamesLine t (generatorOnPage cycles) =
      some (cycles.map fun c => c.map fun i : ℕ => (i : ℤ) - 1) := by
  have hm : generatorOnPage cycles =
      ((cycles.map fun c => [' '].intercalate (c.map (Nat.toDigits 10))).map fun w =>
        ['('] ++ w ++ [')']).flatten := by
    simp only [generatorOnPage, List.map_map]
    rfl
  rw [hm, flatten_parens _ (by simpa using h0)]
  unfold parseNamesLine
  have hcut : ∀ l : List Char, ((['('] ++ l ++ [')']).drop 1).dropLast = l := by simp
  rw [hcut, splitParens_join _ (by simpa using h0)]
  · have hmap : ((cycles.map fun c => [' '].intercalate (c.map (Nat.toDigits 10))).mapM
        fun (c : List Char) => (pySplit t c).mapM (pyInt t)) =
        some (cycles.map fun c => c.map fun i : ℕ => (i : ℤ)) := by
      rw [mapM_some_iff, List.forall₂_map_left_iff, List.forall₂_map_right_iff]
      refine List.forall₂_same.2 fun c hc => ?_
      rw [pySplit_spaces ht.space, mapM_some_iff, List.forall₂_map_left_iff,
        List.forall₂_map_right_iff]
      · exact List.forall₂_same.2 fun i _ => pyInt_decimal ht i
      · intro w hw
        obtain ⟨i, -, rfl⟩ := List.mem_map.1 hw
        exact Nat.toDigits_ne_nil
      · intro w hw x hx
        obtain ⟨i, -, rfl⟩ := List.mem_map.1 hw
        exact not_space_numeric ht (ht.numeric_digit x (Nat.isDigit_of_mem_toDigits (by omega) (by omega) hx))
    rw [hmap]
    simp
  · intro w hw hx
    obtain ⟨c, -, rfl⟩ := List.mem_map.1 hw
    rcases mem_cycleWord _ hx with h | h
    · exact absurd h (by decide)
    · exact absurd h (by decide)

theorem mem_generatorOnPage {cycles : List (List ℕ)} : ∀ x ∈ generatorOnPage cycles,
    x = '(' ∨ x = ')' ∨ x = ' ' ∨ x.isDigit = true := by
  intro x hx
  unfold generatorOnPage at hx
  rw [List.mem_flatten] at hx
  obtain ⟨l, hl, hx⟩ := hx
  obtain ⟨c, -, rfl⟩ := List.mem_map.1 hl
  unfold cycleOnPage at hx
  rcases List.mem_append.1 hx with hx | hx
  · rcases List.mem_append.1 hx with hx | hx
    · simp at hx; exact .inl hx
    · rcases mem_cycleWord x hx with h | h
      · exact .inr (.inr (.inl h))
      · exact .inr (.inr (.inr h))
  · simp at hx; exact .inr (.inl hx)

theorem not_mem_generatorOnPage {cycles : List (List ℕ)} : '<' ∉ generatorOnPage cycles := by
  intro h
  rcases mem_generatorOnPage _ h with h | h | h | h <;> revert h <;> decide

theorem textFind_pre_end : ∀ gens : List (List (List ℕ)), ∀ l : List Char,
    textFind "</pre>".toList (generatorsOnPage gens ++ "</pre>".toList ++ l) =
      some (generatorsOnPage gens).length
  | [], l => textFind_here (pat := "</pre>".toList) l
  | [g], l => by
    have he : generatorsOnPage [g] = generatorOnPage g := by
      simp [generatorsOnPage, List.intercalate, List.intersperse]
    rw [he]
    exact textFind_after not_mem_generatorOnPage l
  | g :: g' :: gens, l => by
    have he : generatorsOnPage (g :: g' :: gens) =
        generatorOnPage g ++ ('<' :: "br>\n".toList ++ generatorsOnPage (g' :: gens)) := by
      simp [generatorsOnPage, List.intercalate, List.intersperse]
    have ih := textFind_pre_end (g' :: gens) l
    rw [he]
    rw [show generatorOnPage g ++ ('<' :: "br>\n".toList ++ generatorsOnPage (g' :: gens)) ++
        "</pre>".toList ++ l = generatorOnPage g ++ ('<' :: ("br>\n".toList ++
          (generatorsOnPage (g' :: gens) ++ "</pre>".toList ++ l))) by simp]
    rw [show "</pre>".toList = '<' :: "/pre>".toList from rfl] at ih ⊢
    rw [textFind_skip not_mem_generatorOnPage, textFind, if_neg (by simp [List.isPrefixOf]),
      textFind_skip (by decide), ih]
    simp
    omega

/-! ### Links -/

theorem firstHref_first {U url V : List Char} (hq : '"' ∉ url)
    (hf : ∀ j < U.length, ¬ OccursAt "href=\"".toList (U ++ "href=\"".toList ++ url ++ '"' :: V) j) :
    firstHref (U ++ "href=\"".toList ++ url ++ '"' :: V) = some url := by
  induction U with
  | nil =>
    have he : [] ++ "href=\"".toList ++ url ++ '"' :: V =
        'h' :: ("ref=\"".toList ++ url ++ '"' :: V) := by simp
    have hd : ('h' :: ("ref=\"".toList ++ url ++ '"' :: V)).drop 6 = url ++ '"' :: V := by simp
    have ht : (url ++ '"' :: V).takeWhile (fun d => decide (d ≠ '"')) = url := by
      rw [List.takeWhile_append_of_pos]
      · simp
      · intro a ha
        simp only [decide_eq_true_eq]
        rintro rfl
        exact hq ha
    rw [he, firstHref, if_pos (by simp [List.isPrefixOf])]
    simp only [hd, ht]
    rw [if_pos (by simp)]
  | cons c U ih =>
    have he : c :: U ++ "href=\"".toList ++ url ++ '"' :: V =
        c :: (U ++ "href=\"".toList ++ url ++ '"' :: V) := by simp
    rw [he] at hf ⊢
    have h0 := hf 0 (by simp)
    rw [occursAt_zero] at h0
    rw [firstHref, if_neg (by rwa [List.isPrefixOf_iff_prefix])]
    refine ih fun j hj => ?_
    have := hf (j + 1) (by simpa using hj)
    rwa [occursAt_succ] at this

theorem sectionAround_line {A P Q B : List Char} (hP : '\n' ∉ P) (hQ : '\n' ∉ Q) :
    sectionAround (A ++ '\n' :: (P ++ Q) ++ '\n' :: B) (A.length + 1 + P.length) = P ++ Q := by
  have hsplit : A ++ '\n' :: (P ++ Q) ++ '\n' :: B = (A ++ '\n' :: P) ++ (Q ++ '\n' :: B) := by simp
  have hlen : A.length + 1 + P.length = (A ++ '\n' :: P).length := by simp; omega
  have h1 : (A ++ '\n' :: (P ++ Q) ++ '\n' :: B).drop (A.length + 1 + P.length) = Q ++ ['\n'] ++ B := by
    rw [hsplit, hlen, List.drop_left]; simp
  have h2 : ((A ++ '\n' :: (P ++ Q) ++ '\n' :: B).take (A.length + 1 + P.length)).reverse =
      P.reverse ++ ['\n'] ++ A.reverse := by
    rw [hsplit, hlen, List.take_left]; simp
  unfold sectionAround
  rw [h1, h2]
  unfold textFindZ
  rw [textFind_after hQ, textFind_after (by simpa using hP)]
  simp only [List.length_reverse]
  rw [show (((A.length + 1 + P.length : ℕ) : ℤ) + (Q.length : ℤ)) =
    ((A.length + 1 + P.length + Q.length : ℕ) : ℤ) by push_cast; ring]
  rw [show (((A.length + 1 + P.length : ℕ) : ℤ) - (P.length : ℤ)) = ((A.length + 1 : ℕ) : ℤ) by
    push_cast; ring]
  rw [textSlice_nat]
  have h3 : A ++ '\n' :: (P ++ Q) ++ '\n' :: B = (A ++ ['\n'] ++ (P ++ Q)) ++ '\n' :: B := by simp
  rw [h3, show A.length + 1 + P.length + Q.length = (A ++ ['\n'] ++ (P ++ Q)).length by simp; omega,
    List.take_left, show A.length + 1 = (A ++ ['\n']).length by simp, List.drop_left]

/-! ### Names -/

theorem takeWhile_decimal (n : ℕ) (c : Char) (l : List Char) (hc : c.isDigit = false) :
    (Nat.toDigits 10 n ++ c :: l).takeWhile Char.isDigit = Nat.toDigits 10 n := by
  rw [List.takeWhile_append_of_pos (p := Char.isDigit) (l₁ := Nat.toDigits 10 n) fun a ha => isDigit_decimal (n := n) ha]
  simp [hc]

theorem dropWhile_decimal (n : ℕ) (c : Char) (l : List Char) (hc : c.isDigit = false) :
    (Nat.toDigits 10 n ++ c :: l).dropWhile Char.isDigit = c :: l := by
  rw [List.dropWhile_append_of_pos (p := Char.isDigit) (l₁ := Nat.toDigits 10 n) fun a ha => isDigit_decimal (n := n) ha]
  simp [hc]

theorem matchSmallGroup_prefix (order index : ℕ) (rest : List Char) :
    matchSmallGroup (smallGroupText order index ++ rest) = some (order, index) := by
  have he : smallGroupText order index ++ rest =
      "SmallGroup(".toList ++ (Nat.toDigits 10 order ++ ',' :: (Nat.toDigits 10 index ++ ')' :: rest)) := by
    unfold smallGroupText
    generalize "SmallGroup(".toList = S
    generalize Nat.toDigits 10 order = d
    generalize Nat.toDigits 10 index = e
    simp
  unfold matchSmallGroup
  rw [he, if_pos (by rw [List.isPrefixOf_iff_prefix]; exact List.prefix_append _ _)]
  have hd : ("SmallGroup(".toList ++ (Nat.toDigits 10 order ++ ',' ::
      (Nat.toDigits 10 index ++ ')' :: rest))).drop 11 =
      Nat.toDigits 10 order ++ ',' :: (Nat.toDigits 10 index ++ ')' :: rest) :=
    List.drop_left (l₁ := "SmallGroup(".toList)
  simp only [hd]
  rw [takeWhile_decimal _ _ _ (by decide), dropWhile_decimal _ _ _ (by decide)]
  simp only
  rw [takeWhile_decimal _ _ _ (by decide), dropWhile_decimal _ _ _ (by decide)]
  simp only
  rw [if_pos ⟨Nat.toDigits_ne_nil, Nat.toDigits_ne_nil⟩, Nat.ofDigitChars_ten_toDigits,
    Nat.ofDigitChars_ten_toDigits]

/-! ### Cells -/

theorem matchCell_cell (order index : ℕ) (l : List Char) :
    matchCell order (cellOnPage order index ++ l) = some (index, l) := by
  have he : cellOnPage order index ++ l = ("<td>".toList ++ decimal order ++ [',']) ++
      (Nat.toDigits 10 index ++ '<' :: ("/td>".toList ++ l)) := by
    simp [cellOnPage, decimal]
  unfold matchCell
  rw [he]
  simp only
  rw [if_pos (by rw [List.isPrefixOf_iff_prefix]; exact List.prefix_append _ _), List.drop_left,
    takeWhile_decimal _ _ _ (by decide), dropWhile_decimal _ _ _ (by decide),
    if_pos ⟨Nat.toDigits_ne_nil, by simp [List.isPrefixOf]⟩, Nat.ofDigitChars_ten_toDigits]
  rfl

/-- A match is text that begins as a cell does and ends as a cell does, with digits in between. -/
theorem matchCell_some {order v : ℕ} {text rest : List Char} (h : matchCell order text = some (v, rest)) :
    ∃ digits : List Char, digits ≠ [] ∧ (∀ c ∈ digits, c.isDigit = true) ∧
      v = Nat.ofDigitChars 10 digits 0 ∧
      text = "<td>".toList ++ decimal order ++ [','] ++ digits ++ "</td>".toList ++ rest := by
  unfold matchCell at h
  simp only at h
  split at h
  · rename_i h1
    rw [List.isPrefixOf_iff_prefix] at h1
    obtain ⟨r, hr⟩ := h1
    rw [← hr, List.drop_left] at h
    split at h
    · rename_i h2
      obtain ⟨h2, h3⟩ := h2
      rw [List.isPrefixOf_iff_prefix] at h3
      obtain ⟨r', hr'⟩ := h3
      rw [← hr'] at h
      have h5 : ("</td>".toList ++ r').drop 5 = r' := List.drop_left (l₁ := "</td>".toList)
      rw [h5] at h
      simp only [Option.some.injEq, Prod.mk.injEq] at h
      refine ⟨_, h2, ?_, h.1.symm, ?_⟩
      · intro c hc
        exact List.all_eq_true.1 List.all_takeWhile c hc
      · rw [← hr, ← h.2]
        conv_lhs => rw [← List.takeWhile_append_dropWhile (p := Char.isDigit) (l := r), ← hr']
        simp only [List.append_assoc]
    · cases h
  · cases h

/-- The cells that the expression finds, anywhere in the text. -/
def CellAt (order : ℕ) (text : List Char) (v : ℕ) : Prop :=
  ∃ a rest, matchCell order (text.drop a) = some (v, rest)

theorem matchCell_none_of_head {order : ℕ} {c : Char} {l : List Char} (hc : c ≠ '<') :
    matchCell order (c :: l) = none := by
  unfold matchCell
  simp only
  rw [if_neg]
  rw [List.isPrefixOf_iff_prefix]
  rintro ⟨r, hr⟩
  simp at hr
  exact hc hr.1.symm

theorem matchCell_none_of_close {order : ℕ} {l : List Char} : matchCell order ('<' :: '/' :: l) = none := by
  unfold matchCell
  simp only
  rw [if_neg]
  rw [List.isPrefixOf_iff_prefix]
  rintro ⟨r, hr⟩
  simp at hr

theorem matchCell_skip {order : ℕ} : ∀ {w l : List Char} {a : ℕ}, '<' ∉ w → a < w.length →
    matchCell order ((w ++ l).drop a) = none
  | [], _, _, _, h => absurd h (by simp)
  | c :: w, l, 0, hw, _ => matchCell_none_of_head (fun e => hw (by simp [e]))
  | c :: w, l, a + 1, hw, h => by
    have := matchCell_skip (order := order) (w := w) (l := l) (a := a) (fun hm => hw (by simp [hm]))
      (by simpa using h)
    simpa using this

theorem findCells_mem {order : ℕ} : ∀ (n : ℕ) (text : List Char), text.length ≤ n → ∀ v,
    v ∈ findCells order n text ↔ CellAt order text v := by
  intro n
  induction n with
  | zero =>
    intro text h v
    have : text = [] := List.length_eq_zero_iff.1 (by omega)
    subst this
    simp only [findCells, List.not_mem_nil, false_iff]
    rintro ⟨a, rest, h⟩
    obtain ⟨d, _, _, _, hd⟩ := matchCell_some h
    simp at hd
  | succ n ih =>
    intro text h v
    match text with
    | [] =>
      simp only [findCells, List.not_mem_nil, false_iff]
      rintro ⟨a, rest, h⟩
      obtain ⟨d, _, _, _, hd⟩ := matchCell_some h
      simp at hd
    | c :: r =>
      rw [findCells]
      cases hm : matchCell order (c :: r) with
      | none =>
        simp only
        rw [ih r (by simp at h; omega)]
        constructor
        · rintro ⟨a, rest, ha⟩
          exact ⟨a + 1, rest, by simpa using ha⟩
        · rintro ⟨a, rest, ha⟩
          cases a with
          | zero => rw [List.drop_zero, hm] at ha; cases ha
          | succ a => exact ⟨a, rest, by simpa using ha⟩
      | some p =>
        obtain ⟨v', rest⟩ := p
        obtain ⟨digits, hd0, hdig, hv', htext⟩ := matchCell_some hm
        have hlen : rest.length ≤ n := by
          have := congrArg List.length htext
          simp only [List.length_append, List.length_cons] at this h
          have : 0 < digits.length := List.length_pos_of_ne_nil hd0
          omega
        simp only [List.mem_cons]
        rw [ih rest hlen]
        -- the text in the form: `<`, no `<`, `</`, no `<`, rest
        let w : List Char := "td>".toList ++ decimal order ++ [','] ++ digits
        have hform : c :: r = '<' :: (w ++ ('<' :: ("/td>".toList ++ rest))) := by
          rw [htext]; simp [w]
        have hw : '<' ∉ w := by
          intro hmem
          simp only [w, List.mem_append] at hmem
          rcases hmem with ((hx | hx) | hx) | hx
          · revert hx; decide
          · exact absurd (isDigit_decimal hx) (by decide)
          · revert hx; decide
          · exact absurd (hdig _ hx) (by decide)
        constructor
        · rintro (rfl | ⟨a, rest', ha⟩)
          · exact ⟨0, rest, by simpa using hm⟩
          · refine ⟨w.length + 6 + a, rest', ?_⟩
            rw [hform]
            have : ('<' :: (w ++ ('<' :: ("/td>".toList ++ rest)))) =
                (['<'] ++ w ++ "</td>".toList) ++ rest := by simp
            rw [this, show w.length + 6 + a = (['<'] ++ w ++ "</td>".toList).length + a by
              simp, ← List.drop_drop, List.drop_left]
            exact ha
        · rintro ⟨a, rest', ha⟩
          cases a with
          | zero =>
            rw [List.drop_zero, hm] at ha
            simp only [Option.some.injEq, Prod.mk.injEq] at ha
            exact .inl ha.1.symm
          | succ a =>
            right
            rw [hform, List.drop_succ_cons] at ha
            by_cases h1 : a < w.length
            · rw [matchCell_skip hw h1] at ha; cases ha
            · obtain ⟨b, rfl⟩ : ∃ b, a = w.length + b := ⟨a - w.length, by omega⟩
              rw [← List.drop_drop, List.drop_left] at ha
              cases b with
              | zero =>
                rw [List.drop_zero, show '<' :: ("/td>".toList ++ rest) =
                  '<' :: '/' :: ("td>".toList ++ rest) by simp, matchCell_none_of_close] at ha
                cases ha
              | succ b =>
                rw [List.drop_succ_cons] at ha
                by_cases h2 : b < 4
                · rw [matchCell_skip (by decide) (by simpa using h2)] at ha; cases ha
                · obtain ⟨d, rfl⟩ : ∃ d, b = 4 + d := ⟨b - 4, by omega⟩
                  rw [← List.drop_drop, show ("/td>".toList ++ rest).drop 4 = rest from
                    List.drop_left (l₁ := "/td>".toList)] at ha
                  exact ⟨d, rest', ha⟩

end QLDPC
