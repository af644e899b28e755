import Verif.Lemmas.GroupNames
import Verif.Props.Text

/-!
# C97: groups by name
-/

namespace QLDPC.Props

open QLDPC QLDPC.Spec

variable {t : CharTable} {G : Type}

/-- The generators as the library keeps them: points are counted from zero. -/
def fromZero (gens : List (List (List ℕ))) : List (List (List ℤ)) :=
  gens.map fun g => g.map fun c => c.map fun i : ℕ => (i : ℤ) - 1

/-! ## The order in which the sources are asked -/

/-- **C97**: a group in the table is built from the table, whatever GAP and the web say. -/
theorem C97_known (lower : List Char → List Char) (known : List Char → Option (List (List (List ℤ))))
    (gap : Option (List Char → Except String (List (List Char)))) (web : List Char → Option (List Char))
    (name : List Char) (gens : List (List (List ℤ))) (h : known name = some gens) (h0 : gens ≠ []) :
    getGenerators t lower known gap web name = .ok gens := by
  have hf : (known name).filter (fun gens => gens ≠ []) = some gens := by
    rw [h, Option.filter_some, if_pos (by simpa using h0)]
  unfold getGenerators
  rw [hf]

/-- **C97**: if GAP is installed, then the web is never asked, also not after an error of GAP. -/
theorem C97_gap_first (lower : List Char → List Char)
    (known : List Char → Option (List (List (List ℤ))))
    (run : List Char → Except String (List (List Char))) (web web' : List Char → Option (List Char))
    (name : List Char) :
    getGenerators t lower known (some run) web name =
      getGenerators t lower known (some run) web' name := by
  have hg : generatorsWithGap t (some run) name ≠ .ok none := by
    unfold generatorsWithGap
    simp only
    cases run name with
    | error e => simp
    | ok lines =>
      simp only
      cases parseGap t lines <;> simp
  unfold getGenerators
  cases (known name).filter fun gens => gens ≠ [] with
  | some gens => rfl
  | none =>
    simp only
    rcases hr : generatorsWithGap t (some run) name with e | r
    · rfl
    · cases r with
      | some gens => rfl
      | none => exact absurd hr hg

/-- **C97**: the generators that GAP prints, one in each line, are the result, counted from zero. -/
theorem C97_gap (ht : t.Ok) (lower : List Char → List Char)
    (known : List Char → Option (List (List (List ℤ))))
    (run : List Char → Except String (List (List Char))) (web : List Char → Option (List Char))
    (name : List Char) (hk : known name = none) (gens : List (List (List ℕ)))
    (hg : ∀ g ∈ gens, ∀ c ∈ g, c ≠ []) (hrun : run name = .ok (gens.map gapText)) :
    getGenerators t lower known (some run) web name = .ok (fromZero gens) := by
  have h := C69_lines ht gens hg [] (by simp)
  rw [List.nil_append] at h
  unfold getGenerators generatorsWithGap
  rw [hk]
  simp only [Option.filter_none, hrun, h]
  rfl

/-- **C97**: without GAP, a name that is neither in the table nor that of a small group, and every
name if the list of groups cannot be retrieved, is refused. -/
theorem C97_unavailable (lower : List Char → List Char)
    (known : List Char → Option (List (List (List ℤ)))) (web : List Char → Option (List Char))
    (name : List Char) (hk : known name = none)
    (h : matchSmallGroup name = none ∨ ∀ order, maybeGetWebpage web order = none) :
    getGenerators t lower known none web name = .error "ValueError: Cannot build GAP group" := by
  have hn : generatorsFromGroupNames t lower web name = .ok none := by
    unfold generatorsFromGroupNames
    rcases hm : matchSmallGroup name with _ | ⟨order, index⟩
    · rfl
    · simp only
      rcases h with h | h
      · rw [hm] at h; cases h
      · unfold getGroupUrl
        rw [h]
  unfold getGenerators generatorsWithGap
  rw [hk]
  simp only [Option.filter_none, hn]

example : matchSmallGroup "AlternatingGroup(5)".toList = none := by decide +kernel

/-! ## GroupNames.org -/

/-- **C97**: the line of the table with the first cell for the group is found, and in it the first
link. -/
theorem C97_url (web : List Char → Option (List Char)) (order index : ℕ)
    (A P Q B U url V : List Char) (hP : '\n' ∉ P) (hQ : '\n' ∉ Q)
    (hpage : maybeGetWebpage web order =
      some (A ++ '\n' :: (P ++ (cellOnPage order index ++ Q)) ++ '\n' :: B))
    (hfirst : FirstAt (cellOnPage order index)
      (A ++ '\n' :: (P ++ (cellOnPage order index ++ Q)) ++ '\n' :: B) (A.length + 1 + P.length))
    (hline : P ++ (cellOnPage order index ++ Q) = U ++ "href=\"".toList ++ url ++ '"' :: V)
    (hurl : '"' ∉ url) (hlink : FirstAt "href=\"".toList (P ++ (cellOnPage order index ++ Q)) U.length) :
    getGroupUrl web order index = .ok (some (groupNamesUrl ++ url)) := by
  have hcell : groupCell order index = cellOnPage order index := rfl
  have hnl : '\n' ∉ cellOnPage order index ++ Q := by
    intro h
    rcases List.mem_append.1 h with h | h
    · unfold cellOnPage at h
      simp only [List.mem_append] at h
      rcases h with (((h | h) | h) | h) | h
      · revert h; decide
      · exact absurd (isDigit_decimal h) (by decide)
      · revert h; decide
      · exact absurd (isDigit_decimal h) (by decide)
      · revert h; decide
    · exact hQ h
  unfold getGroupUrl
  rw [hpage]
  simp only [hcell, textFind_eq_some.2 hfirst]
  rw [sectionAround_line hP hnl]
  have hh : firstHref (P ++ (cellOnPage order index ++ Q)) = some url := by
    have hl := hlink.2
    rw [hline] at hl ⊢
    exact firstHref_first hurl hl
  rw [hh]

/-- **C97**: the page of a group: after the first heading "permutation representation" (in upper or
lower case) and before the first "copytext" after it, the text of the first `<pre>` is read; if it
lists generators, one in each line, then these are the result, counted from zero. -/
theorem C97_page (ht : t.Ok) (lower : List Char → List Char) (html : List Char) (loc len : ℕ)
    (h1 : FirstAt "permutation representation".toList (lower html) loc)
    (h2 : FirstAt "copytext".toList (html.drop loc) len)
    (head attrs tail : List Char) (gens : List (List (List ℕ)))
    (h3 : (html.drop loc).take len =
      head ++ "<pre".toList ++ attrs ++ ['>'] ++ generatorsOnPage gens ++ "</pre>".toList ++ tail)
    (h4 : FirstAt "<pre".toList ((html.drop loc).take len) head.length) (h5 : '>' ∉ attrs)
    (hg : gens ≠ []) (hg' : ∀ g ∈ gens, g ≠ []) :
    parseGroupPage t lower html = .ok (fromZero gens) := by
  have hslice : ∀ (text : List Char) (i : ℕ), textSlice text (i : ℤ) (text.length : ℤ) = text.drop i := by
    intro text i
    rw [textSlice_nat, List.take_length]
  have hz1 : textFindZ "permutation representation".toList (lower html) = (loc : ℤ) := by
    unfold textFindZ; rw [textFind_eq_some.2 h1]
  have hz2 : textFindZ "copytext".toList (html.drop loc) = (len : ℤ) := by
    unfold textFindZ; rw [textFind_eq_some.2 h2]
  have hz3 : textFindZ "<pre".toList ((html.drop loc).take len) = (head.length : ℤ) := by
    unfold textFindZ; rw [textFind_eq_some.2 h4]
  have hsec : textSlice html (loc : ℤ) ((loc : ℤ) + (len : ℤ)) = (html.drop loc).take len := by
    rw [← Nat.cast_add, textSlice_nat, List.take_drop]
  have hdrop : ((html.drop loc).take len).drop head.length =
      ("<pre".toList ++ attrs) ++ ['>'] ++ (generatorsOnPage gens ++ "</pre>".toList ++ tail) := by
    have : head ++ "<pre".toList ++ attrs ++ ['>'] ++ generatorsOnPage gens ++ "</pre>".toList ++ tail =
        head ++ (("<pre".toList ++ attrs) ++ ['>'] ++
          (generatorsOnPage gens ++ "</pre>".toList ++ tail)) := by
      generalize generatorsOnPage gens = g
      simp only [List.append_assoc]
    rw [h3, this, List.drop_left]
  have hpre : preText (("<pre".toList ++ attrs) ++ ['>'] ++
      (generatorsOnPage gens ++ "</pre>".toList ++ tail)) = some (generatorsOnPage gens) := by
    have hnot : '>' ∉ "<pre".toList ++ attrs := by
      intro hm
      rcases List.mem_append.1 hm with hm | hm
      · revert hm; decide
      · exact h5 hm
    unfold preText
    rw [textFind_after hnot]
    simp only
    have hd : (("<pre".toList ++ attrs) ++ ['>'] ++
        (generatorsOnPage gens ++ "</pre>".toList ++ tail)).drop (("<pre".toList ++ attrs).length + 1) =
        generatorsOnPage gens ++ "</pre>".toList ++ tail := by
      rw [show ("<pre".toList ++ attrs).length + 1 = (("<pre".toList ++ attrs) ++ ['>']).length by
        simp only [List.length_append, List.length_singleton], List.drop_left]
    rw [hd, textFind_pre_end, Option.map_some, List.append_assoc, List.take_left]
  have hsplit : splitText "<br>\n".toList (generatorsOnPage gens) = gens.map generatorOnPage := by
    refine splitText_join (a := '<') (p := "br>\n".toList) _ (by simpa using hg) ?_
    intro w hw
    obtain ⟨g, _, rfl⟩ := List.mem_map.1 hw
    exact not_mem_generatorOnPage
  have hmap : (gens.map generatorOnPage).mapM (parseNamesLine t) = some (fromZero gens) := by
    unfold fromZero
    rw [mapM_some_iff, List.forall₂_map_left_iff, List.forall₂_map_right_iff]
    exact List.forall₂_same.2 fun g h => parseNamesLine_generator ht g (hg' g h)
  unfold parseGroupPage
  simp only [hz1]
  rw [hslice]
  simp only [hz2]
  rw [hsec]
  simp only [hz3]
  rw [hslice, hdrop, hpre]
  simp only [hsplit, hmap]

/-- **C97**: put together: without GAP, a small group that is not in the table has the generators on
its page, which is the page behind the link for its order and index. -/
theorem C97_groupnames (lower : List Char → List Char)
    (known : List Char → Option (List (List (List ℤ)))) (web : List Char → Option (List Char))
    (order index : ℕ) (hk : known (smallGroupText order index) = none) (url html : List Char)
    (hurl : getGroupUrl web order index = .ok (some url)) (hhtml : web url = some html)
    (gens : List (List (List ℤ))) (hpage : parseGroupPage t lower html = .ok gens) :
    getGenerators t lower known none web (smallGroupText order index) = .ok gens := by
  have hm := matchSmallGroup_prefix order index []
  rw [List.append_nil] at hm
  unfold getGenerators generatorsWithGap generatorsFromGroupNames
  rw [hk]
  simp only [Option.filter_none, hm, hurl, hhtml, hpage, Except.map]

/-- **C97**, disagreement: without GAP, everything after the closing parenthesis of a small group is
ignored.  The name of a quotient, such as `SmallGroup(8,3)/Center(SmallGroup(8,3))`, which GAP
understands, silently gives the generators of `SmallGroup(8,3)` itself. -/
theorem C97_prefix_disagreement (lower : List Char → List Char)
    (known : List Char → Option (List (List (List ℤ)))) (web : List Char → Option (List Char))
    (order index : ℕ) (rest : List Char)
    (hk : known (smallGroupText order index) = none)
    (hk' : known (smallGroupText order index ++ rest) = none) :
    getGenerators t lower known none web (smallGroupText order index ++ rest) =
      getGenerators t lower known none web (smallGroupText order index) := by
  have hm := matchSmallGroup_prefix order index []
  rw [List.append_nil] at hm
  unfold getGenerators generatorsWithGap generatorsFromGroupNames
  rw [hk, hk', hm, matchSmallGroup_prefix]

example : smallGroupText 8 3 ++ "/Center(SmallGroup(8,3))".toList =
    "SmallGroup(8,3)/Center(SmallGroup(8,3))".toList := by decide +kernel

/-! ### A small web -/

/-- The line of the table for the cyclic group of order three. -/
def exampleRow : List Char := "<tr><td><a href=\"1/C3.html\">C3</a></td><td>3,1</td></tr>".toList

/-- A table of groups with one group. -/
def exampleTable : List Char := "<table>\n".toList ++ exampleRow ++ "\n</table>".toList

/-- The page of that group. -/
def examplePage : List Char :=
  "<h3>Permutation Representation</h3><pre id=x>(1 2 3)<br>\n(1 3 2)(4)</pre> copytext".toList

/-- The web. -/
def exampleWeb (url : List Char) : Option (List Char) :=
  if url = groupNamesUrl then some exampleTable
  else if url = groupNamesUrl ++ "1/C3.html".toList then some examplePage else none

example : getGroupUrl exampleWeb 3 1 = .ok (some (groupNamesUrl ++ "1/C3.html".toList)) := by
  decide +kernel

example : getGenerators asciiTable (List.map Char.toLower) (fun _ => none) none exampleWeb
    "SmallGroup(3,1)".toList = .ok [[[0, 1, 2]], [[0, 2, 1], [3]]] := by decide +kernel

example : generatorsOnPage [[[1, 2, 3]], [[1, 3, 2], [4]]] = "(1 2 3)<br>\n(1 3 2)(4)".toList := by
  decide +kernel

/-! ## Numbers of groups -/

/-- **C97**: without GAP, the number of groups of an order is the largest index of a group of that
order in the table: all groups in the table have an index up to the number, and the last one is the
index of some cell. -/
theorem C97_number (web : List Char → Option (List Char)) (order num : ℕ) (page : List Char)
    (hpage : maybeGetWebpage web order = some page)
    (h : smallGroupNumber none web order = .ok num) :
    (∀ index i, OccursAt (cellOnPage order index) page i → index ≤ num) ∧
      ∃ digits : List Char, Nat.ofDigitChars 10 digits 0 = num ∧ digits ≠ [] ∧
        (∀ c ∈ digits, c.isDigit = true) ∧ ∃ i, OccursAt
          ("<td>".toList ++ Nat.toDigits 10 order ++ [','] ++ digits ++ "</td>".toList) page i := by
  unfold smallGroupNumber at h
  rw [hpage] at h
  simp only at h
  rcases hm : (findCells order page.length page).max? with _ | m
  · rw [hm] at h; cases h
  rw [hm] at h
  have hmn : m = num := by simpa using h
  subst hmn
  rw [List.max?_eq_some_iff] at hm
  constructor
  · rintro index i ⟨a, b, hab, rfl⟩
    refine hm.2 index ((findCells_mem _ _ (le_refl _) _).2 ⟨a.length, b, ?_⟩)
    rw [hab, List.append_assoc, List.drop_left, matchCell_cell]
  · obtain ⟨a, rest, ha⟩ := (findCells_mem _ _ (le_refl _) _).1 hm.1
    obtain ⟨digits, h0, hd, hv, htext⟩ := matchCell_some ha
    refine ⟨digits, hv.symm, h0, hd, a, ?_⟩
    rw [occursAt_iff]
    refine ⟨?_, rest, htext.symm⟩
    by_contra hlt
    rw [List.drop_eq_nil_of_le (by omega)] at htext
    simp at htext

/-- **C97**: if the groups of an order are numbered from one in the table, then their number is
found; the number is found if and only if there is a group of that order. -/
theorem C97_number_complete (web : List Char → Option (List Char)) (order num : ℕ) (page : List Char)
    (hpage : maybeGetWebpage web order = some page) (hpos : 1 ≤ num)
    (hall : ∀ index, 1 ≤ index → index ≤ num → ∃ i, OccursAt (cellOnPage order index) page i)
    (hno : ∀ digits : List Char, digits ≠ [] → (∀ c ∈ digits, c.isDigit = true) →
      (∃ i, OccursAt ("<td>".toList ++ Nat.toDigits 10 order ++ [','] ++ digits ++ "</td>".toList) page i) →
        Nat.ofDigitChars 10 digits 0 ≤ num) :
    smallGroupNumber none web order = .ok num := by
  have hmem : num ∈ findCells order page.length page := by
    obtain ⟨i, a, b, hab, _⟩ := hall num hpos (le_refl _)
    refine (findCells_mem _ _ (le_refl _) _).2 ⟨a.length, b, ?_⟩
    rw [hab, List.append_assoc, List.drop_left, matchCell_cell]
  have hmax : (findCells order page.length page).max? = some num := by
    rw [List.max?_eq_some_iff]
    refine ⟨hmem, fun v hv => ?_⟩
    obtain ⟨a, rest, ha⟩ := (findCells_mem _ _ (le_refl _) _).1 hv
    obtain ⟨digits, h0, hd, rfl, htext⟩ := matchCell_some ha
    refine hno digits h0 hd ⟨a, occursAt_iff.2 ⟨?_, rest, htext.symm⟩⟩
    by_contra hlt
    rw [List.drop_eq_nil_of_le (by omega)] at htext
    simp at htext
  unfold smallGroupNumber
  rw [hpage]
  simp only [hmax]

example : smallGroupNumber none exampleWeb 3 = .ok 1 := by decide +kernel
example : smallGroupNumber none exampleWeb 30 = .error "ValueError: max() arg is an empty sequence" := by
  decide +kernel

/-! ## `SmallGroup` -/

theorem smallGroupName_nat (order index : ℕ) :
    smallGroupName (order : ℤ) (index : ℤ) = smallGroupText order index := by
  unfold smallGroupName smallGroupText
  rw [intText_nonneg (by omega), intText_nonneg (by omega)]
  rfl

/-- **C97**: `SmallGroup(order, index)` is refused exactly for orders below one (assertion) and for
indices that are not between one and the number of groups of that order; otherwise it is the group
with the name `SmallGroup(order,index)` and remembers its index. -/
theorem C97_small_group (number : ℕ → Except String ℕ) (fromName : List Char → Except String G)
    (order : ℕ) (num : ℕ) (hnum : number order = .ok num) (index : ℤ) :
    (order = 0 → smallGroup number fromName order index = .error "AssertionError") ∧
      (order ≠ 0 → ¬ (1 ≤ index ∧ index ≤ num) →
        smallGroup number fromName order index =
          .error "ValueError: Index for SmallGroup out of range") ∧
      (order ≠ 0 → ∀ i : ℕ, 1 ≤ i → i ≤ num →
        smallGroup number fromName order i =
          (fromName (smallGroupText order i)).map fun group => (group, (i : ℤ))) := by
  refine ⟨?_, ?_, ?_⟩
  · rintro rfl
    unfold smallGroup
    rw [if_pos (by simp)]
  · intro h0 hi
    unfold smallGroup
    rw [if_neg (by omega)]
    simp only [Int.toNat_natCast, hnum]
    rw [if_pos hi]
  · intro h0 i h1 h2
    unfold smallGroup
    rw [if_neg (by omega)]
    simp only [Int.toNat_natCast, hnum]
    rw [if_neg (by omega), smallGroupName_nat]

theorem mapM_ok_iff {α β : Type} {f : α → Except String β} {l : List α} {r : List β} :
    l.mapM f = .ok r ↔ List.Forall₂ (fun a b => f a = .ok b) l r := by
  induction l generalizing r with
  | nil =>
    simp only [List.mapM_nil, List.forall₂_nil_left_iff]
    exact ⟨fun h => by cases h; rfl, fun h => by rw [h]; rfl⟩
  | cons a l ih =>
    rw [List.mapM_cons, List.forall₂_cons_left_iff]
    constructor
    · intro h
      rcases hfa : f a with e | b
      · rw [hfa] at h; cases h
      rcases hl : l.mapM f with e | bs
      · rw [hfa, hl] at h; cases h
      rw [hfa, hl] at h
      cases h
      exact ⟨b, bs, rfl, ih.1 hl, rfl⟩
    · rintro ⟨b, bs, h1, h2, rfl⟩
      rw [h1, ih.2 h2]
      rfl

/-- **C97**: `SmallGroup.generator(order)` runs through all groups of the order, in the order of their
indices, each exactly once: the `i`-th group is `SmallGroup(order, i + 1)`. -/
theorem C97_small_groups (number : ℕ → Except String ℕ) (fromName : List Char → Except String G)
    (order : ℕ) (h0 : order ≠ 0) (num : ℕ) (hnum : number order = .ok num) (groups : List (G × ℤ)) :
    smallGroups number fromName order = .ok groups ↔
      groups.length = num ∧ ∀ i, (hi : i < groups.length) →
        smallGroup number fromName order ((i : ℤ) + 1) = .ok groups[i] ∧ groups[i].2 = (i : ℤ) + 1 ∧
          fromName (smallGroupText order (i + 1)) = .ok groups[i].1 := by
  have key : ∀ i < num, ∀ g : G × ℤ, smallGroup number fromName order ((i : ℤ) + 1) = .ok g →
      g.2 = (i : ℤ) + 1 ∧ fromName (smallGroupText order (i + 1)) = .ok g.1 := by
    intro i hi g hg
    have h3 := (C97_small_group number fromName order num hnum 0).2.2 h0 (i + 1) (by omega) (by omega)
    push_cast at h3
    rw [h3] at hg
    cases hf : fromName (smallGroupText order (i + 1)) with
    | error e => rw [hf] at hg; cases hg
    | ok g' =>
      rw [hf] at hg
      cases hg
      exact ⟨rfl, rfl⟩
  unfold smallGroups
  rw [hnum]
  simp only
  rw [mapM_ok_iff, List.forall₂_iff_get]
  simp only [List.length_range, List.get_eq_getElem, List.getElem_range]
  constructor
  · rintro ⟨hl, h⟩
    refine ⟨hl.symm, fun i hi => ?_⟩
    have h1 := h i (by omega) hi
    exact ⟨h1, key i (by omega) _ h1⟩
  · rintro ⟨hl, h⟩
    exact ⟨hl.symm, fun i h1 h2 => (h i h2).1⟩

example : smallGroups (fun _ => .ok 2) (fun name => .ok name) 4 =
    .ok [("SmallGroup(4,1)".toList, 1), ("SmallGroup(4,2)".toList, 2)] := by decide +kernel

/-! ## Descriptions -/

/-- **C97**: with GAP, the description of a group is that of GAP, also after any earlier call: the
cache keeps nothing but descriptions of GAP. -/
theorem C97_structure (describe : ℤ × ℤ → Except String (List Char))
    (cache : ℤ × ℤ → Option (List Char))
    (hcache : ∀ key s, cache key = some s → s ≠ [] → describe key = .ok s) (order index : ℤ)
    (s : List Char) (hs : s ≠ []) :
    ((smallGroupStructure (some describe) cache order index).1 = .ok s ↔
        describe (order, index) = .ok s) ∧
      ∀ key s, (smallGroupStructure (some describe) cache order index).2 key = some s → s ≠ [] →
        describe key = .ok s := by
  unfold smallGroupStructure
  rcases hf : (cache (order, index)).filter fun s => s ≠ [] with _ | s'
  · simp only
    rcases hd : describe (order, index) with e | d
    · simp only
      exact ⟨by simp, hcache⟩
    · simp only
      by_cases h0 : d = []
      · rw [if_pos h0]
        refine ⟨?_, hcache⟩
        subst h0
        simp [Ne.symm hs]
      · rw [if_neg h0]
        refine ⟨by simp, ?_⟩
        intro key s hk hs'
        simp only at hk
        split at hk
        · rename_i he
          cases hk
          rw [he, hd]
        · exact hcache key s hk hs'
  · simp only
    rw [Option.filter_eq_some_iff] at hf
    have h := hcache _ _ hf.1 (by simpa using hf.2)
    refine ⟨by rw [h], hcache⟩

/-- **C97**: without GAP and without an earlier description it is the name of the group, which is not
kept, so that a later call with GAP gives the description. -/
theorem C97_structure_name (cache : ℤ × ℤ → Option (List Char)) (order index : ℕ)
    (h : cache (order, index) = none) :
    smallGroupStructure none cache order index = (.ok (smallGroupText order index), cache) := by
  unfold smallGroupStructure
  rw [h]
  simp only [Option.filter_none, smallGroupName_nat]

/-- **C97**: the groups up to order 60 are looked up on the first page of the website, the others on another page. -/
theorem C97_address (web : List Char → Option (List Char)) (order : ℕ) :
    (order ≤ 60 → maybeGetWebpage web order = web "https://people.maths.bris.ac.uk/~matyd/GroupNames/".toList) ∧
      (60 < order →
        maybeGetWebpage web order = web "https://people.maths.bris.ac.uk/~matyd/GroupNames/index500.html".toList) := by
  unfold maybeGetWebpage groupNamesUrl
  constructor
  · intro h
    rw [if_neg (by omega), List.append_nil]
  · intro h
    rw [if_pos h]
    congr 1

/-- **C97**: an exception of GAP is passed on. -/
theorem C97_gap_error (lower : List Char → List Char) (known : List Char → Option (List (List (List ℤ))))
    (run : List Char → Except String (List (List Char))) (web : List Char → Option (List Char)) (name : List Char)
    (hk : known name = none) (e : String) (hrun : run name = .error e) :
    getGenerators t lower known (some run) web name = .error e := by
  unfold getGenerators
  rw [hk]
  unfold generatorsWithGap
  simp [hrun]

theorem takeWhile_split {α : Type} {p : α → Bool} : ∀ {a b : List α}, (∀ x ∈ a, p x = true) → (∀ x ∈ b.head?, p x = false) →
    (a ++ b).takeWhile p = a ∧ (a ++ b).dropWhile p = b
  | [], [], _, _ => ⟨rfl, rfl⟩
  | [], x :: b, _, h => by
    have := h x rfl
    simp [this]
  | x :: a, b, h, h' => by
    have := takeWhile_split (a := a) (b := b) (fun y hy => h y (List.mem_cons_of_mem _ hy)) h'
    have hx := h x (List.mem_cons_self)
    simp [hx, this]

/-- **C97**: the names that are looked up on the website are those that begin like `SmallGroup(order,index)`. -/
theorem C97_name (name : List Char) (order index : ℕ) :
    matchSmallGroup name = some (order, index) ↔ ∃ d e rest : List Char, d ≠ [] ∧ e ≠ [] ∧ (∀ c ∈ d, c.isDigit = true) ∧
      (∀ c ∈ e, c.isDigit = true) ∧ Nat.ofDigitChars 10 d 0 = order ∧ Nat.ofDigitChars 10 e 0 = index ∧
      name = "SmallGroup(".toList ++ d ++ ',' :: (e ++ ')' :: rest) := by
  constructor
  · intro h
    unfold matchSmallGroup at h
    split_ifs at h with hp
    obtain ⟨r, hr⟩ := List.isPrefixOf_iff_prefix.1 hp
    have hdrop : name.drop 11 = r := by rw [← hr]; rfl
    simp only [hdrop] at h
    have hr1 : r.takeWhile Char.isDigit ++ r.dropWhile Char.isDigit = r := List.takeWhile_append_dropWhile
    split at h
    · rename_i rest he
      have hr2 : rest.takeWhile Char.isDigit ++ rest.dropWhile Char.isDigit = rest := List.takeWhile_append_dropWhile
      split at h
      · rename_i rest' he'
        split_ifs at h with hne
        simp only [Option.some.injEq, Prod.mk.injEq] at h
        refine ⟨_, _, rest', hne.1, hne.2, fun c hc => List.mem_takeWhile_imp hc, fun c hc => List.mem_takeWhile_imp hc, h.1, h.2, ?_⟩
        rw [← hr, ← he', hr2, List.append_assoc, ← he, hr1]
      · cases h
    · cases h
  · rintro ⟨d, e, rest, hd, he, hd', he', rfl, rfl, rfl⟩
    have h1 := takeWhile_split (a := d) (b := ',' :: (e ++ ')' :: rest)) hd' (by simp)
    have h2 := takeWhile_split (a := e) (b := ')' :: rest) he' (by simp)
    unfold matchSmallGroup
    have hp : "SmallGroup(".toList.isPrefixOf ("SmallGroup(".toList ++ d ++ ',' :: (e ++ ')' :: rest)) = true := by
      rw [List.isPrefixOf_iff_prefix, List.append_assoc]
      exact List.prefix_append _ _
    have hdrop : ("SmallGroup(".toList ++ d ++ ',' :: (e ++ ')' :: rest)).drop 11 = d ++ ',' :: (e ++ ')' :: rest) := by
      rw [List.append_assoc]; rfl
    rw [if_pos hp]
    simp only [hdrop, h1.1, h1.2, h2.1, h2.2]
    rw [if_pos ⟨hd, he⟩]

#print axioms C97_address
#print axioms C97_gap_error
#print axioms C97_name
#print axioms C97_known
#print axioms C97_gap_first
#print axioms C97_gap
#print axioms C97_unavailable
#print axioms C97_url
#print axioms C97_page
#print axioms C97_groupnames
#print axioms C97_prefix_disagreement
#print axioms C97_number
#print axioms C97_number_complete
#print axioms C97_small_group
#print axioms C97_small_groups
#print axioms C97_structure
#print axioms C97_structure_name

/-! ### Instances of the theorems: concrete cases meet the hypotheses -/

example := C97_known (t := asciiTable) id (fun _ => some [[[0, 1]]]) none (fun _ => none) "x".toList [[[0, 1]]] rfl (by simp)
example := C97_gap asciiTable_ok id (fun _ => none) (fun _ => .ok ["(1,2)(3)".toList]) (fun _ => none) "x".toList rfl [[[1, 2], [3]]] (by decide) (by decide +kernel)
example := C97_unavailable (t := asciiTable) id (fun _ => none) (fun _ => none) "x".toList rfl (Or.inr fun _ => rfl)
example := C97_gap_error (t := asciiTable) id (fun _ => none) (fun _ => .error "GAP") (fun _ => none) "x".toList rfl "GAP" rfl
example := C97_groupnames (t := asciiTable) (List.map Char.toLower) (fun _ => none) exampleWeb 3 1 rfl (groupNamesUrl ++ "1/C3.html".toList) examplePage
  (by decide +kernel) (by decide +kernel) [[[0, 1, 2]], [[0, 2, 1], [3]]] (by decide +kernel)
example := C97_number exampleWeb 3 1 exampleTable (by decide +kernel) (by decide +kernel)
example := C97_small_group (fun _ => .ok 2) (fun name => .ok name) 4 2 rfl 1
example := C97_small_groups (fun _ => .ok 2) (fun name => .ok name) 4 (by decide) 2 rfl [("SmallGroup(4,1)".toList, 1), ("SmallGroup(4,2)".toList, 2)]
example := C97_structure (fun _ => .ok "C3".toList) (fun _ => none) (by simp) 3 1 "C3".toList (by simp)
example := C97_structure_name (fun _ => none) 3 1 rfl

private theorem firstAt_iff' {w s : List Char} {i : ℕ} (h1 : (s.drop i).take w.length = w) (h2 : ∀ j < i, (s.drop j).take w.length ≠ w)
    (h3 : i ≤ s.length) : FirstAt w s i := by
  refine ⟨⟨s.take i, s.drop (i + w.length), ?_, by simp [h3]⟩, ?_⟩
  · conv_lhs => rw [← List.take_append_drop i s, ← List.take_append_drop w.length (s.drop i), h1]
    simp [List.drop_drop, List.append_assoc]
  · rintro j hj ⟨a, b, rfl, rfl⟩
    exact h2 _ hj (by simp)
example := C97_url exampleWeb 3 1 "<table>".toList "<tr><td><a href=\"1/C3.html\">C3</a></td>".toList "</tr>".toList "</table>".toList
  "<tr><td><a ".toList "1/C3.html".toList ">C3</a></td><td>3,1</td></tr>".toList (by decide +kernel) (by decide +kernel) (by decide +kernel)
  (firstAt_iff' (by decide +kernel) (by decide +kernel) (by decide +kernel)) (by decide +kernel) (by decide +kernel)
  (firstAt_iff' (by decide +kernel) (by decide +kernel) (by decide +kernel))
example := C97_page asciiTable_ok (List.map Char.toLower) examplePage 4 70
  (firstAt_iff' (by decide +kernel) (by decide +kernel) (by decide +kernel)) (firstAt_iff' (by decide +kernel) (by decide +kernel) (by decide +kernel))
  "Permutation Representation</h3>".toList " id=x".toList " ".toList [[[1, 2, 3]], [[1, 3, 2], [4]]] (by decide +kernel)
  (firstAt_iff' (by decide +kernel) (by decide +kernel) (by decide +kernel)) (by decide +kernel) (by decide) (by decide)

end QLDPC.Props
