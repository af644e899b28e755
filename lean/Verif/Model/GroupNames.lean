import Verif.Model.Text

/-!
# Groups by name: `/repo/qldpc/external/groups.py` and `SmallGroup` of `/repo/qldpc/abstract.py`

The table `KNOWN_GROUPS`, GAP and the web are parameters: `known name` are the generators in the table,
`gap` is `none` if GAP is not installed and otherwise a function from names to the lines that GAP prints,
`web url` is the text of a page or `none` if it cannot be retrieved.  Texts are lists of characters.
The disk cache is the subject of `Verif/Model/Cache.lean`.
-/

namespace QLDPC

/-! ### Searching in texts -/

/-- `text.find(pattern)`, with `none` for `-1`. -/
def textFind (pat : List Char) : List Char → Option ℕ
  | [] => if pat = [] then some 0 else none
  | c :: r => if pat.isPrefixOf (c :: r) then some 0 else (textFind pat r).map (· + 1)

/-- `text.find(pattern)`. -/
def textFindZ (pat text : List Char) : ℤ :=
  match textFind pat text with
  | some i => i
  | none => -1

/-- The position meant by an index of a slice: negative indices count from the end. -/
def sliceIndex (length : ℕ) (i : ℤ) : ℕ := if i < 0 then (i + length).toNat else min i.toNat length

/-- `text[i:j]`. -/
def textSlice (text : List Char) (i j : ℤ) : List Char :=
  (text.take (sliceIndex text.length j)).drop (sliceIndex text.length i)

/-- `text.split(separator)` for a nonempty separator, by length of the text. -/
def splitFuel (sep : List Char) : ℕ → List Char → List (List Char)
  | 0, text => [text]
  | n + 1, text =>
    match textFind sep text with
    | none => [text]
    | some i => text.take i :: splitFuel sep n (text.drop (i + sep.length))

/-- `text.split(separator)` for a nonempty separator. -/
def splitText (sep text : List Char) : List (List Char) := splitFuel sep text.length text

/-! ### Small groups on GroupNames.org -/

/-- `GROUPNAMES_URL` (`/repo/qldpc/external/groups.py:30`). -/
def groupNamesUrl : List Char := "https://people.maths.bris.ac.uk/~matyd/GroupNames/".toList

/-- `maybe_get_webpage` (`/repo/qldpc/external/groups.py:211-219`). -/
def maybeGetWebpage (web : List Char → Option (List Char)) (order : ℕ) : Option (List Char) :=
  web (groupNamesUrl ++ if order > 60 then "index500.html".toList else [])

/-- The cell of a group in the table of groups (`/repo/qldpc/external/groups.py:194`). -/
def groupCell (order index : ℕ) : List Char :=
  "<td>".toList ++ decimal order ++ [','] ++ decimal index ++ "</td>".toList

/-- `re.search(r'href="([^"]*)"', section)`: the group of the first match
(`/repo/qldpc/external/groups.py:203`). -/
def firstHref : List Char → Option (List Char)
  | [] => none
  | c :: r =>
    if "href=\"".toList.isPrefixOf (c :: r) then
      let rest := (c :: r).drop 6
      let url := rest.takeWhile fun d => d ≠ '"'
      if url.length < rest.length then some url else firstHref r
    else firstHref r

/-- The section of the page around the cell (`/repo/qldpc/external/groups.py:198-200`). -/
def sectionAround (page : List Char) (loc : ℕ) : List Char :=
  let end_ : ℤ := loc + textFindZ ['\n'] (page.drop loc)
  let start : ℤ := loc - textFindZ ['\n'] (page.take loc).reverse
  textSlice page start end_

/-- `get_group_url` (`/repo/qldpc/external/groups.py:184-208`). -/
def getGroupUrl (web : List Char → Option (List Char)) (order index : ℕ) :
    Except String (Option (List Char)) :=
  match maybeGetWebpage web order with
  | none => .ok none
  | some page =>
    match textFind (groupCell order index) page with
    | none => .error "ValueError: Group not found on GroupNames.org"
    | some loc =>
      match firstHref (sectionAround page loc) with
      | none => .error "ValueError: Webpage for group not found"
      | some url => .ok (some (groupNamesUrl ++ url))

/-- `re.search(r">((?:.|\n)*?)<\/pre>", section)`: the group of the first match
(`/repo/qldpc/external/groups.py:163`).  The first `>` counts, and the first `</pre>` after it. -/
def preText (section_ : List Char) : Option (List Char) :=
  match textFind ['>'] section_ with
  | none => none
  | some i =>
    let rest := section_.drop (i + 1)
    (textFind "</pre>".toList rest).map fun j => rest.take j

/-- The generators in one line of text (`/repo/qldpc/external/groups.py:171-174`); `none` for a
`ValueError`. -/
def parseNamesLine (t : CharTable) (string : List Char) : Option (List (List ℤ)) :=
  ((splitParens ((string.drop 1).dropLast)).mapM fun (c : List Char) =>
    (pySplit t c).mapM (pyInt t)).map fun cycles => cycles.map fun c => c.map fun i => i - 1

/-- The generators on the page of a group (`/repo/qldpc/external/groups.py:156-179`).  `lower` is
`str.lower`. -/
def parseGroupPage (t : CharTable) (lower : List Char → List Char) (html : List Char) :
    Except String (List (List (List ℤ))) :=
  let loc := textFindZ "permutation representation".toList (lower html)
  let end_ := textFindZ "copytext".toList (textSlice html loc html.length)
  let section_ := textSlice html loc (loc + end_)
  let section_ := textSlice section_ (textFindZ "<pre".toList section_) section_.length
  match preText section_ with
  | none => .error "ValueError: Generators for group not found"
  | some text =>
    match (splitText "<br>\n".toList text).mapM (parseNamesLine t) with
    | none => .error "ValueError: invalid literal for int()"
    | some gens => .ok gens

/-- `re.match(r"SmallGroup\(([0-9]+),([0-9]+)\)", group)` (`/repo/qldpc/external/groups.py:143-145`): the
order and the index.  The expression need not match the whole name. -/
def matchSmallGroup (name : List Char) : Option (ℕ × ℕ) :=
  if "SmallGroup(".toList.isPrefixOf name then
    let rest := name.drop 11
    let order := rest.takeWhile Char.isDigit
    match rest.dropWhile Char.isDigit with
    | ',' :: rest =>
      let index := rest.takeWhile Char.isDigit
      match rest.dropWhile Char.isDigit with
      | ')' :: _ =>
        if order ≠ [] ∧ index ≠ [] then
          some (Nat.ofDigitChars 10 order 0,
            Nat.ofDigitChars 10 index 0)
        else none
      | _ => none
    | _ => none
  else none

/-- `get_generators_from_groupnames` (`/repo/qldpc/external/groups.py:139-181`).  An `URLError` for the
page of the group is not caught. -/
def generatorsFromGroupNames (t : CharTable) (lower : List Char → List Char)
    (web : List Char → Option (List Char)) (name : List Char) :
    Except String (Option (List (List (List ℤ)))) :=
  match matchSmallGroup name with
  | none => .ok none
  | some (order, index) =>
    match getGroupUrl web order index with
    | .error e => .error e
    | .ok none => .ok none
    | .ok (some url) =>
      match web url with
      | none => .error "URLError"
      | some html => (parseGroupPage t lower html).map some

/-- `get_generators_with_gap` (`/repo/qldpc/external/groups.py:101-136`); `gap` gives the lines of the
output, or an error. -/
def generatorsWithGap (t : CharTable) (gap : Option (List Char → Except String (List (List Char))))
    (name : List Char) : Except String (Option (List (List (List ℤ)))) :=
  match gap with
  | none => .ok none
  | some run =>
    match run name with
    | .error e => .error e
    | .ok lines =>
      match parseGap t lines with
      | none => .error "ValueError: Cannot extract cycles from string"
      | some gens => .ok (some gens)

/-- `get_generators` (`/repo/qldpc/external/groups.py:34-57`), without the cache.  An empty list in the
table counts as no entry. -/
def getGenerators (t : CharTable) (lower : List Char → List Char)
    (known : List Char → Option (List (List (List ℤ))))
    (gap : Option (List Char → Except String (List (List Char))))
    (web : List Char → Option (List Char)) (name : List Char) :
    Except String (List (List (List ℤ))) :=
  match (known name).filter fun gens => gens ≠ [] with
  | some gens => .ok gens
  | none =>
    match generatorsWithGap t gap name with
    | .error e => .error e
    | .ok (some gens) => .ok gens
    | .ok none =>
      match generatorsFromGroupNames t lower web name with
      | .error e => .error e
      | .ok (some gens) => .ok gens
      | .ok none => .error "ValueError: Cannot build GAP group"

/-! ### Numbers of groups -/

/-- A match of `<td>{order},([0-9]+)</td>` at the beginning of the text: the number and the rest
(`/repo/qldpc/external/groups.py:73`). -/
def matchCell (order : ℕ) (text : List Char) : Option (ℕ × List Char) :=
  let pre := "<td>".toList ++ decimal order ++ [',']
  if pre.isPrefixOf text then
    let rest := text.drop pre.length
    let digits := rest.takeWhile Char.isDigit
    let rest := rest.dropWhile Char.isDigit
    if digits ≠ [] ∧ "</td>".toList.isPrefixOf rest then
      some (Nat.ofDigitChars 10 digits 0, rest.drop 5)
    else none
  else none

/-- `re.findall(rf"<td>{order},([0-9]+)</td>", page_html)` as integers, by length of the text
(`/repo/qldpc/external/groups.py:73-74`): a match continues after its end. -/
def findCells (order : ℕ) : ℕ → List Char → List ℕ
  | 0, _ => []
  | _, [] => []
  | n + 1, c :: r =>
    match matchCell order (c :: r) with
    | some (v, rest) => v :: findCells order n rest
    | none => findCells order n r

/-- `get_small_group_number` (`/repo/qldpc/external/groups.py:60-74`), without the cache.  `gap` is
`NumberSmallGroups` of GAP.  The maximum of nothing raises. -/
def smallGroupNumber (gap : Option (ℕ → Except String ℕ)) (web : List Char → Option (List Char))
    (order : ℕ) : Except String ℕ :=
  match gap with
  | some number => number order
  | none =>
    match maybeGetWebpage web order with
    | none => .error "ValueError: Cannot determine the number of small groups"
    | some page =>
      match (findCells order page.length page).max? with
      | none => .error "ValueError: max() arg is an empty sequence"
      | some m => .ok m

/-! ### `SmallGroup` -/

variable {G : Type}

/-- The name of a small group (`/repo/qldpc/abstract.py:1250`). -/
def smallGroupName (order index : ℤ) : List Char :=
  "SmallGroup(".toList ++ intText order ++ [','] ++ intText index ++ [')']

/-- `SmallGroup.__init__` (`/repo/qldpc/abstract.py:1241-1252`): the group and `group_index`.
`fromName` is `Group.from_name`. -/
def smallGroup (number : ℕ → Except String ℕ) (fromName : List Char → Except String G)
    (order index : ℤ) : Except String (G × ℤ) :=
  if ¬ 0 < order then .error "AssertionError"
  else
    match number order.toNat with
    | .error e => .error e
    | .ok num =>
      if ¬ (1 ≤ index ∧ index ≤ num) then .error "ValueError: Index for SmallGroup out of range"
      else (fromName (smallGroupName order index)).map fun group => (group, index)

/-- `list(SmallGroup.generator(order))` (`/repo/qldpc/abstract.py:1268-1272`). -/
def smallGroups (number : ℕ → Except String ℕ) (fromName : List Char → Except String G)
    (order : ℕ) : Except String (List (G × ℤ)) :=
  match number order with
  | .error e => .error e
  | .ok num => (List.range num).mapM fun (ii : ℕ) => smallGroup number fromName order ((ii : ℤ) + 1)

/-- `get_small_group_structure` (`/repo/qldpc/external/groups.py:77-98`): the text and the cache
afterwards.  `cache` is a function of order and index; an empty text counts as absent.  `gap` is
`StructureDescription` of GAP without white space around. -/
def smallGroupStructure (gap : Option (ℤ × ℤ → Except String (List Char)))
    (cache : ℤ × ℤ → Option (List Char)) (order index : ℤ) :
    Except String (List Char) × (ℤ × ℤ → Option (List Char)) :=
  match (cache (order, index)).filter fun s => s ≠ [] with
  | some s => (.ok s, cache)
  | none =>
    match gap with
    | none => (.ok (smallGroupName order index), cache)
    | some describe =>
      match describe (order, index) with
      | .error e => (.error e, cache)
      | .ok s =>
        if s = [] then (.error "ValueError: Group not recognized by GAP", cache)
        else (.ok s, fun key => if key = (order, index) then some s else cache key)

end QLDPC
