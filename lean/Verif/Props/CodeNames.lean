import Verif.Props.Text
import Verif.Lemmas.CodeNames
import Verif.Lemmas.KnownGroups
import Verif.Spec.Text
import Verif.Props.Classical
import Verif.Lemmas.CssSubsystem
import Mathlib.Data.List.TakeWhile

/-!
# C101: codes by name, and the communication with GAP
-/

namespace QLDPC.Props

open QLDPC QLDPC.Spec

variable {t : CharTable}

/-! ## Vocabulary -/

/-- How GAP prints the field with `p ^ k` elements: `GF(p)` or `GF(p^k)`. -/
def fieldLine (p k : ℕ) : List Char :=
  "GF(".toList ++ Nat.toDigits 10 p ++ (if k = 1 then [] else '^' :: Nat.toDigits 10 k) ++ [')']

/-- The lines that do not consist of white space. -/
def nonBlank (t : CharTable) (lines : List (List Char)) : List (List Char) :=
  lines.filter fun line => line.any fun c => t.space c = false

/-- `result` is `text` with all occurrences of `old` replaced by `new`: the pieces between the occurrences are kept. -/
def Replaced (old new text result : List Char) : Prop :=
  ∃ pieces : List (List Char), pieces ≠ [] ∧ (∀ w ∈ pieces, ¬ old <:+: w) ∧ text = old.intercalate pieces ∧
    result = new.intercalate pieces

/-- The program for a code: print the field and then the rows of a parity check matrix, without line breaks. -/
def codeProgram (code : List Char) : List Char :=
  ("__stream__ := OutputTextUser(); SetPrintFormattingStatus(__stream__, false); LoadPackage(\"guava\"); code := ".toList ++
    code ++ ("; mat := CheckMat(code); PrintTo(__stream__, LeftActingDomain(code), \"\\n\"); ".toList ++
    "for vec in mat do PrintTo(__stream__, List(vec, x -> Int(x)), \"\\n\"); od; QUIT;".toList))

/-! ## Helper lemmas -/

theorem strip_eq_nil_iff (l : List Char) : strip t l = [] ↔ ∀ c ∈ l, t.space c = true := by
  unfold strip
  rw [List.reverse_eq_nil_iff]
  constructor
  · intro h c hc
    have h1 : ∀ x ∈ l.dropWhile t.space, t.space x = true := by
      have := List.dropWhile_eq_nil_iff.1 h
      intro x hx; exact this x (List.mem_reverse.2 hx)
    have h2 : l.dropWhile t.space = [] := by
      cases hd : l.dropWhile t.space with
      | nil => rfl
      | cons a r =>
        have := List.head?_dropWhile_not t.space l
        rw [hd] at this h1
        simp [h1 a (by simp)] at this
    exact List.dropWhile_eq_nil_iff.1 h2 c hc
  · intro h
    rw [List.dropWhile_eq_nil_iff.2 h]
    rfl

theorem nonBlank_cons (line : List Char) (lines : List (List Char)) :
    nonBlank t (line :: lines) = if strip t line = [] then nonBlank t lines else line :: nonBlank t lines := by
  unfold nonBlank
  rw [List.filter_cons]
  by_cases h : strip t line = []
  · rw [if_pos h, if_neg]
    have := (strip_eq_nil_iff line).1 h
    simpa using this
  · rw [if_neg h, if_pos]
    rw [strip_eq_nil_iff] at h
    simpa using h

theorem search_skip {text : List Char} {s : MatchState} (h : reField.search text = some s) :
    ∀ pre : List Char, 'G' ∉ pre → reField.search (pre ++ text) = some s
  | [], _ => h
  | c :: pre, hp => by
    have hf : Fails reField (c :: (pre ++ text), []) :=
      Fails.cat (Fails.lit (by rintro d hd rfl; exact hp (by simp_all)))
    have hf' : reField.first (c :: (pre ++ text)) = none := by
      unfold Fails at hf
      rw [Regex.first, hf]
      rfl
    rw [List.cons_append, Regex.search, hf']
    exact search_skip h pre fun hm => hp (List.mem_cons_of_mem _ hm)

theorem search_fieldLine (pre post : List Char) (hpre : 'G' ∉ pre) (p k : ℕ) :
    ∃ s, reField.search (pre ++ fieldLine p k ++ post) = some s ∧
    s.2.lookup 1 = some (Nat.toDigits 10 p ++ if k = 1 then [] else '^' :: Nat.toDigits 10 k) := by
  have hd : ∀ (n : ℕ) (c : Char), c ∈ Nat.toDigits 10 n → c.isDigit = true :=
    fun n c hc => isDigit_decimal (n := n) hc
  have hne : ∀ n : ℕ, Nat.toDigits 10 n ≠ [] := fun n => decimal_ne_nil n
  rw [List.append_assoc]
  unfold fieldLine
  by_cases hk : k = 1
  · rw [if_pos hk, List.append_nil, List.append_nil]
    refine ⟨(post, [(1, Nat.toDigits 10 p)]), search_skip (search_of_first ?_) _ hpre, by simp⟩
    have he : "GF(".toList ++ Nat.toDigits 10 p ++ [')'] ++ post =
        'G' :: 'F' :: '(' :: (Nat.toDigits 10 p ++ ')' :: post) := by simp
    rw [he]
    refine First.cat (First.lit 'G' _ _) (First.cat (First.lit 'F' _ _) (First.cat (First.lit '(' _ _) ?_))
    refine First.cat (First.group 1 (u := Nat.toDigits 10 p) (r := ')' :: post) ?_) (First.cat (First.lit ')' _ _) (First.eps _))
    refine First.cat (first_plus_digits (hne p) (hd p) (by simp)) (First.cat (First.right ?_ (First.eps _)) (First.eps _))
    have h0 : Fails (.seq [.lit '^', .plus (.char Char.isDigit)]) (')' :: post, []) := Fails.cat (Fails.lit (by simp))
    unfold Fails at h0 ⊢
    rw [Regex.run, h0]
    rfl
  · rw [if_neg hk]
    refine ⟨(post, [(1, Nat.toDigits 10 p ++ '^' :: Nat.toDigits 10 k), (2, '^' :: Nat.toDigits 10 k)]),
      search_skip (search_of_first ?_) _ hpre, by simp⟩
    have he : "GF(".toList ++ Nat.toDigits 10 p ++ '^' :: Nat.toDigits 10 k ++ [')'] ++ post =
        'G' :: 'F' :: '(' :: ((Nat.toDigits 10 p ++ '^' :: Nat.toDigits 10 k) ++ ')' :: post) := by simp
    rw [he]
    refine First.cat (First.lit 'G' _ _) (First.cat (First.lit 'F' _ _) (First.cat (First.lit '(' _ _) ?_))
    refine First.cat (First.group' 1 (r := ')' :: post) (g' := [(2, '^' :: Nat.toDigits 10 k)]) ?_)
      (First.cat (First.lit ')' _ _) (First.eps _))
    rw [List.append_assoc]
    refine First.cat (first_plus_digits (hne p) (hd p) (by simp)) (First.cat (First.left ?_) (First.eps _))
    refine First.group (u := '^' :: Nat.toDigits 10 k) (r := ')' :: post) 2 ?_
    exact First.cat (First.lit '^' _ _) (First.cat (first_plus_digits (hne k) (hd k) (by simp)) (First.eps _))

theorem fieldOrder_line (ht : t.Ok) (p k : ℕ) :
    fieldOrder t (Nat.toDigits 10 p ++ if k = 1 then [] else '^' :: Nat.toDigits 10 k) = some (p ^ k) := by
  have hc : ∀ n : ℕ, '^' ∉ Nat.toDigits 10 n := fun n h => absurd (isDigit_decimal (n := n) h) (by decide)
  have hv : ∀ n : ℕ, digitsValue t (Nat.toDigits 10 n) = some n := digitsValue_decimal ht
  have h1 : digitsValue t ['1'] = some 1 := hv 1
  unfold fieldOrder
  by_cases hk : k = 1
  · subst hk
    have hs := splitText_join (a := '^') (p := []) [Nat.toDigits 10 p, ['1']] (by simp) (by
      intro w hw
      simp only [List.mem_cons, List.not_mem_nil, or_false] at hw
      rcases hw with rfl | rfl
      · exact hc p
      · decide)
    have he : (['^'] : List Char).intercalate [Nat.toDigits 10 p, ['1']] = Nat.toDigits 10 p ++ ['^', '1'] := by
      simp [List.intercalate, List.intersperse]
    rw [he] at hs
    rw [if_pos rfl, List.append_nil, hs]
    simp [hv, h1]
  · have hs := splitText_join (a := '^') (p := []) [Nat.toDigits 10 p, Nat.toDigits 10 k, ['1']] (by simp) (by
      intro w hw
      simp only [List.mem_cons, List.not_mem_nil, or_false] at hw
      rcases hw with rfl | rfl | rfl
      · exact hc p
      · exact hc k
      · decide)
    have he : (['^'] : List Char).intercalate [Nat.toDigits 10 p, Nat.toDigits 10 k, ['1']] =
        (Nat.toDigits 10 p ++ '^' :: Nat.toDigits 10 k) ++ ['^', '1'] := by
      simp [List.intercalate, List.intersperse]
    rw [he] at hs
    rw [if_neg hk, hs]
    simp [hv]

theorem parseCode_rows (lit : List Char → Option (List ℤ)) (q : ℕ) : ∀ (lines : List (List Char)) (checks : List (List ℤ)),
    parseCode t lit lines (some q) checks = ((nonBlank t lines).mapM lit).map fun rows => (checks ++ rows, some q)
  | [], checks => by simp [parseCode, nonBlank]
  | line :: lines, checks => by
    rw [parseCode, nonBlank_cons]
    by_cases h : strip t line = []
    · rw [if_pos h, if_pos h, parseCode_rows lit q lines checks]
    · rw [if_neg h, if_neg h, List.mapM_cons]
      simp only [reduceCtorEq, if_false]
      cases lit line with
      | none => rfl
      | some row =>
        simp only [Option.bind_some, Option.bind_eq_bind, Option.pure_def]
        rw [parseCode_rows lit q lines]
        cases (nonBlank t lines).mapM lit <;> simp

theorem parseCode_field' (ht : t.Ok) (lit : List Char → Option (List ℤ)) (pre post : List Char) (hpre : 'G' ∉ pre) (p k : ℕ)
    (rest : List (List Char)) :
    ∀ lines : List (List Char), nonBlank t lines = (pre ++ fieldLine p k ++ post) :: rest →
      parseCode t lit lines none [] = (rest.mapM lit).map fun rows => (rows, some (p ^ k))
  | [], h => by simp [nonBlank] at h
  | line :: lines, h => by
    rw [nonBlank_cons] at h
    rw [parseCode]
    by_cases hb : strip t line = []
    · rw [if_pos hb] at h ⊢
      exact parseCode_field' ht lit pre post hpre p k rest lines h
    · rw [if_neg hb] at h ⊢
      obtain ⟨rfl, hr⟩ := List.cons.inj h
      obtain ⟨s, hs, hl⟩ := search_fieldLine pre post hpre p k
      simp only [if_true, hs, hl, Option.bind_some, fieldOrder_line ht]
      rw [parseCode_rows, hr]
      simp

theorem parseCode_field (ht : t.Ok) (lit : List Char → Option (List ℤ)) (p k : ℕ) (rest : List (List Char))
    (lines : List (List Char)) (h : nonBlank t lines = fieldLine p k :: rest) :
    parseCode t lit lines none [] = (rest.mapM lit).map fun rows => (rows, some (p ^ k)) :=
  parseCode_field' ht lit [] [] (by simp) p k rest lines (by simpa using h)

/-! ## Commands -/

/-- **C101**: the commands are sent in order, preceded by the two that turn off line breaks and followed by `QUIT;`.  In each of
them every `Print(` is replaced by a call that writes to the stream without line breaks, and nothing else is changed; no
`Print(` remains. -/
theorem C101_commands (commands : List (List Char)) : ∃ body : List (List Char),
    sanitizeCommands commands = ["__stream__ := OutputTextUser();".toList,
      "SetPrintFormattingStatus(__stream__, false);".toList] ++ body ++ ["QUIT;".toList] ∧
    List.Forall₂ (Replaced "Print(".toList "PrintTo(__stream__, ".toList) commands body ∧
    ∀ c ∈ body, ¬ "Print(".toList <:+: c := by
  refine ⟨_, rfl, ?_, ?_⟩
  · rw [List.forall₂_map_right_iff, List.forall₂_same]
    intro c _
    obtain ⟨h1, h2, h3⟩ := splitText_spec (sep := "Print(".toList) (by decide) c
    exact ⟨_, h2, h3, h1.symm, rfl⟩
  · intro c hc
    obtain ⟨d, -, rfl⟩ := List.mem_map.1 hc
    obtain ⟨-, -, h3⟩ := splitText_spec (sep := "Print(".toList) (by decide) d
    refine not_infix_intercalate (a := 'P') (p := "rint(".toList) (q := "rintTo(__stream__, ".toList) (by decide) (by decide)
      ?_ _ h3
    rintro r ⟨s, hs⟩
    have := congrArg (List.take 6) hs
    simp at this

theorem replaceText_none {old new text : List Char} (h : ¬ old <:+: text) : replaceText old new text = text := by
  have hf : textFind old text = none := textFind_eq_none.2 fun i hi => h (infix_iff_occursAt.2 ⟨i, hi⟩)
  unfold replaceText splitText
  cases text.length <;> simp [splitFuel, hf, List.intercalate]

/-- **C101**: the program sent to GAP for a code whose name does not contain `Print(`. -/
theorem C101_program (gap : List Char → List Char × List Char) (code : List Char) (h : ¬ "Print(".toList <:+: code) :
    getOutput gap (codeCommands code) = if (gap (codeProgram code)).2 ≠ []
      then .error "ValueError: Error encountered when running GAP" else .ok (gap (codeProgram code)).1 := by
  have h1 : replaceText "Print(".toList "PrintTo(__stream__, ".toList ("code := ".toList ++ code ++ [';']) =
      "code := ".toList ++ code ++ [';'] := by
    refine replaceText_none fun hi => h ?_
    have h2 : ("Print(".toList) <:+: code ++ [';'] :=
      infix_skip (a := 'P') (p := "rint(".toList) (u := "code := ".toList) (by decide) (by rwa [List.append_assoc] at hi)
    have h3 : "Print(".toList <+: code ++ [';'] ∨ True := .inr trivial
    rw [← List.reverse_infix] at h2 ⊢
    rw [List.reverse_append] at h2
    exact infix_skip (a := '(') (p := "tnirP".toList) (u := [';'].reverse) (by decide) h2
  have h2 : replaceText "Print(".toList "PrintTo(__stream__, ".toList "LoadPackage(\"guava\");".toList =
      "LoadPackage(\"guava\");".toList := by decide +kernel
  have h3 : replaceText "Print(".toList "PrintTo(__stream__, ".toList "mat := CheckMat(code);".toList =
      "mat := CheckMat(code);".toList := by decide +kernel
  have h4 : replaceText "Print(".toList "PrintTo(__stream__, ".toList "Print(LeftActingDomain(code), \"\\n\");".toList =
      "PrintTo(__stream__, LeftActingDomain(code), \"\\n\");".toList := by decide +kernel
  have h5 : replaceText "Print(".toList "PrintTo(__stream__, ".toList
      "for vec in mat do Print(List(vec, x -> Int(x)), \"\\n\"); od;".toList =
      "for vec in mat do PrintTo(__stream__, List(vec, x -> Int(x)), \"\\n\"); od;".toList := by decide +kernel
  have he : [' '].intercalate (sanitizeCommands (codeCommands code)) = codeProgram code := by
    simp only [sanitizeCommands, codeCommands, List.map_cons, List.map_nil, h1, h2, h3, h4, h5]
    have hA : "__stream__ := OutputTextUser(); SetPrintFormattingStatus(__stream__, false); LoadPackage(\"guava\"); code := ".toList =
        "__stream__ := OutputTextUser();".toList ++ ([' '] ++ ("SetPrintFormattingStatus(__stream__, false);".toList ++
          ([' '] ++ ("LoadPackage(\"guava\");".toList ++ ([' '] ++ "code := ".toList))))) := by decide +kernel
    have hT : "; mat := CheckMat(code); PrintTo(__stream__, LeftActingDomain(code), \"\\n\"); ".toList ++
        "for vec in mat do PrintTo(__stream__, List(vec, x -> Int(x)), \"\\n\"); od; QUIT;".toList =
        [';'] ++ ([' '] ++ ("mat := CheckMat(code);".toList ++ ([' '] ++
          ("PrintTo(__stream__, LeftActingDomain(code), \"\\n\");".toList ++ ([' '] ++
            ("for vec in mat do PrintTo(__stream__, List(vec, x -> Int(x)), \"\\n\"); od;".toList ++
              ([' '] ++ "QUIT;".toList))))))) := by decide +kernel
    unfold codeProgram
    rw [hA, hT]
    generalize "__stream__ := OutputTextUser();".toList = s1
    generalize "SetPrintFormattingStatus(__stream__, false);".toList = s2
    generalize "LoadPackage(\"guava\");".toList = s3
    generalize "code := ".toList = s4
    generalize "mat := CheckMat(code);".toList = s5
    generalize "PrintTo(__stream__, LeftActingDomain(code), \"\\n\");".toList = s6
    generalize "for vec in mat do PrintTo(__stream__, List(vec, x -> Int(x)), \"\\n\"); od;".toList = s7
    generalize "QUIT;".toList = s8
    simp [List.intercalate, List.intersperse]
  unfold getOutput
  rw [he]

/-- **C101**: whatever the commands, an output on the standard error raises, and otherwise the standard output is returned. -/
theorem C101_output (gap : List Char → List Char × List Char) (commands : List (List Char)) :
    ∃ program, ((gap program).2 ≠ [] → ∃ e, getOutput gap commands = .error e) ∧
      ((gap program).2 = [] → getOutput gap commands = .ok (gap program).1) := by
  refine ⟨[' '].intercalate (sanitizeCommands commands), fun h => ?_, fun h => ?_⟩
  · exact ⟨"ValueError: Error encountered when running GAP", by unfold getOutput; exact if_pos h⟩
  · unfold getOutput; exact if_neg (by simpa using h)

theorem strip_middle {a b core : List Char} (ha : ∀ c ∈ a, t.space c = true) (hb : ∀ c ∈ b, t.space c = true)
    (h1 : ∀ c ∈ core.head?, t.space c = false) (h2 : ∀ c ∈ core.getLast?, t.space c = false) (h0 : core ≠ []) :
    strip t (a ++ core ++ b) = core := by
  have hdrop : ∀ {l r : List Char}, (∀ c ∈ l, t.space c = true) → r ≠ [] → (∀ c ∈ r.head?, t.space c = false) →
      (l ++ r).dropWhile t.space = r := by
    intro l r hl hr hh
    rw [List.dropWhile_append_of_pos hl]
    obtain ⟨x, xs, rfl⟩ := List.exists_cons_of_ne_nil hr
    rw [List.dropWhile_cons, hh x rfl]
    rfl
  unfold strip
  rw [List.append_assoc, hdrop ha (by simp [h0]) ?_]
  · rw [List.reverse_append, hdrop (by simpa using hb) (by simpa using h0) (by simpa using h2), List.reverse_reverse]
  · obtain ⟨x, xs, rfl⟩ := List.exists_cons_of_ne_nil h0
    exact h1

/-- **C101**: GAP counts as installed if it prints a version `4.x.y`, possibly followed by more and with white space around. -/
theorem C101_installed (a b rest : List Char) (x y : ℕ) (ha : ∀ c ∈ a, t.space c = true) (hb : ∀ c ∈ b, t.space c = true)
    (h4 : t.space '4' = false) (hd : ∀ c : Char, c.isDigit = true → t.space c = false)
    (hr : ∀ c ∈ rest, t.space c = false) :
    isInstalled t (some (a ++ ("4.".toList ++ Nat.toDigits 10 x ++ ['.'] ++ Nat.toDigits 10 y ++ rest) ++ b)) = true := by
  have hdig : ∀ (n : ℕ) (c : Char), c ∈ Nat.toDigits 10 n → c.isDigit = true :=
    fun n c hc => isDigit_decimal (n := n) hc
  have hne : ∀ n : ℕ, Nat.toDigits 10 n ≠ [] := fun n => decimal_ne_nil n
  unfold isInstalled
  simp only
  rw [strip_middle ha hb]
  · obtain ⟨d, ds, hds⟩ := List.exists_cons_of_ne_nil (hne y)
    have hd' : d.isDigit = true := hdig y d (by rw [hds]; simp)
    have hf : First reVersion ("4.".toList ++ Nat.toDigits 10 x ++ ['.'] ++ Nat.toDigits 10 y ++ rest, []) (ds ++ rest, []) := by
      have he : "4.".toList ++ Nat.toDigits 10 x ++ ['.'] ++ Nat.toDigits 10 y ++ rest =
          '4' :: '.' :: (Nat.toDigits 10 x ++ '.' :: d :: (ds ++ rest)) := by rw [hds]; simp
      rw [he]
      refine First.cat (First.lit '4' _ _) (First.cat (First.lit '.' _ _) (First.cat
        (first_plus_digits (hne x) (hdig x) (by simp)) (First.cat (First.lit '.' _ _) (First.cat ?_ (First.eps _)))))
      unfold First
      rw [run_char hd']
      rfl
    have hf' : reVersion.first ("4.".toList ++ Nat.toDigits 10 x ++ ['.'] ++ Nat.toDigits 10 y ++ rest) = some (ds ++ rest, []) := hf
    rw [hf']
    rfl
  · intro c hc
    obtain rfl : '4' = c := Option.some.inj hc
    exact h4
  · intro c hc
    have hm : c ∈ Nat.toDigits 10 y ++ rest := by
      have : (Nat.toDigits 10 y ++ rest) ≠ [] := by simp [hne y]
      rw [List.append_assoc, List.getLast?_append_of_ne_nil _ this] at hc
      exact List.mem_of_getLast? hc
    rcases List.mem_append.1 hm with hm | hm
    · exact hd c (hdig y c hm)
    · exact hr c hm
  · simp

/-- **C101**: GAP does not count as installed if it cannot be run, or if what it prints does not begin with `4.`. -/
theorem C101_not_installed : isInstalled t none = false ∧
    ∀ out : List Char, isInstalled t (some out) = true → ∃ rest, strip t out = '4' :: '.' :: rest := by
  refine ⟨rfl, fun out h => ?_⟩
  unfold isInstalled at h
  simp only at h
  cases ho : strip t out with
  | nil => rw [ho] at h; exact absurd h (by decide)
  | cons c l =>
    rw [ho] at h
    by_cases hc : c = '4'
    · subst hc
      cases l with
      | nil => exact absurd h (by decide)
      | cons d l =>
        by_cases hd : d = '.'
        · subst hd; exact ⟨l, rfl⟩
        · have hf : Fails reVersion ('4' :: d :: l, []) :=
            Fails.cat_of_eq (r := (d :: l, [])) (run_char (by simp)) (Fails.cat (Fails.lit (by simpa using hd)))
          unfold Fails at hf
          rw [Regex.first, hf] at h
          cases h
    · have hf : Fails reVersion (c :: l, []) := Fails.cat (Fails.lit (by simpa using hc))
      unfold Fails at hf
      rw [Regex.first, hf] at h
      cases h

/-! ## Packages -/

/-- **C101**: a package that GAP finds is used without asking or installing.  Otherwise the user is asked; any answer but
`y` or nothing raises; and if git reports nothing, then the package counts as installed. -/
theorem C101_package (lower : List Char → List Char) (gap : List Char → List Char × List Char) (answer git name out : List Char)
    (h : getOutput gap ["Print(TestPackageAvailability(\"".toList ++ lower name ++ "\"));".toList] = .ok out) :
    (out ≠ "fail".toList → requirePackage t lower gap answer git name = .ok false) ∧
    (out = "fail".toList → lower (strip t answer) ∉ [[], ['y']] → ∃ e, requirePackage t lower gap answer git name = .error e) ∧
    (out = "fail".toList → lower (strip t answer) ∈ [[], ['y']] → git = [] →
      requirePackage t lower gap answer git name = .ok true) := by
  unfold requirePackage
  rw [h]
  refine ⟨fun h1 => if_neg h1, fun h1 h2 => ?_, fun h1 h2 h3 => ?_⟩
  · refine ⟨"ValueError: Cannot proceed without the required package", ?_⟩
    have h2' : ¬ (lower (strip t answer) = [] ∨ lower (strip t answer) = ['y']) := by simpa using h2
    simp only [h1, if_true]
    rw [if_neg h2']
  · have h2' : lower (strip t answer) = [] ∨ lower (strip t answer) = ['y'] := by simpa using h2
    simp only [h1, if_true]
    rw [if_pos h2', if_neg (by simp [h3])]

/-- **C101, disagreement**: anything that git writes to the standard error counts as a failure.  `git clone` announces there into
which directory it clones, so that a successful installation raises an exception. -/
theorem C101_install_disagreement (lower : List Char → List Char) (gap : List Char → List Char × List Char)
    (answer git name : List Char)
    (h : getOutput gap ["Print(TestPackageAvailability(\"".toList ++ lower name ++ "\"));".toList] = .ok "fail".toList)
    (hy : lower (strip t answer) = ['y']) (hg : git ≠ []) :
    requirePackage t lower gap answer git name = .error "ValueError: Failed to install" := by
  unfold requirePackage
  rw [h]
  simp only [if_true]
  rw [if_pos (.inr hy), if_pos hg]

/-! ## Codes -/

section Code

variable (lit : List Char → Option (List ℤ)) (version : Option (List Char)) (gap : List Char → List Char × List Char)
  (code : List Char)

/-- **C101**: if GAP prints the field, possibly with other text in the same line, and then one row of integers in each line,
possibly with blank lines anywhere, then `get_code` returns these rows in order and the order of the field. -/
theorem C101_code (ht : t.Ok) (hv : isInstalled t version = true) (b : Bool) (hc : ¬ "Print(".toList <:+: code) (p k : ℕ)
    (rowLines : List (List Char)) (rows : List (List ℤ)) (hrows : rows ≠ []) (out : List Char)
    (hgap : gap (codeProgram code) = (out, []))
    (pre post : List Char) (hpre : 'G' ∉ pre)
    (hout : nonBlank t (out.splitOn '\n') = (pre ++ fieldLine p k ++ post) :: rowLines)
    (hlit : rowLines.map lit = rows.map some) :
    getCode t lit version (.ok b) gap code = .ok (rows, some (p ^ k)) := by
  have hm : rowLines.mapM lit = some rows := by
    clear hout
    induction rowLines generalizing rows with
    | nil => cases rows with
      | nil => rfl
      | cons r rows => simp at hlit
    | cons l ls ih =>
      cases rows with
      | nil => simp at hlit
      | cons r rows =>
        rw [List.map_cons, List.map_cons] at hlit
        obtain ⟨h1, h2⟩ := List.cons.inj hlit
        rw [List.mapM_cons, h1]
        by_cases hr : rows = []
        · subst hr
          have : ls = [] := by simpa using h2
          subst this
          rfl
        · rw [ih rows hr h2]; rfl
  unfold getCode
  rw [hv, C101_program gap code hc, hgap]
  simp only [ne_eq, not_true_eq_false, if_false, parseCode_field' ht lit pre post hpre p k rowLines _ hout, hm, Option.map_some]
  rw [if_neg (by simp), if_neg hrows]

/-- **C101**: a code without parity checks raises. -/
theorem C101_no_checks (ht : t.Ok) (hv : isInstalled t version = true) (b : Bool) (hc : ¬ "Print(".toList <:+: code) (p k : ℕ)
    (out : List Char) (hgap : gap (codeProgram code) = (out, [])) (hout : nonBlank t (out.splitOn '\n') = [fieldLine p k]) :
    getCode t lit version (.ok b) gap code = .error "ValueError: Code has no parity checks" := by
  unfold getCode
  rw [hv, C101_program gap code hc, hgap]
  simp only [ne_eq, not_true_eq_false, if_false, parseCode_field ht lit p k [] _ hout, List.mapM_nil, Option.pure_def,
    Option.map_some]
  rw [if_neg (by simp), if_pos trivial]

/-- **C101**: without GAP, without the package, after an error of GAP, and if a line after that of the field cannot be read, an
exception is raised; so a result is always the complete answer of GAP. -/
theorem C101_raises (ht : t.Ok) (require : Except String Bool)
    (h : isInstalled t version = false ∨ (∃ e, require = .error e) ∨
      ¬ "Print(".toList <:+: code ∧ ((gap (codeProgram code)).2 ≠ [] ∨
        ∃ p k rowLines, nonBlank t ((gap (codeProgram code)).1.splitOn '\n') = fieldLine p k :: rowLines ∧
          ∃ l ∈ rowLines, lit l = none)) :
    ∃ e, getCode t lit version require gap code = .error e := by
  unfold getCode
  by_cases hv : isInstalled t version = false
  · exact ⟨_, if_pos hv⟩
  · rw [if_neg hv]
    rcases require with e | b
    · exact ⟨e, rfl⟩
    · rcases h with h | ⟨e, h⟩ | ⟨hc, h⟩
      · exact absurd h hv
      · cases h
      · simp only
        rw [C101_program gap code hc]
        by_cases he : (gap (codeProgram code)).2 ≠ []
        · rw [if_pos he]; exact ⟨_, rfl⟩
        · rw [if_neg he]
          rcases h with h | ⟨p, k, rowLines, hl, l, hm, hn⟩
          · exact absurd h he
          · have : rowLines.mapM lit = none := by
              clear hl
              induction rowLines with
              | nil => cases hm
              | cons x xs ih =>
                rw [List.mapM_cons]
                rcases List.mem_cons.1 hm with rfl | hm
                · rw [hn]; rfl
                · cases lit x with
                  | none => rfl
                  | some r => rw [ih hm]; rfl
            simp only [parseCode_field ht lit p k rowLines _ hl, this, Option.map_none]
            exact ⟨_, rfl⟩

/-- **C101**: `ClassicalCode.from_name` builds the code from the rows over the field, and the code keeps the name as it was
given.  White space around the name and spaces within it do not matter for anything else. -/
theorem C101_from_name {C : Type} (get : List Char → Except String (List (List ℤ) × Option ℕ))
    (build : List (List ℤ) → ℕ → Except String C) (name : List Char) :
    (∀ rows q, get (standardizedName t name) = .ok (rows, some q) → q ≠ 0 → ∀ c, build rows q = .ok c →
      codeFromName t get build name = .ok (c, name)) ∧
    (∀ e, get (standardizedName t name) = .error e → codeFromName t get build name = .error e) ∧
    ∀ name', standardizedName t name' = standardizedName t name →
      (codeFromName t get build name').map Prod.fst = (codeFromName t get build name).map Prod.fst := by
  refine ⟨fun rows q h hq c hb => ?_, fun e h => ?_, fun name' h => ?_⟩
  · unfold codeFromName
    rw [h]
    simp only [Option.filter_some]
    rw [if_pos (by simpa using hq), Option.getD_some, hb]
    rfl
  · unfold codeFromName
    rw [h]
  · unfold codeFromName
    rw [h]
    rcases get (standardizedName t name) with e | ⟨m, f⟩
    · rfl
    · simp only
      cases build m ((f.filter fun x => decide (x ≠ 0)).getD 2) <;> rfl

end Code

theorem dropWhile_filter (hs : t.space ' ' = true) (l : List Char) :
    (l.filter (· ≠ ' ')).dropWhile t.space = (l.dropWhile t.space).filter (· ≠ ' ') := by
  induction l with
  | nil => rfl
  | cons c l ih =>
    by_cases hc : c = ' '
    · subst hc
      rw [List.filter_cons_of_neg (by simp), List.dropWhile_cons_of_pos hs, ih]
    · rw [List.filter_cons_of_pos (by simpa using hc)]
      cases h : t.space c with
      | true => rw [List.dropWhile_cons_of_pos h, List.dropWhile_cons_of_pos h, ih]
      | false =>
        rw [List.dropWhile_cons_of_neg (by simp [h]), List.dropWhile_cons_of_neg (by simp [h]),
          List.filter_cons_of_pos (by simpa using hc)]

/-- **C101**: spaces anywhere in the name and white space around it do not matter. -/
theorem C101_spaces (hs : t.space ' ' = true) (name name' : List Char)
    (h : name.filter (· ≠ ' ') = name'.filter (· ≠ ' ')) : standardizedName t name = standardizedName t name' := by
  have key : ∀ l : List Char, standardizedName t l = strip t (l.filter (· ≠ ' ')) := by
    intro l
    unfold standardizedName strip
    rw [dropWhile_filter hs, ← List.filter_reverse, dropWhile_filter hs, ← List.filter_reverse]
  rw [key, key, h]

theorem C101_white_space {a b core : List Char} (ha : ∀ c ∈ a, t.space c = true) (hb : ∀ c ∈ b, t.space c = true)
    (h1 : ∀ c ∈ core.head?, t.space c = false) (h2 : ∀ c ∈ core.getLast?, t.space c = false) (h0 : core ≠ []) :
    standardizedName t (a ++ core ++ b) = core.filter (· ≠ ' ') := by
  unfold standardizedName
  rw [strip_middle ha hb h1 h2 h0]

/-! ## The name of the automorphism group -/

theorem decimal_inj {a b : ℕ} (h : decimal a = decimal b) : a = b := by
  have ha := Nat.ofDigitChars_ten_toDigits (n := a)
  have hb := Nat.ofDigitChars_ten_toDigits (n := b)
  unfold decimal at h
  rw [h] at ha
  exact ha.symm.trans hb

theorem mem_join_decimal {l : List ℕ} {x : Char} (h : x ∈ [','].intercalate (l.map decimal)) : x = ',' ∨ x.isDigit = true := by
  match l, h with
  | [], h => simp [List.intercalate] at h
  | [a], h =>
    rw [List.map_cons, List.map_nil] at h
    simp only [List.intercalate, List.intersperse, List.flatten_cons, List.flatten_nil, List.append_nil] at h
    exact .inr (isDigit_decimal h)
  | a :: b :: l, h =>
    rw [List.map_cons, List.map_cons, intercalate_cons_cons, List.mem_append, List.mem_append] at h
    rcases h with h | h | h
    · exact .inr (isDigit_decimal h)
    · exact .inl (by simpa using h)
    · exact mem_join_decimal (l := b :: l) (by rwa [List.map_cons])

theorem join_decimal_inj {a b : List ℕ} (h : [','].intercalate (a.map decimal) = [','].intercalate (b.map decimal)) : a = b := by
  have hc : ∀ l : List ℕ, ∀ w ∈ l.map decimal, ',' ∉ w := by
    intro l w hw
    obtain ⟨n, -, rfl⟩ := List.mem_map.1 hw
    intro hm
    exact absurd (isDigit_decimal hm) (by decide)
  have hne : ∀ (x : ℕ) (l : List ℕ), [','].intercalate ((x :: l).map decimal) ≠ [] := by
    intro x l
    cases l with
    | nil => simpa [List.intercalate] using decimal_ne_nil x
    | cons y l => rw [List.map_cons, List.map_cons, intercalate_cons_cons]; simp [decimal_ne_nil]
  cases a with
  | nil =>
    cases b with
    | nil => rfl
    | cons y b => exact absurd h.symm (hne y b)
  | cons x a =>
    cases b with
    | nil => exact absurd h (hne x a)
    | cons y b =>
      have h1 := splitText_join (a := ',') (p := []) ((x :: a).map decimal) (by simp) (hc _)
      rw [h, splitText_join (a := ',') (p := []) ((y :: b).map decimal) (by simp) (hc _)] at h1
      exact (List.map_injective_iff.2 (fun _ _ => decimal_inj) h1.symm)

theorem join_lines_inj : ∀ {A B : List (List ℕ)},
    [','].intercalate (A.map lineText) = [','].intercalate (B.map lineText) → A = B := by
  have hbr : ∀ l : List ℕ, ']' ∉ '[' :: [','].intercalate (l.map decimal) := by
    intro l hl
    rcases List.mem_cons.1 hl with hl | hl
    · exact absurd hl (by decide)
    · rcases mem_join_decimal hl with hl | hl
      · exact absurd hl (by decide)
      · exact absurd hl (by decide)
  have hform : ∀ (l : List ℕ) (A : List (List ℕ)), ∃ R, [','].intercalate ((l :: A).map lineText) =
      ('[' :: [','].intercalate (l.map decimal)) ++ ']' :: R ∧ (A = [] → R = []) ∧
        (A ≠ [] → R = ',' :: [','].intercalate (A.map lineText)) := by
    intro l A
    cases A with
    | nil => exact ⟨[], by simp [List.intercalate, lineText], fun _ => rfl, fun h => absurd rfl h⟩
    | cons m A =>
      refine ⟨',' :: [','].intercalate ((m :: A).map lineText), ?_, fun h => by simp at h, fun _ => rfl⟩
      rw [List.map_cons, List.map_cons, intercalate_cons_cons]
      simp [lineText]
  intro A
  induction A with
  | nil =>
    intro B h
    cases B with
    | nil => rfl
    | cons m B =>
      obtain ⟨R, hR, -⟩ := hform m B
      rw [hR] at h
      simp [List.intercalate] at h
  | cons l A ih =>
    intro B h
    obtain ⟨R, hR, hR0, hR1⟩ := hform l A
    cases B with
    | nil =>
      rw [hR] at h
      simp [List.intercalate] at h
    | cons m B =>
      obtain ⟨S, hS, hS0, hS1⟩ := hform m B
      rw [hR, hS] at h
      obtain ⟨h1, h2⟩ := split_unique (hbr l) (hbr m) h
      have hl : l = m := join_decimal_inj (List.cons.inj h1).2
      have hAB : A = B := by
        by_cases hA : A = []
        · by_cases hB : B = []
          · rw [hA, hB]
          · rw [hR0 hA, hS1 hB] at h2; cases h2
        · by_cases hB : B = []
          · rw [hS0 hB, hR1 hA] at h2; cases h2
          · rw [hR1 hA, hS1 hB] at h2
            exact ih (List.cons.inj h2).2
      rw [hl, hAB]

theorem mem_join_lines {A : List (List ℕ)} {x : Char} (h : x ∈ [','].intercalate (A.map lineText)) :
    x ∈ [',', '[', ']'] ∨ x.isDigit = true := by
  have hline : ∀ l : List ℕ, x ∈ lineText l → x ∈ [',', '[', ']'] ∨ x.isDigit = true := by
    intro l hl
    unfold lineText at hl
    rw [List.mem_append, List.mem_append] at hl
    rcases hl with (hl | hl) | hl
    · exact .inl (by simp_all)
    · rcases mem_join_decimal hl with hl | hl
      · exact .inl (by simp_all)
      · exact .inr hl
    · exact .inl (by simp_all)
  match A, h with
  | [], h => simp [List.intercalate] at h
  | [a], h =>
    simp only [List.map_cons, List.map_nil, List.intercalate, List.intersperse, List.flatten_cons, List.flatten_nil,
      List.append_nil] at h
    exact hline a h
  | a :: b :: A, h =>
    rw [List.map_cons, List.map_cons, intercalate_cons_cons, List.mem_append, List.mem_append] at h
    rcases h with h | h | h
    · exact hline a h
    · exact .inl (by simp_all)
    · exact mem_join_lines (A := b :: A) (by rwa [List.map_cons])

/-- The name without spaces. -/
theorem name_without_spaces (q : ℕ) (M : List (List ℕ)) : (automorphismName q M).filter (· ≠ ' ') =
    (if q = 2 then "AutomorphismGroup(CheckMatCode([" else "PermutationAutomorphismGroup(CheckMatCode([").toList ++
      (([','].intercalate (M.map lineText) ++ [']', ',']) ++ 'G' :: ("F(".toList ++ decimal q ++ ")))".toList)) := by
  have h1 : ([','].intercalate (M.map lineText)).filter (· ≠ ' ') = [','].intercalate (M.map lineText) := by
    rw [List.filter_eq_self]
    intro x hx
    rcases mem_join_lines hx with hx | hx
    · fin_cases hx <;> decide
    · have : x ≠ ' ' := by rintro rfl; exact absurd hx (by decide)
      simpa using this
  have h2 : (decimal q).filter (· ≠ ' ') = decimal q := by
    rw [List.filter_eq_self]
    intro x hx
    have : x ≠ ' ' := by rintro rfl; exact absurd (isDigit_decimal hx) (by decide)
    simpa using this
  unfold automorphismName
  simp only [List.filter_append, h1, h2]
  by_cases hq : q = 2
  · simp only [hq, if_true]
    simp
  · simp only [hq, if_false]
    simp

/-- **C101**: the name of the automorphism group, without spaces, determines the field and the matrix. -/
theorem C101_automorphism_text {q q' : ℕ} {M M' : List (List ℕ)}
    (h : (automorphismName q M).filter (· ≠ ' ') = (automorphismName q' M').filter (· ≠ ' ')) : q = q' ∧ M = M' := by
  have hG : ∀ A : List (List ℕ), 'G' ∉ [','].intercalate (A.map lineText) ++ [']', ','] := by
    intro A hA
    rcases List.mem_append.1 hA with hA | hA
    · rcases mem_join_lines hA with hA | hA
      · revert hA; decide
      · exact absurd hA (by decide)
    · revert hA; decide
  rw [name_without_spaces, name_without_spaces] at h
  have hkind : (if q = 2 then "AutomorphismGroup(CheckMatCode([" else "PermutationAutomorphismGroup(CheckMatCode([").toList =
      (if q' = 2 then "AutomorphismGroup(CheckMatCode([" else "PermutationAutomorphismGroup(CheckMatCode([").toList := by
    by_cases hq : q = 2 <;> by_cases hq' : q' = 2
    · rw [if_pos hq, if_pos hq']
    · rw [if_pos hq, if_neg hq'] at h
      have := congrArg List.head? h
      simp at this
    · rw [if_neg hq, if_pos hq'] at h
      have := congrArg List.head? h
      simp at this
    · rw [if_neg hq, if_neg hq']
  rw [hkind] at h
  obtain ⟨h1, h2⟩ := split_unique (hG M) (hG M') (List.append_cancel_left h)
  refine ⟨?_, join_lines_inj (List.append_cancel_right h1)⟩
  rw [List.append_assoc, List.append_assoc] at h2
  exact decimal_inj (List.append_cancel_right (List.append_cancel_left h2))

/-- The entries of a matrix as integers (`.view(np.ndarray)`, `/repo/qldpc/codes/common.py:561`). -/
def fieldMatrix {F : Type} {n : ℕ} (fi : FieldInts F) (M : Rows F n) : List (List ℕ) :=
  M.map fun r => List.ofFn fun i => (fi.toInt (r i)).toNat

variable {F : Type} [Field F] [DecidableEq F] {n m : ℕ}

theorem fieldMatrix_inj {fi : FieldInts F} (ok : FieldInts.Ok fi) {A B : Rows F n} (h : fieldMatrix fi A = fieldMatrix fi B) :
    A = B := by
  refine List.map_injective_iff.2 (fun r s hrs => ?_) h
  have := List.ofFn_injective hrs
  funext i
  have hi : (fi.toInt (r i)).toNat = (fi.toInt (s i)).toNat := congrFun this i
  have h1 := ok.nonneg (r i)
  have h2 := ok.nonneg (s i)
  have h3 : fi.toInt (r i) = fi.toInt (s i) := by omega
  have h4 := ok.ofInt_toInt (r i)
  rw [h3, ok.ofInt_toInt] at h4
  exact (Option.some.inj h4).symm

/-- **C101**: `get_automorphism_group` asks for the same group for two codes of the same length exactly if they have the same
code words. -/
theorem C101_automorphism {fi : FieldInts F} (ok : FieldInts.Ok fi) (q : ℕ) (H H' : Rows F n) :
    (automorphismName q (fieldMatrix fi (CCode.ofMatrix H).canonicalized.matrix)).filter (· ≠ ' ') =
      (automorphismName q (fieldMatrix fi (CCode.ofMatrix H').canonicalized.matrix)).filter (· ≠ ' ') ↔
    ∀ w, IsWord H w ↔ IsWord H' w := by
  have hw : (∀ w, IsWord H w ↔ IsWord H' w) ↔
      (CCode.ofMatrix H).canonicalized.matrix = (CCode.ofMatrix H').canonicalized.matrix := by
    have := C01_equiv (CCode.ofMatrix H) (CCode.ofMatrix H')
    rw [CCode.equiv, decide_eq_true_iff] at this
    exact this.symm
  rw [hw]
  exact ⟨fun h => fieldMatrix_inj ok (C101_automorphism_text h).2, fun h => by rw [h]⟩

/-- **C101**: codes of different lengths have different names if one of them has a nonzero check. -/
theorem C101_automorphism_length {fi : FieldInts F} (q q' : ℕ) (H : Rows F n) (H' : Rows F m)
    (h : (automorphismName q (fieldMatrix fi (CCode.ofMatrix H).canonicalized.matrix)).filter (· ≠ ' ') =
      (automorphismName q' (fieldMatrix fi (CCode.ofMatrix H').canonicalized.matrix)).filter (· ≠ ' '))
    (hH : ∃ r ∈ H, r ≠ 0) : n = m := by
  obtain ⟨-, h⟩ := C101_automorphism_text h
  have hne : (CCode.ofMatrix H).canonicalized.matrix ≠ [] := by
    intro he
    obtain ⟨r, hr, hr0⟩ := hH
    have hs : rowSpan (CCode.ofMatrix H).canonicalized.matrix = rowSpan H := rowSpan_dropZero_rowReduce H
    rw [he] at hs
    have : r ∈ rowSpan ([] : Rows F n) := by rw [hs]; exact subset_rowSpan hr
    refine hr0 ?_
    simpa [rowSpan] using this
  obtain ⟨r, rs, hr⟩ := List.exists_cons_of_ne_nil hne
  rw [hr] at h
  cases hm : (CCode.ofMatrix H').canonicalized.matrix with
  | nil => rw [hm] at h; simp [fieldMatrix] at h
  | cons s ss =>
    rw [hm] at h
    have := congrArg List.length (List.cons.inj h).1
    simpa using this

/-- **C101, disagreement**: all codes without nonzero checks over a field have the same name, whatever their length. -/
theorem C101_automorphism_disagreement (fi : FieldInts F) (q : ℕ) :
    automorphismName q (fieldMatrix fi (CCode.ofMatrix ([] : Rows F n)).canonicalized.matrix) =
      automorphismName q (fieldMatrix fi (CCode.ofMatrix ([] : Rows F m)).canonicalized.matrix) := by
  have key : ∀ k : ℕ, (CCode.ofMatrix ([] : Rows F k)).canonicalized.matrix = [] := by
    intro k
    have h0 : rowSpan ([] : Rows F k) = ⊥ := by
      rw [eq_bot_iff]; exact rowSpan_le.2 (by intro r hr; cases hr)
    have h1 : rank ([] : Rows F k) = 0 := by rw [← finrank_rowSpan, h0, finrank_bot]
    have h2 : (dropZero (rowReduce ([] : Rows F k))).length = 0 := by rw [length_dropZero_rowReduce, h1]
    exact List.length_eq_zero_iff.1 h2
  rw [key, key]
  rfl

/-! ## Concrete cases -/

private def tAscii : CharTable where
  space c := c = ' ' || c = '\n'
  numeric c := c.isDigit
  digit c := if c.isDigit then some (c.toNat - '0'.toNat) else none

private def litRow (l : List Char) : Option (List ℤ) :=
  if l = "[ 1, 1, 0 ]".toList then some [1, 1, 0] else if l = "[ 0, 1, 1 ]".toList then some [0, 1, 1] else none

private def gapDemo (_ : List Char) : List Char × List Char := ("\nGF(2^2)\n[ 1, 1, 0 ]\n\n[ 0, 1, 1 ]\n".toList, [])

example : isInstalled tAscii (some "4.12.1\n".toList) = true ∧ isInstalled tAscii (some "3.4".toList) = false := by
  decide +kernel

example : fieldLine 2 2 = "GF(2^2)".toList ∧ fieldLine 3 1 = "GF(3)".toList ∧
    nonBlank tAscii ((gapDemo []).1.splitOn '\n') = fieldLine 2 2 :: ["[ 1, 1, 0 ]".toList, "[ 0, 1, 1 ]".toList] ∧
    getCode tAscii litRow (some "4.12.1\n".toList) (.ok false) gapDemo "RepetitionCode(3,GF(4))".toList =
      .ok ([[1, 1, 0], [0, 1, 1]], some 4) := by
  decide +kernel

example : replaceText "Print(".toList "PrintTo(__stream__, ".toList "Print(1); PrPrint(int(2);".toList =
    "PrintTo(__stream__, 1); PrPrintTo(__stream__, int(2);".toList := by decide +kernel

#print axioms C101_commands
#print axioms C101_program
#print axioms C101_output
#print axioms C101_installed
#print axioms C101_not_installed
#print axioms C101_package
#print axioms C101_install_disagreement
#print axioms C101_code
#print axioms C101_no_checks
#print axioms C101_raises
#print axioms C101_from_name
#print axioms C101_spaces
#print axioms C101_white_space
#print axioms C101_automorphism_text
#print axioms C101_automorphism
#print axioms C101_automorphism_length
#print axioms C101_automorphism_disagreement

/-! ### Instances of the theorems: concrete cases meet the hypotheses -/

example := C101_program gapDemo "RepetitionCode(3,GF(4))".toList (by decide +kernel)
example := C101_spaces (t := tAscii) rfl "Cyclic Group(3)".toList "CyclicGroup( 3)".toList (by decide +kernel)
example := C101_white_space (t := tAscii) (a := " ".toList) (b := "\n".toList) (core := "C(3)".toList) (by decide +kernel) (by decide +kernel) (by decide +kernel)
  (by decide +kernel) (by decide)
example := C101_installed (t := tAscii) " ".toList "\n".toList ".1".toList 4 12 (by decide +kernel) (by decide +kernel) (by decide +kernel)

example := C101_automorphism (primeInts_ok 3 (by decide)) 3 ([![1, 2]] : Rows (ZMod 3) 2) [![2, 1]]
example := C101_automorphism_text (q := 3) (q' := 3) (M := [[1, 2]]) (M' := [[1, 2]]) rfl
example := C101_automorphism_length (fi := primeInts 3) 3 3 ([![1, 2]] : Rows (ZMod 3) 2) [![1, 2]] rfl ⟨![1, 2], by simp, by decide⟩

example (answer git : List Char) := C101_package (t := asciiTable) id (fun _ => ("fail".toList, [])) answer git "guava".toList "fail".toList (by decide +kernel)
example := C101_code (t := asciiTable) litRow (some "4.12.1\n".toList) gapDemo "RepetitionCode(3,GF(4))".toList asciiTable_ok (by decide +kernel) true (by decide +kernel)
  2 2 ["[ 1, 1, 0 ]".toList, "[ 0, 1, 1 ]".toList] [[1, 1, 0], [0, 1, 1]] (by decide) _ rfl [] [] (by simp) (by decide +kernel) (by decide +kernel)
example := C101_no_checks (t := asciiTable) litRow (some "4.12.1\n".toList) (fun _ => ("GF(3)\n".toList, [])) "C".toList asciiTable_ok (by decide +kernel) false (by decide +kernel)
  3 1 _ rfl (by decide +kernel)
example := C101_raises (t := asciiTable) litRow none gapDemo "C".toList asciiTable_ok (.ok true) (Or.inl rfl)
example := C101_raises (t := asciiTable) litRow (some "4.12.1".toList) (fun _ => ([], "Error".toList)) "C".toList asciiTable_ok (.ok true)
  (Or.inr (Or.inr ⟨by decide +kernel, Or.inl (by decide)⟩))

end QLDPC.Props
