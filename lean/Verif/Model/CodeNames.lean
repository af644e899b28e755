import Verif.Model.GroupNames
import Verif.Model.Idempotents
import Verif.Model.KnownGroups

/-!
# Codes by name, and the communication with GAP

`/repo/qldpc/external/gap.py`, `/repo/qldpc/external/codes.py` and `ClassicalCode.from_name` of
`/repo/qldpc/codes/common.py`.  GAP, git, the answer of the user and `ast.literal_eval` are parameters.  Texts are lists of
characters.  The disk cache is the subject of `Verif/Model/Cache.lean`; `functools.cache` is left out.
-/

namespace QLDPC

/-! ### `external/gap.py` -/

/-- `text.replace(old, new)` for a nonempty `old`. -/
def replaceText (old new text : List Char) : List Char := new.intercalate (splitText old text)

/-- `4\.[0-9]+\.[0-9]` (`/repo/qldpc/external/gap.py:37`). -/
def reVersion : Regex := .seq [.lit '4', .lit '.', .plus (.char Char.isDigit), .lit '.', .char Char.isDigit]

/-- `is_installed` (`/repo/qldpc/external/gap.py:31-39`); `version` is what GAP prints, `none` if it cannot be run. -/
def isInstalled (t : CharTable) (version : Option (List Char)) : Bool :=
  match version with
  | none => false
  | some out => (reVersion.first (strip t out)).isSome

/-- `sanitize_commands` (`/repo/qldpc/external/gap.py:42-51`). -/
def sanitizeCommands (commands : List (List Char)) : List (List Char) :=
  ["__stream__ := OutputTextUser();".toList, "SetPrintFormattingStatus(__stream__, false);".toList] ++
    commands.map (replaceText "Print(".toList "PrintTo(__stream__, ".toList) ++ ["QUIT;".toList]

/-- `get_output` (`/repo/qldpc/external/gap.py:54-64`).  `gap program` is what GAP writes to the standard output and to the
standard error. -/
def getOutput (gap : List Char → List Char × List Char) (commands : List (List Char)) : Except String (List Char) :=
  let result := gap ([' '].intercalate (sanitizeCommands commands))
  if result.2 ≠ [] then .error "ValueError: Error encountered when running GAP" else .ok result.1

/-- `require_package` (`/repo/qldpc/external/gap.py:67-89`).  `answer` is what the user types; `git` is what
`git clone` writes to the standard error; the result says whether git was run. -/
def requirePackage (t : CharTable) (lower : List Char → List Char) (gap : List Char → List Char × List Char)
    (answer git : List Char) (name : List Char) : Except String Bool :=
  match getOutput gap ["Print(TestPackageAvailability(\"".toList ++ lower name ++ "\"));".toList] with
  | .error e => .error e
  | .ok availability =>
    if availability = "fail".toList then
      let response := lower (strip t answer)
      if response = [] ∨ response = ['y'] then
        if git ≠ [] then .error "ValueError: Failed to install" else .ok true
      else .error "ValueError: Cannot proceed without the required package"
    else .ok false

/-! ### `external/codes.py` -/

/-- `re.search`: the first position at which the expression matches. -/
def Regex.search (re : Regex) : List Char → Option MatchState
  | [] => re.first []
  | c :: r =>
    match re.first (c :: r) with
    | some s => some s
    | none => re.search r

/-- `GF\(([0-9]+(\^[0-9]+)?)\)` (`/repo/qldpc/external/codes.py:52`). -/
def reField : Regex :=
  .seq [.lit 'G', .lit 'F', .lit '(',
    .group 1 (.seq [.plus (.char Char.isDigit), .opt (.group 2 (.seq [.lit '^', .plus (.char Char.isDigit)]))]), .lit ')']

/-- `base, exponent, *_ = (match.group(1) + "^1").split("^")` and `int(base) ** int(exponent)`
(`/repo/qldpc/external/codes.py:53-54`). -/
def fieldOrder (t : CharTable) (group : List Char) : Option ℕ :=
  match splitText ['^'] (group ++ ['^', '1']) with
  | base :: exponent :: _ => (digitsValue t base).bind fun b => (digitsValue t exponent).map fun e => b ^ e
  | _ => none

/-- The loop over the lines (`/repo/qldpc/external/codes.py:46-56`); `lit` is `ast.literal_eval`, `none` for an exception. -/
def parseCode (t : CharTable) (lit : List Char → Option (List ℤ)) :
    List (List Char) → Option ℕ → List (List ℤ) → Option (List (List ℤ) × Option ℕ)
  | [], field, checks => some (checks, field)
  | line :: lines, field, checks =>
    if strip t line = [] then parseCode t lit lines field checks
    else
      match (if field = none then reField.search line else none) with
      | some s => ((s.2.lookup 1).bind (fieldOrder t)).bind fun q => parseCode t lit lines (some q) checks
      | none => (lit line).bind fun row => parseCode t lit lines field (checks ++ [row])

/-- The commands for a code (`/repo/qldpc/external/codes.py:36-42`). -/
def codeCommands (code : List Char) : List (List Char) :=
  ["LoadPackage(\"guava\");".toList, "code := ".toList ++ code ++ [';'], "mat := CheckMat(code);".toList,
    "Print(LeftActingDomain(code), \"\\n\");".toList,
    "for vec in mat do Print(List(vec, x -> Int(x)), \"\\n\"); od;".toList]

/-- `get_code` (`/repo/qldpc/external/codes.py:27-61`), without the cache.  `require` is the outcome of `require_package`.
`str.splitlines` splits at line feeds only; it also splits at other control characters, which GAP does not print. -/
def getCode (t : CharTable) (lit : List Char → Option (List ℤ)) (version : Option (List Char))
    (require : Except String Bool) (gap : List Char → List Char × List Char) (code : List Char) :
    Except String (List (List ℤ) × Option ℕ) :=
  if isInstalled t version = false then .error "ValueError: GAP 4 is not installed"
  else
    match require with
    | .error e => .error e
    | .ok _ =>
      match getOutput gap (codeCommands code) with
      | .error e => .error e
      | .ok text =>
        match parseCode t lit (text.splitOn '\n') none [] with
        | none => .error "SyntaxError"
        | some (checks, field) => if checks = [] then .error "ValueError: Code has no parity checks" else .ok (checks, field)

/-- `ClassicalCode.from_name` (`/repo/qldpc/codes/common.py:546-553`): the code and its name.  `get` is `get_code`, `build` is
`ClassicalCode` with a matrix of integers and the order of a field (`field or DEFAULT_FIELD_ORDER`, line 111). -/
def codeFromName {C : Type} (t : CharTable) (get : List Char → Except String (List (List ℤ) × Option ℕ))
    (build : List (List ℤ) → ℕ → Except String C) (name : List Char) : Except String (C × List Char) :=
  match get (standardizedName t name) with
  | .error e => .error e
  | .ok (matrix, field) => (build matrix ((field.filter (· ≠ 0)).getD 2)).map fun code => (code, name)

end QLDPC
