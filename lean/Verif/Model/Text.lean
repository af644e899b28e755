import Verif.Model.Symplectic

/-!
# Text: Pauli strings, qudit operators, permutations

`Pauli`, `QuditOperator` (`/repo/qldpc/objects.py:36-150`), `QuditCode.get_strings`, `from_strings`
(`/repo/qldpc/codes/common.py:816-849`), `op_to_string` (`/repo/qldpc/math.py:34-41`), `to_gap_cycles`
(`/repo/qldpc/abstract.py:103-112`) and the parser of GAP output (`/repo/qldpc/external/groups.py:119-136`).
A python `str` is a list of characters.
-/

namespace QLDPC

/-- What python knows about characters: `isnumeric`, the digit value used by `int`, `isspace`. -/
structure CharTable where
  numeric : Char → Bool
  digit : Char → Option ℕ
  space : Char → Bool

/-- `str(n)` for a nonnegative integer. -/
def decimal (n : ℕ) : List Char := Nat.toDigits 10 n

/-- `str(z)` for an integer. -/
def intText (z : ℤ) : List Char := if z < 0 then '-' :: decimal z.natAbs else decimal z.natAbs

/-- Digits of `int(text)`, most significant first; `none` for a `ValueError`. -/
def digitsValue (t : CharTable) (l : List Char) : Option ℕ :=
  if l = [] then none else l.foldlM (fun acc c => (t.digit c).map fun d => 10 * acc + d) 0

/-- `text.strip()`. -/
def strip (t : CharTable) (l : List Char) : List Char :=
  ((l.dropWhile t.space).reverse.dropWhile t.space).reverse

/-- `int(text)`: white space around, one sign, digits.  Underscores between digits are not modelled. -/
def pyInt (t : CharTable) (l : List Char) : Option ℤ :=
  match strip t l with
  | '-' :: r => (digitsValue t r).map fun v : ℕ => -(v : ℤ)
  | '+' :: r => (digitsValue t r).map fun v : ℕ => (v : ℤ)
  | r => (digitsValue t r).map fun v : ℕ => (v : ℤ)

/-- `text.split()`: maximal pieces without white space. -/
def pySplit (t : CharTable) (l : List Char) : List (List Char) := (l.splitOnP t.space).filter fun w => w ≠ []

/-! ### Operators on one qudit -/

/-- `str(QuditOperator)` (`/repo/qldpc/objects.py:111-121`). -/
def quditToString (v : ℤ × ℤ) : List Char :=
  if v.1 = 0 ∧ v.2 = 0 then ['I']
  else if v.1 = v.2 then ['Y', '('] ++ intText v.2 ++ [')']
  else
    ['*'].intercalate
      ((if v.1 ≠ 0 then [['X', '('] ++ intText v.1 ++ [')']] else []) ++
        if v.2 ≠ 0 then [['Z', '('] ++ intText v.2 ++ [')']] else [])

/-- One factor in `QuditOperator.from_string` (`/repo/qldpc/objects.py:135-142`); `factor[0]` of an empty
factor raises `IndexError`. -/
def parseFactor (t : CharTable) (s : List Char) : Except String (Char × ℤ) :=
  match s with
  | [] => .error "IndexError"
  | pauli :: _ =>
    let valStr := (s.drop 2).dropLast
    if pauli ∉ ['X', 'Y', 'Z'] ∨ ¬(valStr ≠ [] ∧ valStr.all t.numeric) ∨
        s ≠ [pauli, '('] ++ valStr ++ [')'] then .error "ValueError"
    else match pyInt t valStr with
      | none => .error "ValueError"
      | some v => .ok (pauli, v)

/-- The assignments of one factor (`/repo/qldpc/objects.py:144-148`). -/
def applyFactor (acc : ℤ × ℤ) (f : Char × ℤ) : ℤ × ℤ :=
  if f.1 = 'X' then (f.2, acc.2) else if f.1 = 'Z' then (acc.1, f.2) else (f.2, f.2)

/-- `QuditOperator.from_string` (`/repo/qldpc/objects.py:124-152`). -/
def quditFromString (t : CharTable) (s : List Char) : Except String (ℤ × ℤ) :=
  if s = ['I'] then .ok (0, 0)
  else if (s.splitOn '*').length > 2 then .error "ValueError"
  else (s.splitOn '*').foldlM (fun acc f => (parseFactor t f).map (applyFactor acc)) (0, 0)

/-- `Pauli(value)` and then `str` (`/repo/qldpc/objects.py:36-61`); `none` for a `ValueError`. -/
def pauliToString (v : ℤ × ℤ) : Option (List Char) :=
  if v = (0, 0) then some ['I'] else if v = (0, 1) then some ['Z']
  else if v = (1, 0) then some ['X'] else if v = (1, 1) then some ['Y'] else none

/-- `Pauli.from_string(string).value` (`/repo/qldpc/objects.py:63-74`). -/
def pauliFromString (s : List Char) : Except String (ℤ × ℤ) :=
  if s = ['I'] then .ok (0, 0) else if s = ['Z'] then .ok (0, 1)
  else if s = ['X'] then .ok (1, 0) else if s = ['Y'] then .ok (1, 1) else .error "ValueError"

/-! ### Codes -/

/-- A galois field seen as integers: its order, the integer of an element, and the element of an integer
(an error if the integer is out of range). -/
structure FieldInts (F : Type) where
  order : ℕ
  toInt : F → ℤ
  ofInt : ℤ → Option F

variable {F : Type}

/-- The text of one operator in `get_strings` (`/repo/qldpc/codes/common.py:823-829`). -/
def opText (fi : FieldInts F) (x z : F) : Option (List Char) :=
  if fi.order = 2 then pauliToString (fi.toInt x, fi.toInt z)
  else some (quditToString (fi.toInt x, fi.toInt z))

/-- `QuditCode.get_strings` (`/repo/qldpc/codes/common.py:816-831`). -/
def getStrings {n : ℕ} (fi : FieldInts F) (M : Rows F (n + n)) : Option (List (List Char)) :=
  M.mapM fun r =>
    ((List.finRange n).mapM fun i => opText fi (Spec.xPart r i) (Spec.zPart r i)).map fun ops =>
      [' '].intercalate ops

/-- The value of one token in `from_strings` (`/repo/qldpc/codes/common.py:840, 847`). -/
def tokenValue (t : CharTable) (order : ℕ) (s : List Char) : Except String (ℤ × ℤ) :=
  if order = 2 then pauliFromString s else quditFromString t s

/-- One row of the matrix built by `from_strings` (`/repo/qldpc/codes/common.py:843-849`), as field
elements. -/
def rowOfTokens (t : CharTable) (fi : FieldInts F) (n : ℕ) (tokens : List (List Char)) :
    Except String (Fin (n + n) → F) :=
  if h : tokens.length = n then
    match tokens.mapM (tokenValue t fi.order) with
    | .error e => .error e
    | .ok vals =>
      match vals.mapM fun v => (fi.ofInt v.1).bind fun x => (fi.ofInt v.2).map fun z => (x, z) with
      | none => .error "ValueError"
      | some els =>
        if h' : els.length = n then
          .ok (Fin.append (fun i => (els.get (i.cast h'.symm)).1) fun i => (els.get (i.cast h'.symm)).2)
        else .error "unreachable"
  else .error "ValueError"

/-- `QuditCode.from_strings(*checks, field)` (`/repo/qldpc/codes/common.py:833-849`): the number of qudits
and the parity check matrix.  `check_ops[0]` raises if there are no checks. -/
def fromStrings (t : CharTable) (fi : FieldInts F) (checks : List (List Char)) :
    Except String (Σ n : ℕ, Rows F (n + n)) :=
  match checks.map (pySplit t) with
  | [] => .error "IndexError"
  | first :: rest =>
    ((first :: rest).mapM (rowOfTokens t fi first.length)).map fun M => ⟨first.length, M⟩

/-- `op_to_string(op)` (`/repo/qldpc/math.py:34-41`): the Paulis given to stim, one for each qubit. -/
def opToString {n : ℕ} (op : Fin (n + n) → ℤ) : Option (List (List Char)) :=
  (List.finRange n).mapM fun i => pauliToString (Spec.xPart op i, Spec.zPart op i)

/-! ### Permutations -/

/-- `GroupMember.to_gap_cycles` from the cyclic form (`/repo/qldpc/abstract.py:103-112`). -/
def toGapCycles (cycles : List (List ℕ)) : List Char :=
  if cycles = [] then ['(', ')']
  else (cycles.map fun c => ['('] ++ [','].intercalate (c.map fun i => decimal (i + 1)) ++ [')']).flatten

/-- `text.split(")(")`. -/
def splitParens : List Char → List (List Char)
  | [] => [[]]
  | [c] => [[c]]
  | a :: b :: l =>
    if a = ')' ∧ b = '(' then [] :: splitParens l
    else match splitParens (b :: l) with
      | [] => [[a]]
      | w :: ws => (a :: w) :: ws

/-- One line of GAP output (`/repo/qldpc/external/groups.py:123-134`); `none` for a `ValueError`. -/
def parseGapLine (t : CharTable) (line : List Char) : Option (List (List ℤ)) :=
  (((splitParens ((line.drop 1).dropLast)).filter fun c => c ≠ []).mapM fun (c : List Char) =>
    (c.splitOn ',').mapM (pyInt t)).map fun cycles => cycles.map fun c => c.map fun i => i - 1

/-- All generators (`/repo/qldpc/external/groups.py:117-136`): lines with only white space are skipped. -/
def parseGap (t : CharTable) (lines : List (List Char)) : Option (List (List (List ℤ))) :=
  (lines.filter fun l => strip t l ≠ []).mapM (parseGapLine t)

end QLDPC
