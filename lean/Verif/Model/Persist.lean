import Verif.Model.Text

/-!
# Saving, loading and comparing quantum Tanner codes

`QTCode.__eq__`, `QTCode.save`, `QTCode.load` (`/repo/qldpc/codes/quantum.py:1145-1153, 1244-1304`).  A file is its text.
-/

namespace QLDPC

/-- The generating data of a quantum Tanner code: array forms of the members of the subsets in the order in which python
iterates over the sets, the matrices of the seed codes as integers, the order of the field, and the kind of complex. -/
structure QTData where
  subsetA : List (List ℤ)
  subsetB : List (List ℤ)
  codeA : List (List ℤ)
  codeB : List (List ℤ)
  order : ℤ
  bipartite : Bool
deriving DecidableEq

/-- Equality of python sets. -/
def sameMembers (a b : List (List ℤ)) : Bool := a.all (fun x => decide (x ∈ b)) && b.all fun x => decide (x ∈ a)

/-- `ClassicalCode.__eq__` (`/repo/qldpc/codes/common.py:220-226`), for matrices as integers. -/
def codeEq (q : ℤ) (m : List (List ℤ)) (q' : ℤ) (m' : List (List ℤ)) : Bool := decide (q = q') && decide (m = m')

/-- `QTCode.__eq__(self, other)` (`/repo/qldpc/codes/quantum.py:1145-1153`); `none` for an object that is not a `QTCode`. -/
def qtEq (_self : QTData) (other : Option QTData) : Bool :=
  match other with
  | none => false
  | some other =>
    codeEq other.order other.codeA other.order other.codeA && codeEq other.order other.codeB other.order other.codeB &&
    sameMembers other.subsetA other.subsetA && sameMembers other.subsetB other.subsetB &&
    decide (other.bipartite = other.bipartite)

/-! ### Lines -/

/-- The characters at which `str.splitlines` breaks. -/
def isLineBreak (c : Char) : Bool :=
  decide (c.toNat ∈ [0x0a, 0x0d, 0x0b, 0x0c, 0x1c, 0x1d, 0x1e, 0x85, 0x2028, 0x2029])

/-- `text.splitlines()`; a carriage return followed by a line feed counts as two breaks here. -/
def splitLines (l : List Char) : List (List Char) :=
  let parts := l.splitOnP isLineBreak
  if parts.getLast? = some [] then parts.dropLast else parts

/-- What `file.write(line + "\n")` leaves in the file. -/
def unlines (ls : List (List Char)) : List Char := ls.flatMap fun l => l ++ ['\n']

/-- The lines of `np.savetxt(file, array, fmt="%d")`. -/
def savetxt (array : List (List ℤ)) : List (List Char) := array.map fun r => [' '].intercalate (r.map intText)

/-- `str(bool)`. -/
def boolText (b : Bool) : List Char := if b then "True".toList else "False".toList

/-- The lines written by `QTCode.save` (`/repo/qldpc/codes/quantum.py:1255-1273`). -/
def saveLines (d : QTData) (headers : List (List Char)) : List (List Char) :=
  (headers.flatMap splitLines).map (fun l => '#' :: ' ' :: l) ++
    ["# subset_a:".toList] ++ savetxt d.subsetA ++ ["# subset_b:".toList] ++ savetxt d.subsetB ++
    ["# code_a.matrix:".toList] ++ savetxt d.codeA ++ ["# code_b.matrix:".toList] ++ savetxt d.codeB ++
    ["# base field: ".toList ++ intText d.order] ++ ["# bipartite: ".toList ++ boolText d.bipartite]

/-- `QTCode.save(path, *headers)` (`/repo/qldpc/codes/quantum.py:1244-1273`): the text of the file. -/
def saveText (d : QTData) (headers : List (List Char)) : List Char := unlines (saveLines d headers)

/-! ### Loading -/

/-- The values that `ast.literal_eval` gives on the texts that occur here. -/
inductive Literal
  | int (z : ℤ)
  | bool (b : Bool)
deriving DecidableEq

/-- `ast.literal_eval(text)` for integers and booleans; anything else is an error here. -/
def literalEval (t : CharTable) (s : List Char) : Except String Literal :=
  let s := s.dropWhile fun c => c = ' ' ∨ c = '\t'
  if s = "True".toList then .ok (.bool true)
  else if s = "False".toList then .ok (.bool false)
  else match digitsValue t s with
    | some v => .ok (.int v)
    | none => .error "ValueError"

/-- `line.split(":")[-1]`. -/
def afterColon (l : List Char) : List Char := (l.splitOn ':').getLastD []

/-- `np.genfromtxt(lines, dtype=int, ndmin=2)`: text after `#` and empty lines are skipped, all rows must have the same
length. -/
def genfromtxt (t : CharTable) (lines : List (List Char)) : Except String (List (List ℤ)) :=
  let tokens := (lines.map fun l => pySplit t (l.takeWhile fun c => c ≠ '#')).filter fun r => r ≠ []
  if tokens.all fun r => decide (r.length = (tokens.headD []).length) then
    match tokens.mapM fun r => r.mapM (pyInt t) with
    | some a => .ok a
    | none => .error "ValueError"
  else .error "ValueError"

/-- One round of the loop over the lines (`/repo/qldpc/codes/quantum.py:1290-1295`); the state is `arrays, last_index`. -/
def loadStep (t : CharTable) (lines : List (List Char)) (st : List (List (List ℤ)) × ℕ) (p : List Char × ℕ) :
    Except String (List (List (List ℤ)) × ℕ) :=
  if p.1.head? = some '#' then
    if p.2 > st.2 + 1 then
      match genfromtxt t (lines.extract (st.2 + 1) p.2) with
      | .ok a => .ok (st.1 ++ [a], p.2)
      | .error e => .error e
    else .ok (st.1, p.2)
  else .ok st

/-- The loop over the lines (`/repo/qldpc/codes/quantum.py:1287-1295`). -/
def loadArrays (t : CharTable) (lines : List (List Char)) : Except String (List (List (List ℤ))) :=
  (lines.zipIdx.foldlM (loadStep t lines) ([], 0)).map Prod.fst

/-- `GroupMember(gen)` accepts exactly the arrays that contain every number below their length. -/
def isArrayForm (r : List ℤ) : Bool := (List.range r.length).all fun i => decide ((i : ℤ) ∈ r)

/-- `ClassicalCode(array, field)` accepts exactly the entries below the order. -/
def inField (q : ℤ) (m : List (List ℤ)) : Bool := m.all fun r => r.all fun v => decide (0 ≤ v ∧ v < q)

/-- `QTCode.load(path)` on a file with this text (`/repo/qldpc/codes/quantum.py:1276-1304`): the data passed to the
constructor. -/
def loadText (t : CharTable) (text : List Char) : Except String QTData :=
  let lines := splitLines text
  if lines.length < 2 then .error "IndexError"
  else
    match literalEval t (afterColon (lines.getD (lines.length - 2) [])), literalEval t (afterColon (lines.getD (lines.length - 1) [])) with
    | .ok (.int q), .ok (.bool b) =>
      match loadArrays t lines with
      | .error e => .error e
      | .ok arrays =>
        match arrays with
        | a :: b' :: ca :: cb :: _ =>
          if (a.all isArrayForm && b'.all isArrayForm) && (inField q ca && inField q cb) then
            .ok ⟨a.dedup, b'.dedup, ca, cb, q, b⟩
          else .error "ValueError"
        | _ => .error "IndexError"
    | _, _ => .error "ValueError"

end QLDPC
