import Verif.Model.Text
import Verif.Model.Groups
import Mathlib.GroupTheory.Perm.List
import Mathlib.Algebra.Group.Opposite

/-!
# Primitive central idempotents from GAP

`external.groups.get_primitive_central_idempotents` (`/repo/qldpc/external/groups.py:223-291`), which reads the text
that GAP prints, and `GroupRing.get_primitive_central_idempotents` (`/repo/qldpc/abstract.py:488-520`), which turns the
result into members of a ring.  The answer of GAP is a parameter.  Regular expressions are those of python's `re`:
alternatives are tried in order, repetitions are greedy, the first match found counts.
-/

namespace QLDPC

/-! ### Regular expressions -/

/-- A regular expression of python's `re`, as far as used here. -/
inductive Regex
  | eps
  | char (p : Char → Bool)
  | cat (a b : Regex)
  | alt (a b : Regex)
  | star (a : Regex)
  | group (i : ℕ) (a : Regex)

/-- The state of the matcher: the rest of the text and the groups captured so far, the latest first. -/
abbrev MatchState := List Char × List (ℕ × List Char)

/-- Greedy repetition: the states that can be reached, in the order in which they are tried. -/
def starRun (f : MatchState → List MatchState) : ℕ → MatchState → List MatchState
  | 0, s => [s]
  | n + 1, s => ((f s).flatMap fun r => if r.1.length < s.1.length then starRun f n r else []) ++ [s]

/-- All ways to match a prefix of the text, in the order in which python tries them. -/
def Regex.run : Regex → MatchState → List MatchState
  | .eps, s => [s]
  | .char _, ([], _) => []
  | .char p, (c :: r, g) => if p c then [(r, g)] else []
  | .cat a b, s => (a.run s).flatMap b.run
  | .alt a b, s => a.run s ++ b.run s
  | .star a, s => starRun a.run s.1.length s
  | .group i a, s => (a.run s).map fun r => (r.1, (i, s.1.take (s.1.length - r.1.length)) :: r.2)

/-- `regex.match(text)`: the rest of the text and the groups. -/
def Regex.first (re : Regex) (text : List Char) : Option MatchState := (re.run (text, [])).head?

/-- The texts of the matches of `regex.finditer(text)`, by length of the text. -/
def Regex.findFuel (re : Regex) : ℕ → List Char → List (List Char)
  | _, [] => if (re.first []).isSome then [[]] else []
  | 0, _ :: _ => []
  | n + 1, c :: r =>
    match re.first (c :: r) with
    | none => re.findFuel n r
    | some s => if s.1.length < r.length + 1 then (c :: r).take (r.length + 1 - s.1.length) :: re.findFuel n s.1
        else [] :: re.findFuel n r

/-- `[m.group() for m in regex.finditer(text)]`. -/
def Regex.find (re : Regex) (text : List Char) : List (List Char) := re.findFuel text.length text

/-- A single character. -/
def Regex.lit (c : Char) : Regex := .char fun d => d = c

/-- `a+`. -/
def Regex.plus (a : Regex) : Regex := .cat a (.star a)

/-- `a?`. -/
def Regex.opt (a : Regex) : Regex := .alt a .eps

/-- `\d`. -/
def Regex.digit (t : CharTable) : Regex := .char fun c => (t.digit c).isSome

/-- The expressions one after the other. -/
def Regex.seq (l : List Regex) : Regex := l.foldr .cat .eps

/-! ### The text of GAP -/

section Text

variable (t : CharTable)

/-- `\d+` (`/repo/qldpc/external/groups.py:264`). -/
def reInteger : Regex := .plus (.digit t)

/-- `\^\d+`. -/
def rePower : Regex := .seq [.lit '^', reInteger t]

/-- `coefficient_pattern` (`/repo/qldpc/external/groups.py:255`). -/
def reCoefficient : Regex :=
  .seq [.lit '(', .lit 'Z', .lit '(', reInteger t, .opt (rePower t), .lit ')', .opt (rePower t), .lit ')']

/-- `cycle_pattern` (`/repo/qldpc/external/groups.py:256`). -/
def reCycle : Regex :=
  .alt (.seq [.lit '(', reInteger t, .star (.seq [.lit ',', reInteger t]), .lit ')']) (.seq [.lit '(', .lit ')'])

/-- `cycles_pattern` (`/repo/qldpc/external/groups.py:257`). -/
def reCycles : Regex := .plus (reCycle t)

/-- `ring_term_pattern` (`/repo/qldpc/external/groups.py:258`). -/
def reTerm : Regex := .seq [reCoefficient t, .lit '*', reCycles t]

/-- `ring_member_pattern` (`/repo/qldpc/external/groups.py:259`). -/
def reMember : Regex := .seq [reTerm t, .star (.seq [.lit '+', reTerm t])]

/-- `re_coefficient_components` (`/repo/qldpc/external/groups.py:265`). -/
def reComponents : Regex :=
  .seq [.lit '(', .lit 'Z', .lit '(', .group 1 (reInteger t), .opt (.seq [.lit '^', .group 2 (reInteger t)]),
    .lit ')', .opt (.seq [.lit '^', .group 3 (reInteger t)]), .lit ')']

/-- `int(match.group(i) or 1)` (`/repo/qldpc/external/groups.py:276-277`): a group that took no part, or an empty one,
counts as 1. -/
def groupOrOne (groups : List (ℕ × List Char)) (i : ℕ) : Option ℕ :=
  match groups.lookup i with
  | none => some 1
  | some [] => some 1
  | some s => digitsValue t s

/-- The numbers `pp`, `kk`, `mm` of a coefficient (`/repo/qldpc/external/groups.py:274-277`); `none` if the assertion
fails or `int` raises. -/
def parseCoefficient (s : List Char) : Option (ℕ × ℕ × ℕ) :=
  ((reComponents t).first s).bind fun r =>
    ((r.2.lookup 1).bind (digitsValue t)).bind fun pp =>
      (groupOrOne t r.2 2).bind fun kk => (groupOrOne t r.2 3).map fun mm => (pp, kk, mm)

/-- The cycles of a term, counted from zero (`/repo/qldpc/external/groups.py:282-284`). -/
def parseCycles (s : List Char) : Option (List (List ℤ)) :=
  ((reCycle t).find s).mapM fun c => ((reInteger t).find c).mapM fun i => (digitsValue t i).map fun v : ℕ => (v : ℤ) - 1

/-- One term of an idempotent (`/repo/qldpc/external/groups.py:269-285`).  `generator q m` is the integer of
`galois.GF(q).primitive_element ** m`, `none` if there is no such field; `toField z` is the integer of
`galois.GF(field)(z)`, `none` if `z` is out of range. -/
def parseTerm (generator : ℕ → ℕ → Option ℤ) (toField : ℤ → Option ℤ) (s : List Char) :
    Option (ℤ × List (List ℤ)) :=
  match s.splitOn '*' with
  | [coefficient, cycles] =>
    (parseCoefficient t coefficient).bind fun e =>
      ((generator (e.1 ^ e.2.1) e.2.2).bind toField).bind fun value =>
        (parseCycles t cycles).map fun cs => (value, cs)
  | _ => none

/-- `external.groups.get_primitive_central_idempotents` after GAP has answered `text`
(`/repo/qldpc/external/groups.py:268-291`). -/
def parseIdempotents (generator : ℕ → ℕ → Option ℤ) (toField : ℤ → Option ℤ) (text : List Char) :
    Option (List (List (ℤ × List (List ℤ)))) :=
  ((reMember t).find text).mapM fun m => ((reTerm t).find m).mapM (parseTerm t generator toField)

end Text

/-! ### Members of the ring -/

/-- Permutations of `n` points, multiplied as in sympy: the left factor acts first. -/
abbrev SymGroup (n : ℕ) := (Equiv.Perm (Fin n))ᵐᵒᵖ

/-- A number in a cycle as one of the points moved by the group; `none` if it is not one. -/
def pointOf (n : ℕ) (z : ℤ) : Option (Fin n) :=
  if h : 0 ≤ z ∧ z.toNat < n then some ⟨z.toNat, h.2⟩ else none

/-- `GroupMember(cycles) * self.group.identity` (`/repo/qldpc/abstract.py:512`): the product of the cycles.  A cycle
with a repeated point raises, as does a negative point; a point outside of the group would give a permutation of more
points, which is not modelled. -/
def memberOfCycles (n : ℕ) (cycles : List (List ℤ)) : Option (SymGroup n) :=
  (cycles.mapM fun (c : List ℤ) => (c.mapM (pointOf n)).bind fun ps => if ps.Nodup then some ps else none).map fun cs =>
    (cs.map fun c => MulOpposite.op c.formPerm).prod

/-- One term (`/repo/qldpc/abstract.py:510-516`). -/
def ringTerm {F : Type} (fi : FieldInts F) (n : ℕ) (e : ℤ × List (List ℤ)) : Option (F × SymGroup n) :=
  (fi.ofInt e.1).bind fun x =>
    if e.2 ≠ [[]] then (memberOfCycles n e.2).map fun g => (x, g) else some (x, 1)

/-- `GroupRing.get_primitive_central_idempotents` (`/repo/qldpc/abstract.py:488-520`), for a group of `order`
permutations of `n` points over a field with the given characteristic; `text` is the answer of GAP. -/
def primitiveCentralIdempotents {F : Type} [Field F] (t : CharTable) (fi : FieldInts F)
    (generator : ℕ → ℕ → Option ℤ) (order characteristic n : ℕ) (text : List Char) :
    Option (List (RMember F (SymGroup n))) :=
  if order % characteristic = 0 then none
  else (parseIdempotents t generator (fun z => (fi.ofInt z).map fi.toInt) text).bind fun ids =>
    ids.mapM fun e => (e.mapM (ringTerm fi n)).map RMember.ofTerms

end QLDPC
