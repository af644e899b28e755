import Mathlib.Data.List.Basic
import Mathlib.Data.Nat.Notation

/-!
# What pages of GroupNames.org look like

Independent of the model: occurrences of a text in a text, and how generators are printed.
-/

namespace QLDPC.Spec

/-- `pat` occurs in `text` at position `i`. -/
def OccursAt (pat text : List Char) (i : ℕ) : Prop := ∃ a b, text = a ++ pat ++ b ∧ a.length = i

/-- `i` is the position of the first occurrence of `pat` in `text`. -/
def FirstAt (pat text : List Char) (i : ℕ) : Prop :=
  OccursAt pat text i ∧ ∀ j < i, ¬ OccursAt pat text j

/-- A cycle, printed as `(1 2 3)`. -/
def cycleOnPage (cycle : List ℕ) : List Char :=
  ['('] ++ [' '].intercalate (cycle.map (Nat.toDigits 10)) ++ [')']

/-- A generator, printed as `(1 2 3)(4 5)`. -/
def generatorOnPage (cycles : List (List ℕ)) : List Char := (cycles.map cycleOnPage).flatten

/-- Generators, one in each line. -/
def generatorsOnPage (gens : List (List (List ℕ))) : List Char :=
  "<br>\n".toList.intercalate (gens.map generatorOnPage)

/-- The row for a group in the table of groups contains this cell. -/
def cellOnPage (order index : ℕ) : List Char :=
  "<td>".toList ++ Nat.toDigits 10 order ++ [','] ++ Nat.toDigits 10 index ++ "</td>".toList

/-- The name of a small group in GAP. -/
def smallGroupText (order index : ℕ) : List Char :=
  "SmallGroup(".toList ++ Nat.toDigits 10 order ++ [','] ++ Nat.toDigits 10 index ++ [')']

end QLDPC.Spec
