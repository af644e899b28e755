import Verif.Model.Text
import Verif.Model.Classical
import Mathlib.Data.ZMod.Basic

/-!
# Model of the automorphism group of a classical code and of the table of known groups

`/repo/qldpc/codes/common.py:555-566` (`get_automorphism_group`), `/repo/qldpc/abstract.py:402-409`
(`Group.from_name`), `/repo/qldpc/external/groups.py:33-43` (`get_generators`) and 294-338
(`KNOWN_GROUPS`).  Texts are lists of characters.
-/

namespace QLDPC

/-- `"[" + ",".join(map(str, line)) + "]"` (`common.py`, line 562). -/
def lineText (line : List ℕ) : List Char := ['['] ++ [','].intercalate (line.map decimal) ++ [']']

/-- The name handed to `Group.from_name` (`/repo/qldpc/codes/common.py:561-566`), from the canonical matrix. -/
def automorphismName (order : ℕ) (matrix : List (List ℕ)) : List Char :=
  let matrixStr := ['['] ++ [','].intercalate (matrix.map lineText) ++ [']']
  let codeStr := "CheckMatCode(".toList ++ matrixStr ++ ", GF(".toList ++ decimal order ++ "))".toList
  let groupStr := if order = 2 then "AutomorphismGroup" else "PermutationAutomorphismGroup"
  groupStr.toList ++ ['('] ++ codeStr ++ [')']

/-- `name.strip().replace(" ", "")` (`abstract.py`, line 405). -/
def standardizedName (t : CharTable) (name : List Char) : List Char := (strip t name).filter (· ≠ ' ')

/-- `KNOWN_GROUPS` (`/repo/qldpc/external/groups.py:294-338`). -/
def knownGroups : List (String × List (List (List ℕ))) := [
    ("AutomorphismGroup(CheckMatCode([[1,0,0,0,1,1,1,0,1,1],[0,1,0,0,1,0,0,1,1,0],[0,0,1,0,1,1,1,0,0,0],[0,0,0,1,1,1,0,1,1,1]],GF(2)))", [
      [[3, 7], [4, 5], [8, 9]],
      [[1, 5], [2, 7], [3, 9], [6, 8]],
      [[2, 6], [3, 8], [4, 5], [7, 9]],
      [[0, 9, 2, 8], [1, 6], [3, 5, 4, 7]],
      [[0, 7, 3], [1, 9, 8], [2, 4, 5]]]),
    ("AutomorphismGroup(CheckMatCode([[1,0,0,0,1,0,1,0,1,0],[0,1,0,0,1,0,1,1,1,1],[0,0,1,0,1,1,1,1,0,1],[0,0,0,1,1,1,0,1,0,0]],GF(2)))", [
      [[2, 5], [4, 6], [7, 9]],
      [[1, 9], [3, 5], [6, 8]],
      [[1, 8], [4, 7], [6, 9]],
      [[1, 4, 9, 8, 7, 6], [2, 5, 3]],
      [[1, 7], [2, 3], [4, 8]],
      [[0, 3, 1, 4, 9, 5], [2, 8, 6]],
      [[0, 6, 8], [1, 9, 2], [3, 5, 7]]]),
    ("AutomorphismGroup(CheckMatCode([[1,0,0,0,1,1,1,0,1,1,0,1,0,1,0],[0,1,0,0,1,0,0,1,1,0,0,1,1,1,1],[0,0,1,0,1,1,1,0,0,0,1,1,1,0,1],[0,0,0,1,1,1,0,1,1,1,1,0,1,0,0]],GF(2)))", [
      [[0, 1], [5, 12], [6, 14], [7, 9]],
      [[2, 3], [6, 9], [7, 14], [8, 11]],
      [[1, 2], [5, 8], [6, 13], [7, 10]],
      [[1, 13], [4, 12], [7, 8], [11, 14]],
      [[3, 10], [4, 8], [5, 9], [7, 12]],
      [[2, 6], [4, 12], [5, 10], [11, 14]],
      [[2, 11], [3, 8], [6, 14], [7, 9]],
      [[3, 8], [4, 10], [5, 12], [7, 9]],
      [[3, 9], [4, 12], [5, 10], [7, 8]]]),
    ("AutomorphismGroup(CheckMatCode([[1,1,1,1,0,0,0,0,1,1,1,1],[0,0,0,0,1,1,1,1,1,1,1,1]],GF(2)))", [
      [[4, 9], [5, 8, 6, 11], [7, 10]],
      [[4, 7, 6, 5], [9, 11, 10]],
      [[2, 3], [4, 10], [5, 11], [6, 9], [7, 8]],
      [[10, 11]],
      [[6, 7], [8, 11, 10]],
      [[5, 7, 6], [8, 11, 9]],
      [[9, 11, 10]],
      [[8, 9, 11, 10]],
      [[5, 6], [10, 11]],
      [[1, 3, 2], [4, 11], [5, 8], [6, 9], [7, 10]],
      [[1, 3, 2], [4, 6, 7], [9, 11, 10]],
      [[0, 4, 10, 1, 5, 9, 2, 7, 8], [3, 6, 11]],
      [[2, 3], [4, 7], [8, 11]],
      [[0, 10, 2, 11, 1, 9], [3, 8], [4, 7]]])]

/-- `KNOWN_GROUPS.get(group)` (`external/groups.py`, line 37); an empty list of generators is not used. -/
def knownGenerators (name : List Char) : Option (List (List (List ℕ))) :=
  match knownGroups.find? fun e => e.1.toList = name with
  | some e => if e.2 = [] then none else some e.2
  | none => none

/-- The member after `i` in a cycle. -/
def cycleNext (cycle : List ℕ) (i : ℕ) : ℕ :=
  match cycle.idxOf? i with
  | none => i
  | some k => cycle.getD ((k + 1) % cycle.length) i

/-- The image of `i` under the sympy permutation given by disjoint cycles (`abstract.py`, line 408). -/
def cyclesImage (cycles : List (List ℕ)) (i : ℕ) : ℕ := cycles.foldl (fun j c => cycleNext c j) i

/-- The entries of a matrix as integers (`.view(np.ndarray)`, `common.py`, line 561). -/
def matrixInts {n : ℕ} (M : Rows (ZMod 2) n) : List (List ℕ) := M.map fun r => List.ofFn fun i => (r i).val

end QLDPC
