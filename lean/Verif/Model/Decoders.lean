import Verif.Model.Graph
import Verif.Model.Symplectic

/-!
# Decoders: `/repo/qldpc/decoders.py`

Lookup decoder, generalized union-find decoder, block and direct decoders.  The integer program is in
`Model/ILP.lean`.  The decoders of `ldpc` and `pymatching` are not modelled.
-/

namespace QLDPC

open Spec

variable {F : Type} [Field F] [DecidableEq F] {n N : ℕ}

/-- `matrix @ vector`. -/
def matVec (H : Rows F N) (v : Fin N → F) : List F := H.map fun r => dot r v

/-- `vector[k]`; the uses below are within bounds. -/
def nth (v : Fin N → F) (k : ℕ) : F := if h : k < N then v ⟨k, h⟩ else 0

/-- `matrix[i, j]`; the uses below are within bounds. -/
def cell (H : Rows F N) (i j : ℕ) : F := ((H[i]?).map fun r => nth r j).getD 0

/-! ### Lookup decoder -/

/-- `itertools.combinations(l, k)`, in the order of Python. -/
def combinations {α : Type} : List α → ℕ → List (List α)
  | _, 0 => [[]]
  | [], _ + 1 => []
  | x :: xs, k + 1 => (combinations xs k).map (x :: ·) ++ combinations xs (k + 1)

/-- Row `p` of the array `code_error` of shape `(repeat, block_length)` after
`code_error[:, error_site_indices] = errors.T` (`/repo/qldpc/decoders.py:198-199`). -/
def errorRow (sites : List (Fin n)) (errors : List (List F)) (p : ℕ) : Fin n → F := fun j =>
  (((sites.zip errors).find? fun e => e.1 = j).map fun e => e.2.getD p 0).getD 0

/-- The key-value pairs written to `self.table`, in order (`/repo/qldpc/decoders.py:187-201`); `place` is the
error of lines 198-200. -/
def lookupWrites (n : ℕ) (localErrors : List (List F)) (place : List (Fin n) → List (List F) → Fin N → F)
    (H : Rows F N) (maxWeight : ℕ) : List (List F × (Fin N → F)) :=
  ((List.range maxWeight).reverse.map (· + 1)).flatMap fun weight =>
    (combinations (List.finRange n) weight).flatMap fun sites =>
      (productRepeat localErrors weight).map fun errors =>
        (matVec H (place sites errors), place sites errors)

/-- `self.table.get(syndrome, null_correction)` (`/repo/qldpc/decoders.py:208`): the last write counts. -/
def lookupGet (writes : List (List F × (Fin N → F))) (syndrome : List F) : Fin N → F :=
  ((writes.reverse.find? fun w => w.1 = syndrome).map Prod.snd).getD 0

/-- `LookupDecoder(matrix, max_weight=...).decode(syndrome)` (`/repo/qldpc/decoders.py:153-205`); `els` are
the elements of the field in order. -/
def lookupDecode (els : List F) (H : Rows F n) (maxWeight : ℕ) (syndrome : List F) : Fin n → F :=
  lookupGet (lookupWrites n (productRepeat els 1).tail (fun sites errors => errorRow sites errors 0) H maxWeight)
    syndrome

/-- `LookupDecoder(matrix, max_weight=..., symplectic=True).decode(syndrome)`. -/
def lookupDecodeQ (els : List F) (M : Rows F (n + n)) (maxWeight : ℕ) (syndrome : List F) : Fin (n + n) → F :=
  lookupGet (lookupWrites n (productRepeat els 2).tail
    (fun sites errors => Fin.append (errorRow sites errors 0) (errorRow sites errors 1))
    (M.map symplecticConjugate) maxWeight) syndrome

/-- The default of `max_weight` (`/repo/qldpc/decoders.py:183`) from the distance, `none` for `nan`. -/
def defaultMaxWeight : Option ℕ → ℕ
  | some d => (d - 1) / 2
  | none => 0

/-! ### Generalized union-find decoder -/

/-- `graph.to_undirected().neighbors(node)`; an exception if there is no such node. -/
def TGraph.neighbors {δ : Type} (g : TGraph δ) (x : Node) : Option (List Node) :=
  if x ∈ g.nodes then
    some (g.listEdges.filterMap fun e =>
      if e.1.1 = x then some e.1.2 else if e.1.2 = x then some e.1.1 else none)
  else none

/-- `error_set |= set(neighbor for node in error_set for neighbor in graph.neighbors(node))`
(`/repo/qldpc/decoders.py:280-282`). -/
def gufGrow (nbr : Node → Option (List Node)) (E : List Node) : Option (List Node) :=
  (E.mapM nbr).map fun L => (E ++ L.flatten).dedup

/-- `sorted(l, reverse=True)`. -/
def sortDesc (l : List ℕ) : List ℕ := l.insertionSort (· ≥ ·)

/-- Interior data nodes of `get_sub_problem_indices` (`/repo/qldpc/decoders.py:340-344`). -/
def interiorData (nbr : Node → Option (List Node)) (E : List Node) : List Node :=
  (E.filter fun x => ((nbr x).getD []).all fun y => decide (y ∈ E)).filter fun x => x.isData

/-- `checks` of `get_sub_problem_indices` (`/repo/qldpc/decoders.py:345-348, 357`). -/
def gufChecks (nbr : Node → Option (List Node)) (E : List Node) : List ℕ :=
  sortDesc (((E.filter fun x => !x.isData) ++
    (interiorData nbr E).flatMap fun x => (nbr x).getD []).dedup.map fun x => x.index.toNat)

/-- `bits` of `get_sub_problem_indices` (`/repo/qldpc/decoders.py:349-357`); `expand` adds the columns for the
Z support in the symplectic case. -/
def gufBits (expand : List ℕ → List ℕ) (nbr : Node → Option (List Node)) (E : List Node) : List ℕ :=
  sortDesc (expand ((interiorData nbr E).map fun x => x.index.toNat))

/-- `self.code.matrix[np.ix_(checks, bits)]`. -/
def subMatrix (H : Rows F N) (checks bits : List ℕ) : Rows F bits.length :=
  checks.map fun c j => cell H c (bits.get j)

/-- `np.column_stack([sub_matrix, -sub_syndrome])` (`/repo/qldpc/decoders.py:298`). -/
def augmented (H : Rows F N) (syndrome : List F) (checks bits : List ℕ) : Rows F (bits.length + 1) :=
  checks.map fun c => Fin.snoc (α := fun _ => F) (fun j => cell H c (bits.get j)) (-(syndrome.getD c 0))

/-- Lines 299-300 and 303-306 of `/repo/qldpc/decoders.py`: null vectors with nonzero last entry, divided by
it (unless the field has order 2). -/
def gufSolutions (order2 : Bool) (H : Rows F N) (syndrome : List F) (checks bits : List ℕ) :
    Rows F bits.length :=
  ((nullSpace (augmented H syndrome checks bits)).filter fun v => v (Fin.last _) ≠ 0).map fun v j =>
    if order2 then v j.castSucc else v j.castSucc / v (Fin.last _)

/-- `min(l, key=...)`: the first of the least. -/
def minBy {α : Type} (key : α → ℕ) : List α → Option α
  | [] => none
  | x :: l => some (l.foldl (fun best y => if key y < key best then y else best) x)

/-- The loop of lines 321-329 of `/repo/qldpc/decoders.py`. -/
def gufImprove {m : ℕ} (weight : (Fin m → F) → ℕ) (maxWeight : ℕ) (one : Fin m → F) (nulls : Rows F m) :
    List (List F) → (Fin m → F) → (Fin m → F)
  | [], best => best
  | c :: cs, best =>
    let solution := one + vecMat c nulls
    if weight solution < weight best then
      if weight solution ≤ maxWeight then solution else gufImprove weight maxWeight one nulls cs solution
    else gufImprove weight maxWeight one nulls cs best

/-- Lines 308-329 of `/repo/qldpc/decoders.py`. -/
def gufChoose {m : ℕ} (els : List F) (weight : (Fin m → F) → ℕ) (maxWeight : Option ℕ) (sub : Rows F m)
    (first : Fin m → F) : Fin m → F :=
  match maxWeight with
  | none => first
  | some w =>
    if w < weight first then
      gufImprove weight w first (nullSpace sub) (productRepeat els (nullSpace sub).length).tail first
    else first

/-- `error[bits] = min_weight_solution` (`/repo/qldpc/decoders.py:332-333`). -/
def gufPlace (N : ℕ) (bits : List ℕ) (v : Fin bits.length → F) : Fin N → F := fun j =>
  if j.val ∈ bits then nth v (bits.idxOf j.val) else 0

/-- The loop of `decode` (`/repo/qldpc/decoders.py:277-333`); `none` after `fuel` rounds, or for an
exception. -/
def gufLoop (els : List F) (order2 : Bool) (expand : List ℕ → List ℕ) (weight : ∀ {m : ℕ}, (Fin m → F) → ℕ)
    (nbr : Node → Option (List Node)) (H : Rows F N) (maxWeight : Option ℕ) (syndrome : List F) :
    ℕ → List Node → ℕ → Option (Fin N → F)
  | 0, _, _ => none
  | fuel + 1, E, last =>
    match gufGrow nbr E with
    | none => none
    | some E =>
      if E.length = last then some 0
      else
        let checks := gufChecks nbr E
        let bits := gufBits expand nbr E
        match minBy weight (gufSolutions order2 H syndrome checks bits) with
        | none => gufLoop els order2 expand weight nbr H maxWeight syndrome fuel E E.length
        | some first =>
          some (gufPlace N bits (gufChoose els weight maxWeight (subMatrix H checks bits) first))

/-- `error_set` at the start (`/repo/qldpc/decoders.py:271-274`). -/
def gufStart (syndrome : List F) : List Node :=
  ((List.range syndrome.length).filter fun i => syndrome.getD i 0 ≠ 0).map fun i : ℕ => ⟨(i : ℤ), false⟩

/-- `GUFDecoder(matrix).decode(syndrome, max_weight=...)` (`/repo/qldpc/decoders.py:266-334`); `order2` is the
test `field.order == 2`. -/
def gufDecode (els : List F) (order2 : Bool) (H : Rows F n) (maxWeight : Option ℕ) (fuel : ℕ)
    (syndrome : List F) : Option (Fin n → F) :=
  gufLoop els order2 id countNonzero (matrixToGraph H).neighbors H maxWeight syndrome fuel (gufStart syndrome) 0

/-- `get_symplectic_weight` (`/repo/qldpc/decoders.py:208-216`). -/
def symplecticWeight {m : ℕ} (v : Fin m → F) : ℕ :=
  ((List.range (m / 2)).filter fun i => nth v i ≠ 0 ∨ nth v (i + m / 2) ≠ 0).length

/-- `GUFDecoder(matrix, symplectic=True).decode(syndrome, max_weight=...)`. -/
def gufDecodeQ (fi : FieldInts F) (els : List F) (order2 : Bool) (M : Rows F (n + n)) (maxWeight : Option ℕ)
    (fuel : ℕ) (syndrome : List F) : Option (Fin (n + n) → F) :=
  (matrixToGraphQ fi (M.map symplecticConjugate)).bind fun g =>
    gufLoop els order2 (fun bits => bits ++ bits.map (· + n)) symplecticWeight g.neighbors
      (M.map symplecticConjugate) maxWeight syndrome fuel (gufStart syndrome) 0

/-! ### Block and direct decoders -/

/-- `syndrome.reshape(-1, length)`: an exception unless `length` divides the number of entries (numpy cannot
determine the first dimension if `length` is 0). -/
def reshapeRows {α : Type} (length : ℕ) (l : List α) : Option (List (List α)) :=
  if length ≠ 0 ∧ l.length % length = 0 then
    some ((List.range (l.length / length)).map fun b => (l.drop (b * length)).take length)
  else none

/-- `BlockDecoder(syndrome_length, decoder).decode(syndrome)` (`/repo/qldpc/decoders.py:465-470`);
`np.concatenate` of no arrays raises. -/
def blockDecode {α : Type} (syndromeLength : ℕ) (decoder : List α → List α) (syndrome : List α) : Option (List α) :=
  (reshapeRows syndromeLength syndrome).bind fun blocks =>
    if blocks = [] then none else some (blocks.map decoder).flatten

/-- `DirectDecoder.from_indirect(decoder, matrix).decode(word)` (`/repo/qldpc/decoders.py:494-511`). -/
def directDecode (decoder : List F → Fin n → F) (H : Rows F n) (word : Fin n → F) : Fin n → F :=
  word - decoder (matVec H word)

end QLDPC
