import Verif.Model.LinAlg
import Verif.Model.Distance
import Mathlib.Data.Fin.Tuple.Basic
import Mathlib.Data.List.Sort
import Mathlib.Logic.Equiv.Fin.Basic

/-!
# Classical codes: `ClassicalCode` of `/repo/qldpc/codes/common.py`

All matrices of one code have the same field `F` and the same number of columns `n`, so the checks
"codes over different fields" and "wrong length" are handled by typing.
-/

namespace QLDPC

variable {F : Type} [Field F] [DecidableEq F] {n m : ℕ}

/-- A `ClassicalCode` object with its mutable attributes (`/repo/qldpc/codes/common.py:80-83, 207`):
the parity check matrix and the caches `_generator`, `_dimension` and `_distance`.  In `dist?`,
`some none` stands for `np.nan`. -/
structure CCode (F : Type) (n : ℕ) where
  matrix : Rows F n
  gen? : Option (Rows F n) := none
  dim? : Option ℕ := none
  dist? : Option (Option ℕ) := none

namespace CCode

/-- `ClassicalCode(matrix)` (`/repo/qldpc/codes/common.py:209-218`). -/
def ofMatrix (M : Rows F n) : CCode F n := { matrix := M }

/-- `word in code` for one word (`/repo/qldpc/codes/common.py:238-242`):
`not np.any(self.matrix @ word)`. -/
def contains (c : CCode F n) (w : Fin n → F) : Bool := !(c.matrix.any fun r => dot r w ≠ 0)

/-- `canonicalized` (`/repo/qldpc/codes/common.py:244-249`). -/
def canonicalized (c : CCode F n) : CCode F n := ofMatrix (dropZero (rowReduce c.matrix))

/-- `AbstractCode.equiv` for codes with the same number of columns
(`/repo/qldpc/codes/common.py:150-155`). -/
def equiv (a b : CCode F n) : Bool := decide (a.canonicalized.matrix = b.canonicalized.matrix)

/-- `rank` (`/repo/qldpc/codes/common.py:260-265` and `166-169`). -/
def rank (c : CCode F n) : ℕ :=
  match c.dim? with
  | some k => n - k
  | none => c.canonicalized.matrix.length

/-- `dimension` (`/repo/qldpc/codes/common.py:300-305`). -/
def dimension (c : CCode F n) : ℕ :=
  match c.dim? with
  | some k => k
  | none => n - c.rank

/-- `generator` (`/repo/qldpc/codes/common.py:307-312`); the value returned. -/
def generator (c : CCode F n) : Rows F n :=
  match c.gen? with
  | some G => G
  | none => nullSpace c.matrix

/-- `generator` (`/repo/qldpc/codes/common.py:307-312`); the object afterwards. -/
def withGenerator (c : CCode F n) : CCode F n := { c with gen? := some c.generator }

/-- `set_generator` (`/repo/qldpc/codes/common.py:314-327`).  `np.linalg.matrix_rank` of a galois
array is the number of nonzero rows of its reduced form. -/
def setGenerator (c : CCode F n) (G : Rows F n) : Except String (CCode F n) :=
  if c.matrix.any fun r => G.any fun g => dot r g ≠ 0 then
    .error "Provided generator matrix has nontrivial syndromes"
  else if (dropZero (rowReduce G)).length ≠ n - c.rank then
    .error "Provided generator matrix has incorrect rank"
  else .ok { c with gen? := some G }

end CCode

/-- `itertools.product(elements, repeat=k)` (`/repo/qldpc/codes/common.py:331`). -/
def productRepeat {α : Type} (els : List α) : ℕ → List (List α)
  | 0 => [[]]
  | k + 1 => els.flatMap fun x => (productRepeat els k).map (x :: ·)

/-- `vector @ generator` (`/repo/qldpc/codes/common.py:336`). -/
def vecMat (c : List F) (G : Rows F n) : Fin n → F := fun i =>
  ((c.zip G).map fun p => p.1 * p.2 i).sum

namespace CCode

/-- `iter_words` (`/repo/qldpc/codes/common.py:329-336`); `els` is `field.elements`. -/
def iterWords (els : List F) (c : CCode F n) (skipZero : Bool) : List (Fin n → F) :=
  let vectors := productRepeat els c.generator.length
  let vectors := if skipZero then vectors.drop 1 else vectors
  vectors.map fun v => vecMat v c.generator

/-- `dual` (`/repo/qldpc/codes/common.py:343-350`). -/
def dual (c : CCode F n) : CCode F n := ofMatrix c.generator

/-- `from_generator` (`/repo/qldpc/codes/common.py:539-544`). -/
def fromGenerator (G : Rows F n) : CCode F n := (ofMatrix G).dual

end CCode

/-- One row of `np.kron`: entry `i * m + j` is `a i * b j` (`/repo/qldpc/codes/common.py:369`). -/
def kronRow {R : Type} [Mul R] (a : Fin n → R) (b : Fin m → R) : Fin (n * m) → R := fun k =>
  a k.divNat * b k.modNat

/-- `np.kron(A, B)` (`/repo/qldpc/codes/common.py:369`): row `i * rows(B) + j` is the product of row
`i` of `A` and row `j` of `B`. -/
def kron {R : Type} [Mul R] (A : Rows R n) (B : Rows R m) : Rows R (n * m) :=
  A.flatMap fun a => B.map fun b => kronRow a b

namespace CCode

/-- `tensor_product` (`/repo/qldpc/codes/common.py:355-369`). -/
def tensorProduct (a : CCode F n) (b : CCode F m) : CCode F (n * m) :=
  (ofMatrix (kron a.generator b.generator)).dual

/-- `bits_to_keep` (`/repo/qldpc/codes/common.py:589`). -/
def bitsToKeep (n : ℕ) (bits : List (Fin n)) : List (Fin n) :=
  (List.finRange n).filter fun b => b ∉ bits

/-- Selection of columns, `matrix[:, cols]` (`/repo/qldpc/codes/common.py:590`). -/
def selectCols (cols : List (Fin n)) (r : Fin n → F) : Fin cols.length → F := fun i => r (cols.get i)

/-- `puncture` (`/repo/qldpc/codes/common.py:582-591`).  The assertion that all bits are in range is
the type `Fin n`. -/
def puncture (c : CCode F n) (bits : List (Fin n)) : CCode F (bitsToKeep n bits).length :=
  fromGenerator (c.generator.map (selectCols (bitsToKeep n bits)))

end CCode

/-- `np.roll(matrix, shift, axis=1)` on one row, for an integer shift
(`/repo/qldpc/codes/common.py:604, 606`): entry `j` is the old entry `(j - shift) % n`. -/
def rollRow (shift : ℤ) (r : Fin n → F) : Fin n → F := fun j =>
  r ⟨((j.val - shift : ℤ) % n).toNat, by
    have hn : 0 < n := Nat.lt_of_le_of_lt (Nat.zero_le _) j.isLt
    have h1 := Int.emod_nonneg (j.val - shift : ℤ) (b := n) (by omega)
    have h2 := Int.emod_lt_of_pos (j.val - shift : ℤ) (b := n) (by omega)
    omega⟩

/-- A matrix together with its number of columns. -/
abbrev AnyRows (F : Type) := Σ n : ℕ, Rows F n

/-- One iteration of the loop of `shorten` (`/repo/qldpc/codes/common.py:603-606`): roll the bit to
the front, row-reduce, drop the first row and the first column, roll back. -/
def shortenStep (G : AnyRows F) (bit : ℕ) : AnyRows F :=
  match G with
  | ⟨0, G⟩ => ⟨0, (rowReduce G).drop 1⟩
  | ⟨n + 1, G⟩ =>
    let rolled := G.map (rollRow (-(bit : ℤ)))
    let cut : Rows F n := ((rowReduce rolled).drop 1).map fun r j => r j.succ
    ⟨n, cut.map (rollRow (bit : ℤ))⟩

/-- `shorten` (`/repo/qldpc/codes/common.py:593-607`); `bits` is `sorted(bits, reverse=True)`. -/
def CCode.shortenSorted (c : CCode F n) (bits : List ℕ) : Σ k : ℕ, CCode F k :=
  let G := bits.foldl shortenStep ⟨n, c.generator⟩
  ⟨G.1, CCode.fromGenerator G.2⟩

/-- `shorten` (`/repo/qldpc/codes/common.py:593-607`). -/
def CCode.shorten (c : CCode F n) (bits : List (Fin n)) : Σ k : ℕ, CCode F k :=
  c.shortenSorted ((bits.map Fin.val).insertionSort (· ≥ ·))

/-- Block-diagonal matrix of two blocks (`scipy.linalg.block_diag`,
`/repo/qldpc/codes/common.py:580`). -/
def blockDiag2 (A : Rows F n) (B : Rows F m) : Rows F (n + m) :=
  A.map (fun r => Fin.append r 0) ++ B.map (fun r => Fin.append 0 r)

/-- `scipy.linalg.block_diag(*matrices)` (`/repo/qldpc/codes/common.py:580`). -/
def blockDiag : List (AnyRows F) → AnyRows F
  | [] => ⟨0, []⟩
  | ⟨n, A⟩ :: l => ⟨n + (blockDiag l).1, blockDiag2 A (blockDiag l).2⟩

/-- `stack` (`/repo/qldpc/codes/common.py:568-580`) of codes given by their parity check matrices.
An empty argument list raises in the code (`fields[0]`). -/
def stackCodes (codes : List (AnyRows F)) : Option (Σ k : ℕ, CCode F k) :=
  if codes = [] then none
  else some ⟨(blockDiag codes).1, CCode.ofMatrix (blockDiag codes).2⟩

/-- `np.count_nonzero` of a vector (`/repo/qldpc/codes/common.py:405, 414, 423, 500`). -/
def countNonzero (v : Fin n → F) : ℕ := ((List.finRange n).filter fun i => v i ≠ 0).length

/-- python `min(iterable)`; an empty iterable raises (`none`). -/
def pyMin : List ℕ → Option ℕ
  | [] => none
  | x :: l => some (l.foldl min x)

namespace CCode

/-- `get_distance_if_known` (`/repo/qldpc/codes/common.py:418-429`): the result and the object
afterwards.  A result `some none` is `nan`. -/
def distanceIfKnown (c : CCode F n) (vector : Option (Fin n → F)) :
    Option (Option ℕ) × CCode F n :=
  match vector with
  | some v => (if c.dimension = 0 then some (some (countNonzero v)) else none, c)
  | none =>
    let c := if c.dimension = 0 then { c with dist? := some none } else c
    (c.dist?, c)

/-- `get_distance_exact` (`/repo/qldpc/codes/common.py:393-416`): the result (`none` = the call
raises, `some none` = nan) and the object afterwards.  `els` is `field.elements`; the binary case
calls `get_distance_classical` (`/repo/qldpc/codes/distance.py:204-216`) with `wb`-bit first weights,
see `Model/Distance.lean`. -/
def distanceExact (wb : ℕ) (els : List F) (c : CCode F n) (vector : Option (Fin n → F)) :
    Option (Option ℕ) × CCode F n :=
  match c.distanceIfKnown vector with
  | (some d, c) => (some d, c)
  | (none, c) =>
    match vector with
    | some v => ((pyMin ((c.iterWords els false).map fun w => countNonzero (w - v))).map some,
        c.withGenerator)
    | none =>
      let d :=
        if els.length = 2 then
          getDistanceClassical wb n 15
            (c.generator.map fun r => List.ofFn fun i => decide (r i ≠ 0))
        else pyMin ((c.iterWords els true).map countNonzero)
      match d with
      | none => (none, c.withGenerator)
      | some d => (some (some d), { c.withGenerator with dist? := some (some d) })

end CCode

/-- One pass of the loop of `get_one_distance_bound` (`/repo/qldpc/codes/common.py:483-500`) without a
vector: the drawn word `rnd` and the candidate returned by the decoder for the check matrix extended
by `rnd`; the weight of the candidate if it is accepted. -/
def boundAttempt (H : Rows F n) (rnd candidate : Fin n → F) : Option ℕ :=
  if (H ++ [rnd]).map (fun r => dot r candidate) = List.replicate H.length 0 ++ [1] then
    some (countNonzero candidate)
  else none

/-- `get_one_distance_bound` without a vector (`/repo/qldpc/codes/common.py:483-500`).  The random
words and the decoder (which may keep state and be different at every call) are the stream
`draws`, one drawn word and one candidate per pass; the loop may use the whole stream without
finding a valid candidate (`none`: the real loop goes on).  Returns the rest of the stream. -/
def oneDistanceBound (H : Rows F n) :
    List ((Fin n → F) × (Rows F n → List F → Fin n → F)) →
      Option (ℕ × List ((Fin n → F) × (Rows F n → List F → Fin n → F)))
  | [] => none
  | (rnd, decode) :: draws =>
    match boundAttempt H rnd (decode (H ++ [rnd]) (List.replicate H.length 0 ++ [1])) with
    | some w => some (w, draws)
    | none => oneDistanceBound H draws

/-- `cutoff and min_bound <= cutoff` (`/repo/qldpc/codes/common.py:452`). -/
def cutoffReached (cutoff : Option ℕ) (minBound : ℕ) : Bool :=
  match cutoff with
  | some c => decide (c ≠ 0) && decide (minBound ≤ c)
  | none => false

/-- The trial loop of `get_distance_bound` (`/repo/qldpc/codes/common.py:450-456`); `cutoff = none` or
`some 0` never stops the loop. -/
def boundLoop (H : Rows F n) (cutoff : Option ℕ) :
    ℕ → ℕ → List ((Fin n → F) × (Rows F n → List F → Fin n → F)) → Option ℕ
  | 0, minBound, _ => some minBound
  | trials + 1, minBound, draws =>
    if cutoffReached cutoff minBound then some minBound
    else
      match oneDistanceBound H draws with
      | none => none
      | some (w, draws) => boundLoop H cutoff trials (min minBound w) draws

/-- `get_distance_bound` without a vector (`/repo/qldpc/codes/common.py:431-456`). -/
def CCode.distanceBound (c : CCode F n) (numTrials : ℕ) (cutoff : Option ℕ)
    (draws : List ((Fin n → F) × (Rows F n → List F → Fin n → F))) : Option (Option ℕ) :=
  match (c.distanceIfKnown none).1 with
  | some d => some d
  | none => (boundLoop c.matrix cutoff numTrials n draws).map some

end QLDPC
