import Verif.Model.Groups
import Mathlib.Data.ZMod.Defs
import Mathlib.LinearAlgebra.Matrix.Notation

/-!
# Building groups: multiplication tables, generating matrices, random symmetric subsets, abelian groups

Permutations are functions on `ℕ` or `Fin n`; the product `p * q` of sympy applies `p` first (`sympyMul`).
-/

namespace QLDPC

/-! ### `Group.from_table` (`/repo/qldpc/abstract.py:282-296`) -/

section Table

variable {n : ℕ}

/-- The product of two permutations given by their array forms, as in sympy: first `p`, then `q`. -/
def arrayMul (p q : Fin n → Fin n) : Fin n → Fin n := fun i => q (p i)

/-- `GroupMember(row)` for the row of `a` (`/repo/qldpc/abstract.py:288`): the array form. -/
def tableRow (t : Fin n → Fin n → Fin n) (a : Fin n) : Fin n → Fin n := t a

/-- `GroupMember(row)` raises unless the row is a permutation. -/
def isPermRow (r : Fin n → Fin n) : Bool := decide ((List.ofFn r).Nodup)

/-- `members[member]` (`/repo/qldpc/abstract.py:288-294`): the index of the last row equal to the permutation. -/
def tableIndex (t : Fin n → Fin n → Fin n) (p : Fin n → Fin n) : Option (Fin n) :=
  (List.finRange n).reverse.find? fun a => ∀ i, t a i = p i

/-- `lift` (`/repo/qldpc/abstract.py:293-294`). -/
def tableLift {A : Type} (t : Fin n → Fin n → Fin n) (integerLift : Fin n → A) (p : Fin n → Fin n) : Option A :=
  (tableIndex t p).map integerLift

end Table

/-! ### `Group.from_generating_mats` (`/repo/qldpc/abstract.py:298-349`) -/

section Mats

variable {M : Type} [Mul M] [DecidableEq M]

/-- The dictionaries that the loop works with: `hash_to_index` (hashes of different matrices are taken to be different, so
that the matrices themselves are the keys), `new_members`, and `table_as_dict`, the latest entry first. -/
structure MatState (M : Type) where
  keys : List (M × ℕ)
  new : List (ℕ × M)
  table : List ((ℕ × ℕ) × ℕ)

/-- `hash_to_index = {hash(gen): idx for idx, gen in index_to_member.items()}` (`/repo/qldpc/abstract.py:309`): a later
index replaces an earlier one. -/
def matKeys (gens : List M) : List (M × ℕ) :=
  gens.zipIdx.foldl (fun keys e =>
    if keys.any fun k => k.1 = e.1 then keys.map fun k => if k.1 = e.1 then e else k else keys ++ [e]) []

/-- `_account_for_product` (`/repo/qldpc/abstract.py:314-323`); `mats` is `index_to_member`. -/
def accountForProduct (mats : List M) (st : MatState M) (a b : ℕ) : MatState M :=
  match mats[a]?, mats[b]? with
  | some x, some y =>
    match st.keys.lookup (x * y) with
    | some i => ⟨st.keys, st.new, ((a, b), i) :: st.table⟩
    | none => ⟨st.keys ++ [(x * y, st.keys.length)], st.new ++ [(st.keys.length, x * y)],
        ((a, b), st.keys.length) :: st.table⟩
  | _, _ => st

/-- The `for` loop (`/repo/qldpc/abstract.py:328-331`). -/
def matRound (mats : List M) (todo : List ℕ) (keys : List (M × ℕ)) (table : List ((ℕ × ℕ) × ℕ)) : MatState M :=
  (todo.product (List.range mats.length)).foldl
    (fun s e => accountForProduct mats (accountForProduct mats s e.1 e.2) e.2 e.1) ⟨keys, [], table⟩

/-- `index_to_member |= new_members` (`/repo/qldpc/abstract.py:332`): `index_to_member` has the keys `0, 1, 2, ...`. -/
def mergeMembers (mats : List M) (new : List (ℕ × M)) : List M :=
  new.foldl (fun m e => if e.1 < m.length then m.set e.1 e.2 else m ++ [e.2]) mats

/-- The `while` loop (`/repo/qldpc/abstract.py:326-333`), for at most `fuel` rounds; `todo` are the keys of
`members_to_add`.  Returns `index_to_member` and the table. -/
def matLoop : ℕ → List M → List ℕ → List (M × ℕ) → List ((ℕ × ℕ) × ℕ) → Option (List M × List ((ℕ × ℕ) × ℕ))
  | 0, _, _, _, _ => none
  | fuel + 1, mats, todo, keys, table =>
    if todo = [] then some (mats, table)
    else
      let st := matRound mats todo keys table
      matLoop fuel (mergeMembers mats st.new) (st.new.map Prod.fst) st.keys st.table

/-- The group that is built: matrices in the order of their index, and the rows of the table
(`/repo/qldpc/abstract.py:335-338`); entries that were never set are zero. -/
structure MatGroup (M : Type) where
  mats : List M
  table : List ((ℕ × ℕ) × ℕ)

/-- An entry of the table. -/
def MatGroup.entry (g : MatGroup M) (a b : ℕ) : ℕ := (g.table.lookup (a, b)).getD 0

/-- A row of the table: the array form of a permutation (`/repo/qldpc/abstract.py:341`, `348`). -/
def MatGroup.row (g : MatGroup M) (a : ℕ) : List ℕ := (List.range g.mats.length).map (g.entry a)

/-- `lift` (`/repo/qldpc/abstract.py:343-345`): `permutation_to_index` maps a row to the last index that has it; a
`KeyError` is `none`. -/
def MatGroup.lift (g : MatGroup M) (p : List ℕ) : Option M :=
  ((List.range g.mats.length).reverse.find? fun a => g.row a = p).bind fun a => g.mats[a]?

/-- `from_generating_mats` (`/repo/qldpc/abstract.py:298-349`): the group and the array forms of its generators, if the
loop ends within `fuel` rounds.  `GroupMember` raises if a row is not a permutation. -/
def fromGeneratingMats (fuel : ℕ) (gens : List M) : Option (Except String (MatGroup M × List (List ℕ))) :=
  (matLoop fuel gens (List.range gens.length) (matKeys gens) []).map fun r =>
    let g : MatGroup M := ⟨r.1, r.2⟩
    let rows := (List.range gens.length).map g.row
    if rows.all fun r => decide (r.Nodup ∧ ∀ v ∈ r, v < r.length) then .ok (g, rows) else .error "ValueError"

/-- Product of permutations in array form, as in sympy: first `p`, then `q`. -/
def arrayMulList (p q : List ℕ) : List ℕ := p.map fun i => q.getD i i

end Mats

/-! ### `Group.random_symmetric_subset` (`/repo/qldpc/abstract.py:351-400`) -/

section Subset

variable {G : Type} [Group G] [DecidableEq G]

/-- `set.add`. -/
def setAdd (s : List G) (g : G) : List G := if g ∈ s then s else s ++ [g]

/-- Throw away pairs (`/repo/qldpc/abstract.py:393-396`): `sort` lists a set in the order of `sorted`, `randint(0, m - 1)`
is a number of `picks` modulo `m`.  Without a member to choose, `randint` raises. -/
def dropPairs (sort : List G → List G) (picks : ℕ → ℕ) : ℕ → List G → Except String (List G)
  | 0, doubles => .ok doubles
  | k + 1, doubles =>
    match (sort doubles)[picks (k + 1) % doubles.length]? with
    | none => .error "ValueError"
    | some g => dropPairs sort picks k ((doubles.erase g).erase g⁻¹)

/-- The `while` loop (`/repo/qldpc/abstract.py:372-400`); each round takes a member from `draws`.  `none` if the draws
run out: the method has not returned yet. -/
def symSubsetLoop (sort : List G → List G) (size : ℕ) (excl : Bool) (picks : ℕ → ℕ) :
    List G → List G → List G → Except String (Option (List G))
  | [], _, _ => .ok none
  | g :: draws, singles, doubles =>
    if excl ∧ g = 1 then symSubsetLoop sort size excl picks draws singles doubles
    else
      let s := if g = g⁻¹ then setAdd singles g else singles
      let d := if g = g⁻¹ then doubles else setAdd (setAdd doubles g) g⁻¹
      if s.length + d.length = size then .ok (some (s ++ d))
      else if size < s.length + d.length ∧ 0 < s.length then
        let extra := s.length + d.length - size
        (dropPairs sort picks (extra / 2) d).bind fun r =>
          if extra % 2 = 1 then
            match (sort s)[picks 0 % s.length]? with
            | none => .error "ValueError"
            | some h => .ok (some (s.erase h ++ r))
          else .ok (some (s ++ r))
      else symSubsetLoop sort size excl picks draws s d

/-- `random_symmetric_subset` (`/repo/qldpc/abstract.py:351-400`). -/
def symSubset (sort : List G → List G) (order size : ℕ) (excl : Bool) (draws : List G) (picks : ℕ → ℕ) :
    Except String (Option (List G)) :=
  if ¬ (0 < size ∧ size ≤ order) then .error "ValueError"
  else symSubsetLoop sort size excl picks draws [] []

end Subset

/-! ### `AbelianGroup`, `CyclicGroup` (`/repo/qldpc/abstract.py:1120-1175`) -/

section Abelian

/-- The array form `[1, ..., n - 1, 0]` of the generator of sympy's `CyclicGroup(n)`, moved to the points
`offset, ..., offset + n - 1` by sympy's `DirectProduct`. -/
def cyclicGen (offset n : ℕ) : ℕ → ℕ := fun x =>
  if offset ≤ x ∧ x < offset + n then (if x + 1 = offset + n then offset else x + 1) else x

/-- Generators of `DirectProduct` of cyclic groups before duplicates are removed, with the array forms as lists of
length `degree`. -/
def abelianGens (offset : ℕ) : List ℕ → List (ℕ → ℕ)
  | [] => []
  | n :: ns => cyclicGen offset n :: abelianGens (offset + n) ns

/-- Array form of a permutation of `degree` points. -/
def arrayForm (degree : ℕ) (p : ℕ → ℕ) : List ℕ := (List.range degree).map p

/-- sympy's `uniq`: keep the first of equal entries (`DirectProduct`: `perm_gens = list(uniq(...))`). -/
def uniqGens (degree : ℕ) (gens : List (ℕ → ℕ)) : List (ℕ → ℕ) :=
  gens.foldl (fun acc g => if acc.any fun h => arrayForm degree h = arrayForm degree g then acc else acc ++ [g]) []

/-- Generators of the `PermutationGroup` that sympy builds: duplicates are removed, and, depending on the version
(`drop`), so are identities if there is more than one generator. -/
def sympyGens (drop : Bool) (degree : ℕ) (gens : List (ℕ → ℕ)) : List (ℕ → ℕ) :=
  let u := uniqGens degree gens
  if drop ∧ 1 < u.length then u.filter fun g => ¬ arrayForm degree g = List.range degree else u

/-- `itertools.product(*[range(order) for order in orders])` (`/repo/qldpc/abstract.py:1151`). -/
def allPowers : List ℕ → List (List ℕ)
  | [] => [[]]
  | n :: ns => (List.range n).flatMap fun a => (allPowers ns).map fun p => a :: p

/-- `functools.reduce(operator.mul, factors)` for the product of sympy (`/repo/qldpc/abstract.py:1152-1153`). -/
def powerProduct (gens : List (ℕ → ℕ)) (powers : List ℕ) : ℕ → ℕ :=
  (gens.zipWith (fun g k => g^[k]) powers).foldl (fun p q x => q (p x)) id

/-- `generate_func` (`/repo/qldpc/abstract.py:1150-1153`). -/
def abelianGenerate (drop : Bool) (orders : List ℕ) : List (ℕ → ℕ) :=
  (allPowers orders).map (powerProduct (sympyGens drop orders.sum (abelianGens 0 orders)))

/-- `np.roll(np.eye(n), shift, axis=0)` (`/repo/qldpc/abstract.py:1140`, `1173`). -/
def rollEye (n shift : ℕ) : ℕ → ℕ → ℤ := fun i j => if i = (j + shift) % n then 1 else 0

/-- `np.kron` of two square matrices; the second one has size `n`. -/
def kronMat (n : ℕ) (A B : ℕ → ℕ → ℤ) : ℕ → ℕ → ℤ := fun i j => A (i / n) (j / n) * B (i % n) (j % n)

/-- The shift in each block: `member.apply(val) - val` (`/repo/qldpc/abstract.py:1138`). -/
def blockShifts (offset : ℕ) (p : ℕ → ℕ) : List ℕ → List ℕ
  | [] => []
  | n :: ns => (p offset - offset) :: blockShifts (offset + n) p ns

/-- `functools.reduce(np.kron, mats)` (`/repo/qldpc/abstract.py:1146`). -/
def kronAll (acc : ℕ → ℕ → ℤ) : List ℕ → List ℕ → ℕ → ℕ → ℤ
  | n :: ns, s :: ss => kronAll (kronMat n acc (rollEye n s)) ns ss
  | _, _ => acc

/-- `lift` of `AbelianGroup` (`/repo/qldpc/abstract.py:1137-1147`), with `direct_sum=False`. The reduction starts from
the first matrix; here it starts from the `1 × 1` matrix `1`, which is the same. -/
def abelianLift (orders : List ℕ) (p : ℕ → ℕ) : ℕ → ℕ → ℤ :=
  kronAll (fun _ _ => 1) orders (blockShifts 0 p orders)

/-- `scipy.linalg.block_diag(*mats)` (`/repo/qldpc/abstract.py:1144`). -/
def blockDiagRolls : List ℕ → List ℕ → ℕ → ℕ → ℤ
  | n :: ns, s :: ss => fun i j =>
    if i < n ∧ j < n then rollEye n s i j
    else if n ≤ i ∧ n ≤ j then blockDiagRolls ns ss (i - n) (j - n) else 0
  | _, _ => fun _ _ => 0

/-- `lift` of `AbelianGroup` with `direct_sum=True` (`/repo/qldpc/abstract.py:1137-1147`). -/
def abelianLiftSum (orders : List ℕ) (p : ℕ → ℕ) : ℕ → ℕ → ℤ := blockDiagRolls orders (blockShifts 0 p orders)

/-- `lift` of `CyclicGroup` (`/repo/qldpc/abstract.py:1168-1173`). -/
def cyclicLift (n : ℕ) (p : ℕ → ℕ) : ℕ → ℕ → ℤ := rollEye n (p 0)

end Abelian

/-! ### `QuaternionGroup` (`/repo/qldpc/abstract.py:1199-1233`) -/

/-- The table (`/repo/qldpc/abstract.py:1203-1212`). -/
def quaternionTable : Fin 8 → Fin 8 → Fin 8 :=
  ![![0, 1, 2, 3, 4, 5, 6, 7],
    ![1, 4, 3, 6, 5, 0, 7, 2],
    ![2, 7, 4, 1, 6, 3, 0, 5],
    ![3, 2, 5, 4, 7, 6, 1, 0],
    ![4, 5, 6, 7, 0, 1, 2, 3],
    ![5, 0, 7, 2, 1, 4, 3, 6],
    ![6, 3, 0, 5, 2, 7, 4, 1],
    ![7, 6, 1, 0, 3, 2, 5, 4]]

/-- `integer_lift` (`/repo/qldpc/abstract.py:1214-1230`), including the final transposition. -/
def quaternionLift (m : Fin 8) : Matrix (Fin 4) (Fin 4) (ZMod 3) :=
  let sign : ZMod 3 := if m.1 < 4 then 1 else -1
  let blocks : Matrix (Fin 4) (Fin 4) (ZMod 3) :=
    match m.1 % 4 with
    | 0 => !![1, 0, 0, 0; 0, 1, 0, 0; 0, 0, 1, 0; 0, 0, 0, 1]
    | 1 => !![0, -1, 0, 0; 1, 0, 0, 0; 0, 0, 0, 1; 0, 0, -1, 0]
    | 2 => !![0, 0, -1, 0; 0, 0, 0, -1; 1, 0, 0, 0; 0, 1, 0, 0]
    | _ => !![0, 0, 0, 1; 0, 0, -1, 0; 0, 1, 0, 0; -1, 0, 0, 0]
  fun i j => sign * blocks j i

end QLDPC
