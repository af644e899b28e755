import Verif.Model.QuantumTanner
import Verif.Model.GroupBuild

/-!
# Constructing quantum Tanner codes: defaults and `QTCode.random` (`/repo/qldpc/codes/quantum.py:1112-1143, 1223-1242`)

The generator of random numbers of `sympy.core.random` is a type `S` of states.  Codes are over one field; different fields
are the subject of `Verif/Model/CodeObjects.lean`.
-/

namespace QLDPC

/-- The global generator of random numbers of sympy (`/repo/qldpc/abstract.py:251-255, 369-370, 394, 398`). -/
structure SympyRandom (S G : Type) where
  /-- The state after `sympy.core.random.seed(seed)`. -/
  seedState : ℤ → S
  /-- `group.random()`: the member and the state afterwards. -/
  member : S → G × S
  /-- `sympy.core.random.randint(0, m - 1)` for `m > 0`, before reduction modulo `m`, and the state afterwards. -/
  randint : ℕ → S → ℕ × S

/-- The state in which drawing begins (`/repo/qldpc/abstract.py:369-370`). -/
def SympyRandom.start {S G : Type} (rng : SympyRandom S G) (seed : Option ℤ) (st : S) : S :=
  match seed with
  | some s => rng.seedState s
  | none => st

section Subset

variable {S G : Type} [Group G] [DecidableEq G]

/-- Throw away pairs (`/repo/qldpc/abstract.py:393-396`), with the state of the generator. -/
def dropPairsR (rng : SympyRandom S G) (sort : List G → List G) : ℕ → List G → S → Except String (List G × S)
  | 0, doubles, st => .ok (doubles, st)
  | k + 1, doubles, st =>
    let (r, st) := rng.randint doubles.length st
    match (sort doubles)[r % doubles.length]? with
    | none => .error "ValueError"
    | some g => dropPairsR rng sort k ((doubles.erase g).erase g⁻¹) st

/-- The `while` loop of `random_symmetric_subset` (`/repo/qldpc/abstract.py:372-400`) with `fuel` rounds and without
`exclude_identity`; `none`: it is still running. -/
def symSubsetLoopR (rng : SympyRandom S G) (sort : List G → List G) (size : ℕ) :
    ℕ → List G → List G → S → Except String (Option (List G × S))
  | 0, _, _, _ => .ok none
  | fuel + 1, singles, doubles, st =>
    let (g, st) := rng.member st
    let s := if g = g⁻¹ then setAdd singles g else singles
    let d := if g = g⁻¹ then doubles else setAdd (setAdd doubles g) g⁻¹
    if s.length + d.length = size then .ok (some (s ++ d, st))
    else if size < s.length + d.length ∧ 0 < s.length then
      let extra := s.length + d.length - size
      (dropPairsR rng sort (extra / 2) d st).bind fun (r, st) =>
        if extra % 2 = 1 then
          let (i, st) := rng.randint s.length st
          match (sort s)[i % s.length]? with
          | none => .error "ValueError"
          | some h => .ok (some (s.erase h ++ r, st))
        else .ok (some (s ++ r, st))
    else symSubsetLoopR rng sort size fuel s d st

/-- `group.random_symmetric_subset(size, seed=seed)` (`/repo/qldpc/abstract.py:351-400`): the members and the state of the
generator afterwards. -/
def randomSymmetricSubset (rng : SympyRandom S G) (sort : List G → List G) (order fuel size : ℕ) (seed : Option ℤ)
    (st : S) : Except String (Option (List G × S)) :=
  if ¬ (0 < size ∧ size ≤ order) then .error "ValueError"
  else symSubsetLoopR rng sort size fuel [] [] (rng.start seed st)

end Subset

section Code

variable {G : Type} [Group G] [DecidableEq G] {F : Type} [Field F] [DecidableEq F] {n : ℕ}

/-- What the construction of a quantum Tanner code depends on besides its arguments: the members of the group generated by
both subsets (`/repo/qldpc/objects.py:344-349`), the orders of `GroupMember.__lt__` in the two covers, the choices of
`set.pop`, and a bound for the number of rounds. -/
structure QTEnv (G : Type) where
  members : List G → List G → List G
  ltBi : G × Two → G × Two → Bool
  ltQuad : G × Two × Two → G × Two × Two → Bool
  pick : ℕ → ℕ
  fuel : ℕ

/-- `QTCode.__init__` (`/repo/qldpc/codes/quantum.py:1114-1143`): without `code_b` the dual of `code_a` is taken if both subsets
have the same size.  `~code_a` remembers the generators of `code_a`.  The result are both matrices; the code is always said
to be a stabilizer code. -/
def qtInit (env : QTEnv G) (A B : List G) (codeA : CCode F n) (codeB? : Option (Σ m, CCode F m)) (bipartite : Bool) :
    Except String (Σ N : ℕ, Rows F N × Rows F N) :=
  let build (codeA : CCode F n) (codeB : Σ m, CCode F m) : Except String (Σ N : ℕ, Rows F N × Rows F N) :=
    match (if bipartite then qtCodeBi (env.members A B) env.ltBi A B env.pick env.fuel codeA codeB.2
      else qtCodeQuad (env.members A B) env.ltQuad A B env.pick env.fuel codeA codeB.2) with
    | some c => .ok c
    | none => .error "ValueError"
  match codeB? with
  | some codeB => build codeA codeB
  | none =>
    if A.length = B.length then build codeA.withGenerator ⟨n, codeA.dual⟩
    else .error "ValueError: no seed code provided for one of the generating subsets"

variable {S : Type}

/-- `QTCode.random` once the seed codes are known (`/repo/qldpc/codes/quantum.py:1236-1242`): the code, or `none` if no subset
has been found in `rounds` rounds.  `iter` is the order in which python iterates over a set. -/
def qtRandomWith (env : QTEnv G) (rng : SympyRandom S G) (sort iter : List G → List G) (order rounds : ℕ) (codeA : CCode F n)
    (codeB : Σ m, CCode F m) (bipartite oneSubset : Bool) (seed : Option ℤ) (st : S) :
    Except String (Option (Σ N : ℕ, Rows F N × Rows F N)) :=
  match randomSymmetricSubset rng sort order rounds n seed st with
  | .error e => .error e
  | .ok none => .ok none
  | .ok (some (A, st)) =>
    if oneSubset then (qtInit env (iter A) (iter A) codeA (some codeB) bipartite).map some
    else
      match randomSymmetricSubset rng sort order rounds codeB.1 none st with
      | .error e => .error e
      | .ok none => .ok none
      | .ok (some (B, _)) => (qtInit env (iter A) (iter B) codeA (some codeB) bipartite).map some

/-- `QTCode.random` (`/repo/qldpc/codes/quantum.py:1223-1242`): without `code_b` the dual of `code_a` is taken. -/
def qtRandom (env : QTEnv G) (rng : SympyRandom S G) (sort iter : List G → List G) (order rounds : ℕ) (codeA : CCode F n)
    (codeB? : Option (Σ m, CCode F m)) (bipartite oneSubset : Bool) (seed : Option ℤ) (st : S) :
    Except String (Option (Σ N : ℕ, Rows F N × Rows F N)) :=
  match codeB? with
  | some codeB => qtRandomWith env rng sort iter order rounds codeA codeB bipartite oneSubset seed st
  | none => qtRandomWith env rng sort iter order rounds codeA.withGenerator ⟨n, codeA.dual⟩ bipartite oneSubset seed st

end Code

end QLDPC
