import Verif.Model.Classical

/-!
# Random arrays, codes and words (`/repo/qldpc/codes/common.py`)

The generators of random numbers are parameters: the global generator of numpy is a type `S` of
states with the operations "seed" and "draw an integer"; `field.Random(shape, seed=s)` of galois
makes a generator of its own from the seed (`seeded s`), and without seed a fresh one for every call
(`fresh k` is what the `k`-th such call returns).  The shape of the arrays is part of their type.
-/

namespace QLDPC

/-- The global random state of numpy, as used in `/repo/qldpc/codes/common.py:49-52`. -/
structure NumpyRandom (S : Type) where
  /-- The state after `np.random.seed(seed)`; numpy refuses negative and very large seeds. -/
  seedState : ℤ → Except String S
  /-- `np.random.randint(np.iinfo(np.int32).max + 1)`: the number and the state afterwards. -/
  randint : S → ℤ × S

variable {S A : Type}

/-- `get_scrambled_seed` (`/repo/qldpc/codes/common.py:47-53`): the result and the global state
afterwards.  If `np.random.seed` raises, then before it has changed anything. -/
def getScrambledSeed (np : NumpyRandom S) (seed : ℤ) (st : S) : Except String ℤ × S :=
  let state := st
  match np.seedState seed with
  | .error e => (.error e, st)
  | .ok st =>
    let (newSeed, _) := np.randint st
    let st := state
    (.ok newSeed, st)

/-- `field.Random(shape, seed=seed)` (`/repo/qldpc/codes/common.py:68`). -/
def fieldRandom (seeded : ℤ → A) (fresh : ℕ → A) (seed : Option ℤ) (k : ℕ) : A :=
  match seed with
  | some s => seeded s
  | none => fresh k

/-- The loop of `get_random_array` (`/repo/qldpc/codes/common.py:68-70`) with `fuel` rounds; `none`:
still running.  `k` counts the calls without seed. -/
def resample (seeded : ℤ → A) (fresh : ℕ → A) (satisfy : A → Bool) : ℕ → Option ℤ → ℕ → Option A
  | 0, _, _ => none
  | fuel + 1, seed, k =>
    let array := fieldRandom seeded fresh seed k
    if satisfy array then some array
    else resample seeded fresh satisfy fuel (seed.map (· + 1)) (k + 1)

/-- `get_random_array` (`/repo/qldpc/codes/common.py:56-70`): the result and the global state of
numpy afterwards. -/
def getRandomArray (np : NumpyRandom S) (seeded : ℤ → A) (fresh : ℕ → A) (satisfy : A → Bool)
    (fuel : ℕ) (seed : Option ℤ) (st : S) : Except String (Option A) × S :=
  match seed with
  | none => (.ok (resample seeded fresh satisfy fuel none 0), st)
  | some s =>
    match getScrambledSeed np s st with
    | (.error e, st) => (.error e, st)
    | (.ok s', st) => (.ok (resample seeded fresh satisfy fuel (some s') 0), st)

variable {F : Type} [Field F] [DecidableEq F]

/-- `nontrivial` (`/repo/qldpc/codes/common.py:532-534`). -/
def nontrivialArray {checks bits : ℕ} (M : Fin checks → Fin bits → F) : Bool :=
  ((List.finRange checks).all fun i => (List.finRange bits).any fun j => M i j ≠ 0) &&
    (List.finRange bits).all fun j => (List.finRange checks).any fun i => M i j ≠ 0

/-- `ClassicalCode.random` (`/repo/qldpc/codes/common.py:521-537`): the code and the global state of
numpy afterwards. -/
def randomCode {checks bits : ℕ} (np : NumpyRandom S) (seeded : ℤ → Fin checks → Fin bits → F)
    (fresh : ℕ → Fin checks → Fin bits → F) (fuel : ℕ) (seed : Option ℤ) (st : S) :
    Except String (Option (CCode F bits)) × S :=
  let (r, st) := getRandomArray np seeded fresh nontrivialArray fuel seed st
  (r.map fun M => M.map fun M => CCode.ofMatrix (List.ofFn M), st)

/-- `get_random_word` (`/repo/qldpc/codes/common.py:338-341`), given the array of coefficients that
`get_random_array` returns. -/
def randomWord {n : ℕ} (c : CCode F n) (coefficients : Fin c.generator.length → F) : Fin n → F :=
  vecMat (List.ofFn coefficients) c.generator

end QLDPC
