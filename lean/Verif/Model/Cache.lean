import Mathlib.Data.List.Basic
import Mathlib.Data.Int.Notation

/-!
# Caching results on disk

`/repo/qldpc/cache.py:31-74`.  A disk cache is a map from keys to values; the map persists between processes, so a
history of calls goes across processes.  A function returns a value or raises an exception (`none`).
-/

namespace QLDPC

/-- Python values as far as keys need them: strings, integers, tuples. -/
inductive Val where
  | str (s : String)
  | int (z : ℤ)
  | nil
  | cons (head tail : Val)
deriving DecidableEq, Repr

namespace Val

/-- A tuple of values. -/
def tuple : List Val → Val
  | [] => nil
  | v :: l => cons v (tuple l)

end Val

/-- The arguments of a call: `*args, **kwargs`. -/
structure CallArgs where
  args : List Val
  kwargs : List (String × Val)
deriving DecidableEq, Repr

/-- `args + tuple(kwargs.items())` (`/repo/qldpc/cache.py:58`). -/
def defaultKey (c : CallArgs) : Val :=
  Val.tuple (c.args ++ c.kwargs.map fun kv => Val.tuple [Val.str kv.1, kv.2])

/-- `function_with_cache` (`/repo/qldpc/cache.py:51-65`): the returned value, and the cache afterwards.  Nothing is
stored if the function raises. -/
def cachedCall {A K V : Type} [DecidableEq K] (key : A → K) (f : A → Option V) (cache : K → Option V) (a : A) :
    Option V × (K → Option V) :=
  match cache (key a) with
  | some v => (some v, cache)
  | none => match f a with
    | none => (none, cache)
    | some v => (some v, fun k => if k = key a then some v else cache k)

/-- The decorated function (`/repo/qldpc/cache.py:47-69`), for one call. -/
def decorated {A K V : Type} [DecidableEq K] (pytest : Bool) (key : A → K) (f : A → Option V) (cache : K → Option V)
    (a : A) : Option V × (K → Option V) :=
  if pytest then (f a, cache) else cachedCall key f cache a

/-- A history of calls: the returned values, and the cache afterwards. -/
def history {A K V : Type} [DecidableEq K] (pytest : Bool) (key : A → K) (f : A → Option V) :
    (K → Option V) → List A → List (Option V) × (K → Option V)
  | cache, [] => ([], cache)
  | cache, a :: l =>
    let r := decorated pytest key f cache a
    let s := history pytest key f r.2 l
    (r.1 :: s.1, s.2)

end QLDPC
