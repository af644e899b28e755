import Verif.Model.Decoders

/-!
# Choice of a decoder: `get_decoder` (`/repo/qldpc/decoders.py:45-137, 219-264, 362-367`)

Keyword arguments are a list of names and values without repetition.  Which decoder is made, and with which arguments, is
a value of `Choice`; the decoders of `ldpc`, `pymatching` and `cvxpy` are not modelled beyond that.
-/

namespace QLDPC

/-- The values of keyword arguments: `None`, booleans, integers, and any other objects. -/
inductive PyVal (O : Type) where
  | none
  | bool (b : Bool)
  | int (z : ℤ)
  | obj (o : O)
deriving DecidableEq

/-- What is known of objects: `bool(o)`, `callable(o)`, and whether `o.decode` is callable. -/
structure ObjInfo (O : Type) where
  truthy : O → Bool
  callable : O → Bool
  canDecode : O → Bool

/-- `bool(value)`. -/
def PyVal.truthy {O : Type} (info : ObjInfo O) : PyVal O → Bool
  | .none => false
  | .bool b => b
  | .int z => decide (z ≠ 0)
  | .obj o => info.truthy o

/-- Keyword arguments. -/
abbrev Kwargs (O : Type) := List (String × PyVal O)

/-- The dictionary after `args.pop(name, default)`. -/
def Kwargs.without {O : Type} (args : Kwargs O) (name : String) : Kwargs O := args.filter fun e => e.1 ≠ name

/-- The truth of `args.pop(name, default)` for a default that is false. -/
def Kwargs.flag {O : Type} (info : ObjInfo O) (args : Kwargs O) (name : String) : Bool :=
  match args.lookup name with
  | some v => v.truthy info
  | none => false

/-- Decoders that are made, with the arguments of their constructors.  `guf` and `lookup` are given `max_weight` and
`symplectic`; the others keep the dictionary. -/
inductive Choice (O : Type) where
  | built (constructor : O) (args : Kwargs O)
  | static (decoder : O)
  | lookup (maxWeight : Option ℤ) (symplectic : Bool)
  | guf (maxWeight : Option ℤ) (symplectic : Bool)
  | ilp (args : Kwargs O)
  | mwpm (args : Kwargs O)
  | beliefFind (args : Kwargs O)
  | bpLsd (args : Kwargs O)
  | bpOsd (args : Kwargs O)
deriving DecidableEq

variable {O : Type}

/-- The arguments `max_weight` and `symplectic` of `LookupDecoder` and `GUFDecoder`
(`/repo/qldpc/decoders.py:155-161, 242-248`): any other name is a `TypeError`.  A `max_weight` that is neither `None` nor
an integer is not modelled. -/
def weightArgs (info : ObjInfo O) (args : Kwargs O) : Except String (Option ℤ × Bool) :=
  if args.any fun e => e.1 ≠ "max_weight" && e.1 ≠ "symplectic" then .error "TypeError"
  else match args.lookup "max_weight" with
    | none | some .none => .ok (none, args.flag info "symplectic")
    | some (.int z) => .ok (some z, args.flag info "symplectic")
    | some (.bool b) => .ok (some (if b then 1 else 0), args.flag info "symplectic")
    | some (.obj _) => .error "not modelled"

/-- The arguments with the default error rate of the decoders of `ldpc` (`/repo/qldpc/decoders.py:98-99, 110-111,
125-126`); `rate` is `PLACEHOLDER_ERROR_RATE`. -/
def withErrorRate (rate : O) (args : Kwargs O) : Kwargs O :=
  if (args.lookup "error_channel").isNone && (args.lookup "error_rate").isNone then args ++ [("error_rate", .obj rate)]
  else args

/-- `get_decoder(matrix, **args)` (`/repo/qldpc/decoders.py:53-88`); `binary` is false for an array over a field of
order other than two. -/
def getDecoder (info : ObjInfo O) (rate : O) (binary : Bool) (args : Kwargs O) : Except String (Choice O) :=
  if args.flag info "decoder_constructor" then
    match args.lookup "decoder_constructor" with
    | some (.obj o) => if info.callable o then .ok (.built o (args.without "decoder_constructor")) else .error "AssertionError"
    | _ => .error "AssertionError"
  else
  let args := args.without "decoder_constructor"
  if args.flag info "static_decoder" then
    match args.lookup "static_decoder" with
    | some (.obj o) =>
      if info.canDecode o ∧ args.without "static_decoder" = [] then .ok (.static o) else .error "AssertionError"
    | _ => .error "AssertionError"
  else
  let args := args.without "static_decoder"
  if args.flag info "with_lookup" then (weightArgs info (args.without "with_lookup")).map fun w => .lookup w.1 w.2 else
  let args := args.without "with_lookup"
  if args.flag info "with_GUF" then (weightArgs info (args.without "with_GUF")).map fun w => .guf w.1 w.2 else
  let args := args.without "with_GUF"
  if args.flag info "with_ILP" then .ok (.ilp (args.without "with_ILP")) else
  let args := args.without "with_ILP"
  if args.flag info "with_MWPM" then .ok (.mwpm (args.without "with_MWPM")) else
  let args := args.without "with_MWPM"
  if args.flag info "with_BF" then .ok (.beliefFind (withErrorRate rate (args.without "with_BF"))) else
  let args := args.without "with_BF"
  if args.flag info "with_BP_LSD" then .ok (.bpLsd (withErrorRate rate (args.without "with_BP_LSD"))) else
  let args := args.without "with_BP_LSD"
  if binary then .ok (.bpOsd (withErrorRate rate (args.without "with_BP_OSD")))
  else (weightArgs info (args.without "with_GUF")).map fun w => .guf w.1 w.2

/-- `decode(syndrome)` of the `GUFDecoder` that was made without `symplectic` (`/repo/qldpc/decoders.py:266-334`).  No
solution has fewer than 0 errors, so that a negative `max_weight` has the effect of 0. -/
def Choice.gufDecode {F : Type} [Field F] [DecidableEq F] {n : ℕ} (els : List F) (order2 : Bool) (H : Rows F n) (fuel : ℕ)
    (syndrome : List F) : Choice O → Option (Fin n → F)
  | .guf maxWeight false => QLDPC.gufDecode els order2 H (maxWeight.map Int.toNat) fuel syndrome
  | _ => none

end QLDPC
