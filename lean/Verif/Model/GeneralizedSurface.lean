import Verif.Model.Chain
import Verif.Model.Families

/-!
# Surface and toric codes on hypercubic lattices

`GeneralizedSurfaceCode` (`/repo/qldpc/codes/quantum.py:1525-1564`).  The number of qudits is part of the result.
-/

namespace QLDPC

variable {F : Type} [Field F] [DecidableEq F] {n : ℕ}

/-- The parity check matrix of a code as an array with a shape (`ClassicalCode.matrix`,
`/repo/qldpc/codes/common.py:256-258`). -/
def rowsMat (H : Rows F n) : Mat F :=
  ⟨H.length, n, fun i j => if hi : i < H.length then if hj : j < n then H[i] ⟨j, hj⟩ else 0 else 0⟩

/-- `ChainComplex(*ops)` (`/repo/qldpc/objects.py:376-422`) for matrices over one field: an exception is raised if
`_validate_ops` fails. -/
def mkChain (ops : List (Mat F)) : Option (Chain F) := if Chain.validate ⟨ops⟩ then some ⟨ops⟩ else none

/-- The loop that adds one link at a time (`/repo/qldpc/codes/quantum.py:1554-1558`). -/
def addLinks (link : Chain F) : ℕ → Chain F → Option (Chain F)
  | 0, chain => some chain
  | k + 1, chain => match Chain.tensorProduct chain link with
    | none => none
    | some chain => match mkChain (chain.ops.take 2) with
      | none => none
      | some chain => addLinks link k chain

/-- Parity checks and recorded distances of a `GeneralizedSurfaceCode`. -/
structure LatticeCode (F : Type) (n : ℕ) where
  hx : Rows F n
  hz : Rows F n
  distX : ℕ
  distZ : ℕ

/-- `GeneralizedSurfaceCode(size, dim, field, periodic=periodic)` (`/repo/qldpc/codes/quantum.py:1532-1564`); `none`
if an exception is raised.  The comparison of the two lengths is the one of `CSSCode.__init__`
(`/repo/qldpc/codes/common.py:1592`). -/
def generalizedSurfaceCode (F : Type) [Field F] [DecidableEq F] (size dim : ℕ) (periodic : Bool) :
    Option (Σ N, LatticeCode F N) :=
  if dim < 2 then none else
  match (if periodic then some (ringCode F size) else repetitionCode F size) with
  | none => none
  | some base =>
    match mkChain [rowsMat base.matrix], mkChain [(rowsMat base.matrix).T] with
    | some chain, some link => match addLinks link (dim - 1) chain with
      | none => none
      | some chain =>
        if (chain.op 1).cols = (chain.op 2).T.cols then
          some ⟨(chain.op 1).cols, {
            hx := (List.range (chain.op 1).rows).map fun i j => (chain.op 1).e i j
            hz := (List.range (chain.op 2).T.rows).map fun i j => (chain.op 2).T.e i j
            distX := size ^ (dim - 1)
            distZ := size }⟩
        else none
    | _, _ => none

end QLDPC
