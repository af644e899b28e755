import Mathlib.Data.List.Basic
import Mathlib.Data.Nat.Notation

/-!
# Codes as python objects: constructors and equality (`/repo/qldpc/codes/common.py`)

Classes, attributes and `==` of `AbstractCode`, `ClassicalCode`, `QuditCode` and `CSSCode`.  `C` is the
type of classes that inherit `__eq__` from one of these three, `Φ` the type of fields (classes of galois, compared with `is`).
`QTCode` has an `__eq__` of its own, see `Verif/Model/Persist.lean`.
-/

namespace QLDPC

/-- A two-dimensional array with its shape; entries as integers. -/
structure Arr where
  rows : ℕ
  cols : ℕ
  entries : List (List ℕ)
  deriving DecidableEq

/-- Which of the three classes a class inherits from (`/repo/qldpc/codes/common.py:196, 691, 1556`);
`css` classes inherit from `QuditCode` as well. -/
inductive CodeKind where
  | classical
  | qudit
  | css
  deriving DecidableEq

/-- A hierarchy of classes: `sub c d` is `issubclass(c, d)`. -/
structure Classes (C : Type) where
  kind : C → CodeKind
  sub : C → C → Bool
  ClassicalCode : C
  QuditCode : C
  CSSCode : C

/-- The fields of galois: the order, and `galois.GF(order)`, which raises (`none`) if there is no
such field. -/
structure Fields (Φ : Type) where
  order : Φ → ℕ
  gf : ℕ → Option Φ

/-- A code object (`/repo/qldpc/codes/common.py:80-83, 207, 722-725, 1573-1577`).  An absent attribute
`_matrix` is `none`; `codes?` are the parity check matrices of `_code_x` and `_code_z`; in `dist?`
`some none` is `np.nan`. -/
structure CodeObj (Φ C : Type) where
  cls : C
  field : Φ
  matrix? : Option Arr := none
  dim? : Option ℕ := none
  dist? : Option (Option ℕ) := none
  gen? : Option Arr := none
  stabilizers? : Option Arr := none
  gauges? : Option Arr := none
  logicals? : Option Arr := none
  isSub : Bool := false
  codes? : Option (Arr × Arr) := none
  equalDistance : Bool := false

variable {Φ C : Type} [DecidableEq Φ] [DecidableEq C]

/-- Block diagonal matrix of the two parts (`/repo/qldpc/codes/common.py:1654-1662`). -/
def cssArray (x z : Arr) : Arr where
  rows := x.rows + z.rows
  cols := x.cols + z.cols
  entries := x.entries.map (· ++ List.replicate z.cols 0) ++
    z.entries.map (List.replicate x.cols 0 ++ ·)

/-- The property `matrix` (`/repo/qldpc/codes/common.py:140-143` and `1654-1662`); `none`: it raises
`AttributeError`. -/
def CodeObj.matrix (H : Classes C) (o : CodeObj Φ C) : Option Arr :=
  match H.kind o.cls with
  | .css => o.codes?.map fun p => cssArray p.1 p.2
  | _ => o.matrix?

/-- The method `__eq__` of `self` (`/repo/qldpc/codes/common.py:220-226`, `749-755`, `1604-1611`).
`np.array_equal` of two existing attributes. -/
def CodeObj.eqMethod (H : Classes C) (self other : CodeObj Φ C) : Bool :=
  match H.kind self.cls with
  | .classical => H.kind other.cls = .classical && self.field = other.field &&
      self.matrix H = other.matrix H
  | .qudit => (H.kind other.cls = .qudit || H.kind other.cls = .css) && self.field = other.field &&
      self.matrix H = other.matrix H
  | .css => H.sub other.cls self.cls && self.field = other.field &&
      self.codes?.map Prod.fst = other.codes?.map Prod.fst &&
      self.codes?.map Prod.snd = other.codes?.map Prod.snd

/-- `a == b` of python: if the class of `b` is a proper subclass of the class of `a`, then the method
of `b` is asked, otherwise that of `a`.  All methods here return booleans. -/
def CodeObj.pyEq (H : Classes C) (a b : CodeObj Φ C) : Bool :=
  if b.cls ≠ a.cls ∧ H.sub b.cls a.cls = true then b.eqMethod H a else a.eqMethod H b

/-- What the constructors accept: a code, an array of galois, or integers. -/
inductive Source (Φ C : Type) where
  | code (o : CodeObj Φ C)
  | fieldArray (φ : Φ) (A : Arr)
  | data (A : Arr)

/-- `AbstractCode.__init__` (`/repo/qldpc/codes/common.py:85-112`) on a fresh object of class `cls`.
The view at the end raises for integers that are no field elements. -/
def abstractInit (fs : Fields Φ) (cls : C) (src : Source Φ C) (field : Option ℕ) :
    Except String (CodeObj Φ C) :=
  match src with
  | .code o =>
    match o.matrix? with
    | none => .error "AttributeError: object has no attribute '_matrix'"
    | some M =>
      if field.isSome ∧ field ≠ some (fs.order o.field) then
        .error "ValueError: Field argument is inconsistent with the given code"
      else
        .ok { cls := cls, field := o.field, matrix? := some M, dim? := o.dim?, dist? := o.dist? }
  | .fieldArray φ A => .ok { cls := cls, field := φ, matrix? := some A }
  | .data A =>
    let order := match field with
      | none => 2
      | some 0 => 2
      | some q => q
    match fs.gf order with
    | none => .error "ValueError: no such field"
    | some φ =>
      if A.entries.all fun r => r.all fun x => x < order then
        .ok { cls := cls, field := φ, matrix? := some A }
      else .error "ValueError: not elements of the field"

/-- `ClassicalCode.__init__` (`/repo/qldpc/codes/common.py:209-218`). -/
def classicalInit (H : Classes C) (fs : Fields Φ) (cls : C) (src : Source Φ C) (field : Option ℕ) :
    Except String (CodeObj Φ C) := do
  let self ← abstractInit fs cls src field
  match src with
  | .code o => if H.kind o.cls = .classical then pure { self with gen? := o.gen? } else pure self
  | _ => pure self

/-- `QuditCode.__init__` (`/repo/qldpc/codes/common.py:727-747`).  `noncommuting` is
`bool(np.any(symplectic_conjugate(matrix) @ matrix.T))`. -/
def quditInit (H : Classes C) (fs : Fields Φ) (noncommuting : Φ → Arr → Bool) (cls : C)
    (src : Source Φ C) (field : Option ℕ) (isSub : Option Bool) : Except String (CodeObj Φ C) := do
  let self ← abstractInit fs cls src field
  let computed : CodeObj Φ C :=
    { self with isSub := isSub.getD (self.matrix?.any fun M => noncommuting self.field M) }
  match src with
  | .code o =>
    if H.kind o.cls = .qudit ∨ H.kind o.cls = .css then
      if isSub = none ∨ isSub = some o.isSub then
        pure { self with
          stabilizers? := o.stabilizers?, gauges? := o.gauges?, logicals? := o.logicals?,
          isSub := o.isSub }
      else .error "AssertionError"
    else pure computed
  | _ => pure computed

/-- `CSSCode.__init__` (`/repo/qldpc/codes/common.py:1579-1602`) without known distances.
`noncommuting` is `bool(np.any(matrix_x @ matrix_z.T))`. -/
def cssInit (H : Classes C) (fs : Fields Φ) (noncommuting : Φ → Arr → Arr → Bool) (cls : C)
    (srcX srcZ : Source Φ C) (field : Option ℕ) (isSub : Option Bool) (promise : Bool) :
    Except String (CodeObj Φ C) := do
  let codeX ← classicalInit H fs H.ClassicalCode srcX field
  let codeZ ← classicalInit H fs H.ClassicalCode srcZ field
  match codeX.matrix?, codeZ.matrix? with
  | some X, some Z =>
    if X.cols ≠ Z.cols ∨ codeX.field ≠ codeZ.field then
      .error "ValueError: The sub-codes provided for this CSSCode are incompatible"
    else
      pure {
        cls := cls, field := codeX.field, codes? := some (X, Z),
        isSub := isSub.getD (noncommuting codeX.field X Z),
        equalDistance := promise || codeX.pyEq H codeZ }
  | _, _ => .error "AttributeError"

end QLDPC
