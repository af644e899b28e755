import Verif.Model.Encoding
import Verif.Model.Text

/-!
# Which codes the circuit functions accept

`/repo/qldpc/circuits.py`: the decorator `restrict_to_qubits` (lines 32-41) and the order in which the decorated functions
call each other.  What the functions compute from their code is a parameter here (`CircuitBodies`); the computations
are in `Model/Encoding.lean`, `Model/Circuits.lean` and `Model/Tableau.lean`.
-/

namespace QLDPC

/-- An argument of a call: a `QuditCode` or anything else. -/
inductive CallArg (C : Type)
  | code (c : C)
  | other

/-- The arguments of a call, positional ones and those with a keyword. -/
structure Call (C : Type) where
  args : List (CallArg C)
  kwargs : List (String × CallArg C) := []

/-- `isinstance(arg, codes.QuditCode) and arg.field.order != 2` (`/repo/qldpc/circuits.py:37`). -/
def CallArg.isQudit {C : Type} (order : C → ℕ) : CallArg C → Bool
  | .code c => order c != 2
  | .other => false

/-- `restrict_to_qubits(func)(*args, **kwargs)` (`/repo/qldpc/circuits.py:32-41`). -/
def restrictToQubits {C α : Type} (order : C → ℕ) (func : Call C → Except String α) (call : Call C) : Except String α :=
  if call.args.any (CallArg.isQudit order) then .error "ValueError" else func call

/-- The value of the parameter `code`, which is the first one of every function below. -/
def Call.theCode {C : Type} (call : Call C) : Except String C :=
  match call.args with
  | .code c :: _ => .ok c
  | .other :: _ => .error "AttributeError"
  | [] =>
    match call.kwargs.lookup "code" with
    | some (.code c) => .ok c
    | some .other => .error "AttributeError"
    | none => .error "TypeError"

/-- What the functions compute.  `T` are tableaus, `G` groups and `R` results of the searches. -/
structure CircuitBodies (C T G R : Type) where
  /-- `code.field.order` -/
  order : C → ℕ
  /-- `code.dimension` -/
  dimension : C → ℕ
  /-- Lines 54-86. -/
  tableau : C → Except String T
  /-- `to_circuit` in line 98. -/
  toCircuit : T → R
  /-- `tableau.inverse()` in lines 402, 404. -/
  inverse : T → T
  /-- `code.deformed(deformation, preserve_logicals=True)` in line 403. -/
  deformed : C → Except String C
  /-- `_get_logical_tableau_from_code_data` in lines 390-392. -/
  logical : C → T × T → Except String R
  /-- Lines 187-244. -/
  group : C → Except String G
  /-- Lines 120-136. -/
  ops : C → G → Except String R
  /-- Lines 475-482: conversion of the targets to tableaus. -/
  targets : C → Except String Unit
  /-- Lines 487-520. -/
  search : C → G → Except String R

namespace CircuitBodies

variable {C T G R : Type} (b : CircuitBodies C T G R)

/-- `get_encoding_tableau` (`/repo/qldpc/circuits.py:44-86`). -/
def getEncodingTableau : Call C → Except String T :=
  restrictToQubits b.order fun call => call.theCode.bind b.tableau

/-- `get_encoding_circuit` (`/repo/qldpc/circuits.py:89-98`). -/
def getEncodingCircuit : Call C → Except String R :=
  restrictToQubits b.order fun call =>
    call.theCode.bind fun c => (b.getEncodingTableau ⟨[.code c], []⟩).map b.toCircuit

/-- `get_encoder_and_decoder` (`/repo/qldpc/circuits.py:396-405`); `deform` is `deformation is not None`. -/
def getEncoderAndDecoder (deform : Bool) : Call C → Except String (T × T) :=
  restrictToQubits b.order fun call =>
    call.theCode.bind fun c => (b.getEncodingTableau ⟨[.code c], []⟩).bind fun encoder =>
      if deform then
        (b.deformed c).bind fun c' => (b.getEncodingTableau ⟨[.code c'], []⟩).map fun t => (encoder, b.inverse t)
      else .ok (encoder, b.inverse encoder)

/-- `get_logical_tableau` (`/repo/qldpc/circuits.py:379-393`). -/
def getLogicalTableau (deform : Bool) : Call C → Except String R :=
  restrictToQubits b.order fun call =>
    call.theCode.bind fun c => (b.getEncoderAndDecoder deform ⟨[.code c, .other], []⟩).bind (b.logical c)

/-- `get_transversal_automorphism_group` (`/repo/qldpc/circuits.py:166-244`). -/
def getAutomorphismGroup : Call C → Except String G :=
  restrictToQubits b.order fun call => call.theCode.bind b.group

/-- `get_transversal_ops` (`/repo/qldpc/circuits.py:101-136`). -/
def getTransversalOps : Call C → Except String R :=
  restrictToQubits b.order fun call =>
    call.theCode.bind fun c =>
      (b.getAutomorphismGroup ⟨[.code c, .other], [("deform_code", .other)]⟩).bind (b.ops c)

/-- `get_transversal_circuits` (`/repo/qldpc/circuits.py:452-520`): `stim.Circuit(f"I {code.dimension - 1}")` in line 474
raises if there are no logical qubits, as `-1` is no target. -/
def getTransversalCircuits : Call C → Except String R :=
  restrictToQubits b.order fun call =>
    call.theCode.bind fun c =>
      if b.dimension c = 0 then .error "ValueError"
      else (b.targets c).bind fun _ =>
        (b.getAutomorphismGroup ⟨[.code c, .other], [("deform_code", .other)]⟩).bind (b.search c)

/-- `get_transversal_circuit` (`/repo/qldpc/circuits.py:523-547`), which is not decorated. -/
def getTransversalCircuit (call : Call C) : Except String R :=
  call.theCode.bind fun c => b.getTransversalCircuits ⟨[.code c, .other, .other], [("deform_code", .other)]⟩

end CircuitBodies

/-- The Pauli string that Stim reads from the letters for the single qubits. -/
def readLetters {n : ℕ} (letters : List (List Char)) : Fin (n + n) → ZMod 2 :=
  Fin.append (fun i : Fin n => if letters[i.val]? = some ['X'] ∨ letters[i.val]? = some ['Y'] then 1 else 0)
    (fun i : Fin n => if letters[i.val]? = some ['Z'] ∨ letters[i.val]? = some ['Y'] then 1 else 0)

/-- `[op_to_string(op) for matrix in matrices for op in matrix]` (`/repo/qldpc/circuits.py:84-85`), as qubit operators;
`none` if `Pauli(...)` raises. -/
def lettersOf {F : Type} {n : ℕ} (fi : FieldInts F) (M : Rows F (n + n)) : Option (Rows (ZMod 2) (n + n)) :=
  M.mapM fun r => (opToString fun i => fi.toInt (r i)).map readLetters

/-- The body of `get_encoding_tableau` (`/repo/qldpc/circuits.py:54-86`) for a `QuditCode` over any field; `none` if an
exception is raised. -/
def QCode.tableauAny {F : Type} [Field F] [DecidableEq F] {n : ℕ} (fi : FieldInts F) (c : QCode F n) :
    Option (Rows (ZMod 2) (n + n) × Rows (ZMod 2) (n + n)) :=
  c.getLogicalOps.bind fun L => c.gaugeOps.bind fun G =>
    let t := QLDPC.encodingTableau c.stabilizerOpsCanon L G c.dimension c.gaugeDimension
    (lettersOf fi t.1).bind fun xs => (lettersOf fi t.2).bind fun zs => stimTableau (xs, zs)

/-- The same with exceptions as values. -/
def QCode.tableauBody {F : Type} [Field F] [DecidableEq F] {n : ℕ} (fi : FieldInts F) (c : QCode F n) :
    Except String (Rows (ZMod 2) (n + n) × Rows (ZMod 2) (n + n)) :=
  match c.tableauAny fi with
  | some t => .ok t
  | none => .error "Exception"

end QLDPC
