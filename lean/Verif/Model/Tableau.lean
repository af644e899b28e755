import Verif.Spec.Pauli
import Verif.Model.Circuits
import Verif.Model.Encoding

/-!
# Stim tableaus and logical tableaus

`/repo/qldpc/circuits.py:101-163, 263-304, 370-449, 452-547`, `/repo/qldpc/math.py:34-41`.

A `stim.Tableau` is the list of the images of all `X_j` and `Z_j`, with signs; what Stim does with tableaus
(`tableau(string)`, `then`, `inverse`, `to_numpy`, `from_numpy`, `Circuit.to_tableau`) is written out here
according to Stim's documentation.
-/

namespace QLDPC

open Spec

/-- A `stim.Tableau`: images of `X_j` and `Z_j`. -/
structure Tableau (n : ℕ) where
  xs : Fin n → SPauli n
  zs : Fin n → SPauli n

namespace Tableau

variable {n : ℕ}

/-- `a ^ b` for a bit `b`. -/
def bitPow (a : SPauli n) (b : ZMod 2) : SPauli n := if b = 0 then 1 else a

/-- `tableau(string)`: the image of `i^phase X^x Z^z` is the product of the images of its factors. -/
def apply (T : Tableau n) (p : SPauli n) : SPauli n :=
  SPauli.scalar p.phase * ((List.ofFn fun j => bitPow (T.xs j) (xPart p.op j)).prod *
    (List.ofFn fun j => bitPow (T.zs j) (zPart p.op j)).prod)

/-- The identity. -/
def identity (n : ℕ) : Tableau n := ⟨SPauli.X, SPauli.Z⟩

/-- `tableau.then(second)`. -/
def andThen (T U : Tableau n) : Tableau n := ⟨fun j => U.apply (T.xs j), fun j => U.apply (T.zs j)⟩

/-- The operator that a tableau sends to `p`: its bits are commutation relations with the images, its phase is
such that the phase of the image is right. -/
def preimage (T : Tableau n) (p : SPauli n) : SPauli n :=
  let q : SPauli n := SPauli.plus (Fin.append (fun j => sform p.op (T.zs j).op) (fun j => sform p.op (T.xs j).op))
  SPauli.scalar (p.phase - (T.apply q).phase) * q

/-- `tableau.inverse()` -/
def inverse (T : Tableau n) : Tableau n := ⟨fun j => T.preimage (SPauli.X j), fun j => T.preimage (SPauli.Z j)⟩

end Tableau

/-- `string.sign == -1` for a string of `X`, `Y`, `Z` with a sign. -/
def SPauli.isMinus {n : ℕ} (p : SPauli n) : Bool := decide (p.phase ≠ (SPauli.plus p.op).phase)

/-- The string with bits `op` and a sign. -/
def SPauli.signed {n : ℕ} (minus : Bool) (op : Fin (n + n) → ZMod 2) : SPauli n :=
  SPauli.scalar (if minus then 2 else 0) * SPauli.plus op

/-- `stim.Tableau.from_conjugated_generators` of strings given by their bits, all with the sign `+`
(`op_to_string`, `/repo/qldpc/math.py:34-41`); see `Verif/Model/Encoding.lean` for the lists. -/
def tableauOf {n : ℕ} (xs zs : Rows (ZMod 2) (n + n)) : Tableau n :=
  ⟨fun j => SPauli.plus (xs.getD j 0), fun j => SPauli.plus (zs.getD j 0)⟩

/-! ## Circuits -/

/-- Instructions of the emitted circuits: Pauli gates, and the gates of `Verif/Model/Circuits.lean`.  Identity gates,
which only serve to set the number of qubits, are left out. -/
inductive Instr where
  | X (q : ℕ)
  | Y (q : ℕ)
  | Z (q : ℕ)
  | gate (g : Gate)
deriving DecidableEq, Repr

/-- One-qubit strings `X_q`, `Y_q`, `Z_q`. -/
def oneQubit {n : ℕ} (j : Fin n) (x z : ZMod 2) : Fin (n + n) → ZMod 2 :=
  Fin.append (Pi.single j x) (Pi.single j z)

/-- Images of `X` and `Z` on the target of a one-qubit gate, as (sign, x, z) (Stim's documentation of gates). -/
def Gate.images : Gate → (Bool × ZMod 2 × ZMod 2) × (Bool × ZMod 2 × ZMod 2)
  | .H _ => ((false, 0, 1), (false, 1, 0))
  | .S _ => ((false, 1, 1), (false, 0, 1))
  | .SQRT_X _ => ((false, 1, 0), (true, 1, 1))
  | .H_YZ _ => ((true, 1, 0), (false, 1, 1))
  | .C_XYZ _ => ((false, 1, 1), (false, 1, 0))
  | .C_ZYX _ => ((false, 0, 1), (false, 1, 1))
  | .SWAP _ _ => ((false, 1, 0), (false, 0, 1))

/-- The tableau of a one-qubit gate on qubit `q`. -/
def localTableau (n q : ℕ) (im : (Bool × ZMod 2 × ZMod 2) × (Bool × ZMod 2 × ZMod 2)) : Tableau n where
  xs j := if j.val = q then SPauli.signed im.1.1 (oneQubit j im.1.2.1 im.1.2.2) else SPauli.X j
  zs j := if j.val = q then SPauli.signed im.2.1 (oneQubit j im.2.2.1 im.2.2.2) else SPauli.Z j

/-- The tableau of `SWAP a b`. -/
def swapTableau (n a b : ℕ) : Tableau n :=
  let f : Fin n → Fin n := fun j =>
    if j.val = a then (if h : b < n then ⟨b, h⟩ else j) else if j.val = b then (if h : a < n then ⟨a, h⟩ else j) else j
  ⟨fun j => SPauli.X (f j), fun j => SPauli.Z (f j)⟩

/-- The tableau of an instruction. -/
def Instr.tableau (n : ℕ) : Instr → Tableau n
  | .X q => localTableau n q ((false, 1, 0), (true, 0, 1))
  | .Y q => localTableau n q ((true, 1, 0), (true, 0, 1))
  | .Z q => localTableau n q ((true, 1, 0), (false, 0, 1))
  | .gate (.SWAP a b) => swapTableau n a b
  | .gate (.H q) => localTableau n q (Gate.H q).images
  | .gate (.S q) => localTableau n q (Gate.S q).images
  | .gate (.SQRT_X q) => localTableau n q (Gate.SQRT_X q).images
  | .gate (.H_YZ q) => localTableau n q (Gate.H_YZ q).images
  | .gate (.C_XYZ q) => localTableau n q (Gate.C_XYZ q).images
  | .gate (.C_ZYX q) => localTableau n q (Gate.C_ZYX q).images

/-- `circuit.to_tableau()` -/
def circuitTableau (n : ℕ) (c : List Instr) : Tableau n :=
  c.foldl (fun T g => T.andThen (g.tableau n)) (Tableau.identity n)

/-- `_get_pauli_circuit` (`/repo/qldpc/circuits.py:370-376`). -/
def pauliStringCircuit {n : ℕ} (op : Fin (n + n) → ZMod 2) : List Instr :=
  let indices (x z : Bool) := ((List.finRange n).filter fun i =>
    decide (xPart op i ≠ 0) == x && decide (zPart op i ≠ 0) == z).map Fin.val
  (indices true false).map Instr.X ++ (indices true true).map Instr.Y ++ (indices false true).map Instr.Z

/-! ## Logical tableaus -/

/-- The bits of an operator on the first `k` qubits. -/
def headBits {n : ℕ} (k : ℕ) (op : Fin (n + n) → ZMod 2) : Fin (k + k) → ZMod 2 :=
  let bit (v : Fin n → ZMod 2) (i : Fin k) : ZMod 2 := if h : i.val < n then v ⟨i, h⟩ else 0
  Fin.append (bit (xPart op)) (bit (zPart op))

/-- The "upper left" block of a tableau (`/repo/qldpc/circuits.py:421-431`). -/
def Tableau.block {n : ℕ} (k : ℕ) (T : Tableau n) : Tableau k where
  xs j := if h : j.val < n then SPauli.signed (SPauli.isMinus (T.xs ⟨j, h⟩)) (headBits k (T.xs ⟨j, h⟩).op) else 1
  zs j := if h : j.val < n then SPauli.signed (SPauli.isMinus (T.zs ⟨j, h⟩)) (headBits k (T.zs ⟨j, h⟩).op) else 1

/-- The assertions of `/repo/qldpc/circuits.py:433-447`. -/
def sectorsOk {n : ℕ} (k g : ℕ) (T : Tableau n) : Bool :=
  let isL (j : Fin n) : Bool := decide (j.val < k)
  let isG (j : Fin n) : Bool := decide (k ≤ j.val ∧ j.val < k + g)
  let isS (j : Fin n) : Bool := decide (k + g ≤ j.val)
  let zero (rows cols : Fin n → Bool) (entry : Fin n → Fin n → ZMod 2) : Bool :=
    decide (∀ i j, rows i = true → cols j = true → entry i j = 0)
  zero (fun _ => true) isS (fun i j => xPart (T.zs i).op j) &&
  zero isL isS (fun i j => xPart (T.xs i).op j) &&
  zero isG isS (fun i j => xPart (T.xs i).op j) &&
  zero isG isL (fun i j => xPart (T.xs i).op j) &&
  zero isG isL (fun i j => zPart (T.xs i).op j) &&
  zero isG isL (fun i j => xPart (T.zs i).op j) &&
  zero isG isL (fun i j => zPart (T.zs i).op j)

/-- `_get_logical_tableau_from_code_data` (`/repo/qldpc/circuits.py:409-449`); `none` if an assertion fails.
`len(encoder) == len(decoder)` (line 417) holds by typing; only `dimension <= n` is tested. -/
def logicalTableau {n : ℕ} (k g : ℕ) (encoder decoder : Tableau n) (circ : List Instr) : Option (Tableau k) :=
  let decoded := (encoder.andThen (circuitTableau n circ)).andThen decoder
  if k ≤ n ∧ sectorsOk k g decoded then some (decoded.block k) else none

/-- The string of `X` on the decoded qubits whose stabilizers (or Z-type gauge operators) change sign
(`/repo/qldpc/circuits.py:291-295`). -/
def decodedCorrection {n : ℕ} (k : ℕ) (decoded : Tableau n) : Fin (n + n) → ZMod 2 :=
  Fin.append (fun j => if k ≤ j.val ∧ SPauli.isMinus (decoded.apply (SPauli.Z j)) then 1 else 0) 0

/-- `_get_transversal_automorphism_data` (`/repo/qldpc/circuits.py:263-304`), given the encoder and the decoder: logical
tableau and physical circuit. -/
def automorphismData {n : ℕ} (k g : ℕ) (encoder decoder : Tableau n) (circ : List Instr) :
    Option (Tableau k × List Instr) :=
  let decoded := (encoder.andThen (circuitTableau n circ)).andThen decoder
  let correction := encoder.apply (SPauli.plus (decodedCorrection k decoded))
  let circ' := pauliStringCircuit correction.op ++ circ
  (logicalTableau k g encoder decoder circ').map fun T => (T, circ')

/-! ## Codes -/

/-- `deformed` (`/repo/qldpc/codes/common.py:1377-1413`); `none` if an exception is raised. -/
def QCode.deformed {n : ℕ} (c : QCode (ZMod 2) n) (circ : List Instr) (preserveLogicals : Bool) : Option (QCode (ZMod 2) n) :=
  let deformString (r : Fin (n + n) → ZMod 2) := ((circuitTableau n circ).apply (SPauli.plus r)).op
  let newCode := QCode.ofMatrix (c.matrix.map deformString) (some c.isSub)
  if preserveLogicals then c.getLogicalOps.bind fun L => (newCode.setLogicalOps L).toOption
  else match c.logicals? with
    | none => some newCode
    | some L => (newCode.setLogicalOps (L.map deformString)).toOption

/-- `deformed` with `preserve_logicals=True` of a `CSSCode`, which inherits the method
(`/repo/qldpc/codes/common.py:1377-1413`): the result is a `QuditCode`. -/
def CssCode.deformed {n : ℕ} (c : CssCode (ZMod 2) n) (circ : List Instr) : Option (QCode (ZMod 2) n) :=
  let deformString (r : Fin (n + n) → ZMod 2) := ((circuitTableau n circ).apply (SPauli.plus r)).op
  let newCode := QCode.ofMatrix ((blockDiag2 c.hx c.hz).map deformString) (some c.isSub)
  c.logicals.bind fun L => (newCode.setLogicalOps (xzRows L)).toOption

/-- `get_encoder_and_decoder` (`/repo/qldpc/circuits.py:396-406`) of a `QuditCode`. -/
def QCode.encoderDecoder {n : ℕ} (c : QCode (ZMod 2) n) (deformation : Option (List Instr)) : Option (Tableau n × Tableau n) :=
  c.encodingTableau.bind fun t => match deformation with
    | none => some (tableauOf t.1 t.2, (tableauOf t.1 t.2).inverse)
    | some circ => (c.deformed circ true).bind fun d => d.encodingTableau.map fun t' =>
      (tableauOf t.1 t.2, (tableauOf t'.1 t'.2).inverse)

/-- `get_encoder_and_decoder` (`/repo/qldpc/circuits.py:396-406`) of a `CSSCode`. -/
def CssCode.encoderDecoder {n : ℕ} (c : CssCode (ZMod 2) n) (deformation : Option (List Instr)) :
    Option (Tableau n × Tableau n) :=
  c.encodingTableau.bind fun t => match deformation with
    | none => some (tableauOf t.1 t.2, (tableauOf t.1 t.2).inverse)
    | some circ => (c.deformed circ).bind fun d => d.encodingTableau.map fun t' =>
      (tableauOf t.1 t.2, (tableauOf t'.1 t'.2).inverse)

/-- `get_logical_tableau` (`/repo/qldpc/circuits.py:379-393`) of a `QuditCode`; `none` if an exception is raised. -/
def QCode.getLogicalTableau {n : ℕ} (c : QCode (ZMod 2) n) (circ : List Instr) (deform : Bool) : Option (Tableau c.dimension) :=
  (c.encoderDecoder (if deform then some circ else none)).bind fun ed =>
    logicalTableau c.dimension c.gaugeDimension ed.1 ed.2 circ

/-- `get_logical_tableau` (`/repo/qldpc/circuits.py:379-393`) of a `CSSCode`. -/
def CssCode.getLogicalTableau {n : ℕ} (c : CssCode (ZMod 2) n) (circ : List Instr) (deform : Bool) :
    Option (Tableau c.dimension) :=
  (c.encoderDecoder (if deform then some circ else none)).bind fun ed =>
    logicalTableau c.dimension c.gaugeDimension ed.1 ed.2 circ

/-- `_get_transversal_automorphism_data` (`/repo/qldpc/circuits.py:263-304`) of a `QuditCode`. -/
def QCode.transversalData {n : ℕ} (c : QCode (ZMod 2) n) (gates : GateSet) (deform : Bool) (σ : ℕ → ℕ) :
    Option (Tableau c.dimension × List Instr) :=
  (automorphismCircuit gates n σ).bind fun circ =>
    (c.encoderDecoder (if deform then some (circ.map Instr.gate) else none)).bind fun ed =>
      automorphismData c.dimension c.gaugeDimension ed.1 ed.2 (circ.map Instr.gate)

/-- `_get_transversal_automorphism_data` (`/repo/qldpc/circuits.py:263-304`) of a `CSSCode`. -/
def CssCode.transversalData {n : ℕ} (c : CssCode (ZMod 2) n) (gates : GateSet) (deform : Bool) (σ : ℕ → ℕ) :
    Option (Tableau c.dimension × List Instr) :=
  (automorphismCircuit gates n σ).bind fun circ =>
    (c.encoderDecoder (if deform then some (circ.map Instr.gate) else none)).bind fun ed =>
      automorphismData c.dimension c.gaugeDimension ed.1 ed.2 (circ.map Instr.gate)

/-! ## Searches -/

/-- `_is_pauli_tableau` (`/repo/qldpc/circuits.py:139-151`). -/
def isPauliTableau {k : ℕ} (T : Tableau k) : Bool :=
  decide (∀ j, (T.xs j).op = (SPauli.X j).op ∧ (T.zs j).op = (SPauli.Z j).op)

/-- `_tableaus_are_equivalent_mod_paulis` (`/repo/qldpc/circuits.py:154-163`). -/
def equivModPaulis {k : ℕ} (T U : Tableau k) : Bool :=
  decide (∀ j, (T.xs j).op = (U.xs j).op ∧ (T.zs j).op = (U.zs j).op)

/-- The loop of `get_transversal_ops` (`/repo/qldpc/circuits.py:120-136`) over the data of the generators. -/
def transversalOps {k : ℕ} (removeRedundancies : Bool) (data : List (Tableau k × List Instr)) :
    List (Tableau k × List Instr) :=
  data.foldl (fun ops d =>
    if !removeRedundancies || !(isPauliTableau d.1 || ops.any fun o => equivModPaulis d.1 o.1) then ops ++ [d] else ops) []

/-- One step of the brute-force search (`/repo/qldpc/circuits.py:493-497`): the data of an automorphism are recorded for
all targets that have no match yet and are equivalent to them. -/
def recordMatches {k : ℕ} (d : Tableau k × List Instr) (targets : List (Tableau k))
    (found : List (Option (Tableau k × List Instr))) : List (Option (Tableau k × List Instr)) :=
  List.zipWith (fun target m => if m.isNone && equivModPaulis target d.1 then some d else m) targets found

/-- The brute-force search of `get_transversal_circuits` (`/repo/qldpc/circuits.py:488-499`) over the automorphisms in the
order of `group_aut.generate()`.  It ends as soon as all targets have a match: the data of later automorphisms are not
computed.  `none` if the computation of data raises. -/
def searchLoop {k : ℕ} (getData : (ℕ → ℕ) → Option (Tableau k × List Instr)) (targets : List (Tableau k)) :
    List (ℕ → ℕ) → List (Option (Tableau k × List Instr)) → Option (List (Option (Tableau k × List Instr)))
  | [], found => some found
  | σ :: auts, found => (getData σ).bind fun d =>
    let found' := recordMatches d targets found
    if found'.any Option.isNone then searchLoop getData targets auts found' else some found'

/-- The logical Pauli correction (`/repo/qldpc/circuits.py:508-516`). -/
def logicalCorrection {n k : ℕ} (LX LZ : Rows (ZMod 2) (n + n)) (target found : Tableau k) : Fin (n + n) → ZMod 2 :=
  ∑ j : Fin k, ((if SPauli.isMinus (target.xs j) ≠ SPauli.isMinus (found.xs j) then LZ.getD j 0 else 0) +
    if SPauli.isMinus (target.zs j) ≠ SPauli.isMinus (found.zs j) then LX.getD j 0 else 0)

/-- Matching circuits with logical Pauli corrections (`/repo/qldpc/circuits.py:502-518`). -/
def correctedCircuits {n k : ℕ} (LX LZ : Rows (ZMod 2) (n + n)) (targets : List (Tableau k))
    (found : List (Option (Tableau k × List Instr))) : List (Option (List Instr)) :=
  List.zipWith (fun target m => m.map fun m => pauliStringCircuit (logicalCorrection LX LZ target m.1) ++ m.2) targets found

/-- `get_transversal_ops` (`/repo/qldpc/circuits.py:101-136`) of a `QuditCode`, for the generators of the group of
automorphisms that GAP or MAGMA returns; `none` if an exception is raised. -/
def QCode.getTransversalOps {n : ℕ} (c : QCode (ZMod 2) n) (gates : GateSet) (deform removeRedundancies : Bool)
    (generators : List (ℕ → ℕ)) : Option (List (Tableau c.dimension × List Instr)) :=
  (generators.mapM (c.transversalData gates deform)).map (transversalOps removeRedundancies)

/-- `get_transversal_ops` (`/repo/qldpc/circuits.py:101-136`) of a `CSSCode`. -/
def CssCode.getTransversalOps {n : ℕ} (c : CssCode (ZMod 2) n) (gates : GateSet) (deform removeRedundancies : Bool)
    (generators : List (ℕ → ℕ)) : Option (List (Tableau c.dimension × List Instr)) :=
  (generators.mapM (c.transversalData gates deform)).map (transversalOps removeRedundancies)

/-- `get_transversal_circuits` (`/repo/qldpc/circuits.py:452-520`) of a `QuditCode`, for the group elements in the order
of `group_aut.generate()`. -/
def QCode.getTransversalCircuits {n : ℕ} (c : QCode (ZMod 2) n) (gates : GateSet) (deform : Bool) (auts : List (ℕ → ℕ))
    (targets : List (Tableau c.dimension)) : Option (List (Option (List Instr))) :=
  (searchLoop (c.transversalData gates deform) targets auts (targets.map fun _ => none)).bind fun found =>
    c.getLogicalOps.map fun L => correctedCircuits (L.take c.dimension) (L.drop c.dimension) targets found

/-- `get_transversal_circuits` (`/repo/qldpc/circuits.py:452-520`) of a `CSSCode`. -/
def CssCode.getTransversalCircuits {n : ℕ} (c : CssCode (ZMod 2) n) (gates : GateSet) (deform : Bool)
    (auts : List (ℕ → ℕ)) (targets : List (Tableau c.dimension)) : Option (List (Option (List Instr))) :=
  (searchLoop (c.transversalData gates deform) targets auts (targets.map fun _ => none)).bind fun found =>
    c.logicals.map fun L =>
      correctedCircuits ((xzRows L).take c.dimension) ((xzRows L).drop c.dimension) targets found

/-- `get_transversal_circuit` (`/repo/qldpc/circuits.py:523-547`) of a `QuditCode`: `[...][0]`; the outer `none` is an
exception. -/
def QCode.getTransversalCircuit {n : ℕ} (c : QCode (ZMod 2) n) (gates : GateSet) (deform : Bool) (auts : List (ℕ → ℕ))
    (target : Tableau c.dimension) : Option (Option (List Instr)) :=
  (c.getTransversalCircuits gates deform auts [target]).bind fun circuits => circuits[0]?

/-- `get_transversal_circuit` (`/repo/qldpc/circuits.py:523-547`) of a `CSSCode`. -/
def CssCode.getTransversalCircuit {n : ℕ} (c : CssCode (ZMod 2) n) (gates : GateSet) (deform : Bool)
    (auts : List (ℕ → ℕ)) (target : Tableau c.dimension) : Option (Option (List Instr)) :=
  (c.getTransversalCircuits gates deform auts [target]).bind fun circuits => circuits[0]?

end QLDPC
