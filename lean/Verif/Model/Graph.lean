import Verif.Model.Text

/-!
# Tanner graphs

`Node` (`/repo/qldpc/objects.py:155-176`), `matrix_to_graph` and `graph_to_matrix` of `ClassicalCode`
(`/repo/qldpc/codes/common.py:267-294`) and of `QuditCode` (`/repo/qldpc/codes/common.py:779-814`).
-/

namespace QLDPC

/-- `Node(index, is_data)` (`/repo/qldpc/objects.py:155-163`). -/
structure Node where
  index : ℤ
  isData : Bool
deriving DecidableEq

namespace Node

/-- `node < other` (`/repo/qldpc/objects.py:169-171`). -/
def lt (a b : Node) : Bool := if a.isData = b.isData then decide (a.index < b.index) else a.isData

/-- `hash(node)` (`/repo/qldpc/objects.py:166`), given the hash of a tuple. -/
def hash (h : ℤ × Bool → ℤ) (a : Node) : ℤ := h (a.index, a.isData)

end Node

/-- An `nx.DiGraph` with edge data of type `δ`: nodes and edges in order of insertion. -/
structure TGraph (δ : Type) (ν : Type := Node) where
  nodes : List ν
  edges : List ((ν × ν) × δ)

namespace TGraph

variable {δ ν : Type} [DecidableEq ν]

/-- Add a node if it is not there. -/
def insertNode (nodes : List ν) (a : ν) : List ν := if a ∈ nodes then nodes else nodes ++ [a]

/-- `graph.add_edge(a, b)` followed by an update of its data, `f none` if the edge is new. -/
def updateEdge (g : TGraph δ ν) (a b : ν) (f : Option δ → δ) : TGraph δ ν where
  nodes := insertNode (insertNode g.nodes a) b
  edges :=
    if (a, b) ∈ g.edges.map Prod.fst then
      g.edges.map fun e => if e.1 = (a, b) then (e.1, f (some e.2)) else e
    else g.edges ++ [((a, b), f none)]

/-- `graph.edges(data=True)`: by first node in order of insertion, then in order of insertion. -/
def listEdges (g : TGraph δ ν) : List ((ν × ν) × δ) :=
  g.nodes.flatMap fun u => g.edges.filter fun e => e.1.1 = u

end TGraph

/-- A python index into an axis of length `len`; negative indices count from the end, `none` for an
`IndexError`. -/
def pyIndex (len : ℕ) (i : ℤ) : Option ℕ :=
  if 0 ≤ i then (if i < len then some i.toNat else none)
  else if 0 ≤ i + len then some (i + len).toNat else none

/-- `matrix[i, j] = v`. -/
def setEntry {δ : Type} {n : ℕ} (M : List (Fin n → δ)) (i j : ℤ) (v : δ) : Option (List (Fin n → δ)) :=
  match pyIndex M.length i, pyIndex n j with
  | some i, some j =>
    if h : j < n then some (M.modify i fun r => Function.update r ⟨j, h⟩ v) else none
  | _, _ => none

/-- `num_bits`, `num_checks` and the loop over edges of `graph_to_matrix`
(`/repo/qldpc/codes/common.py:288-294, 807-812`), on a matrix filled with `zero`. -/
def assemble {δ : Type} (zero : δ) (g : TGraph δ) : Option (Σ n : ℕ, List (Fin n → δ)) :=
  let numBits := g.nodes.countP fun v => v.isData
  let numChecks := g.nodes.length - numBits
  (g.listEdges.foldlM (fun M e => setEntry M e.1.1.index e.1.2.index e.2)
    (List.replicate numChecks fun _ : Fin numBits => zero)).map fun M => ⟨numBits, M⟩

variable {F : Type} [Field F] [DecidableEq F]

/-- `zip(*np.nonzero(matrix))` with the entries. -/
def nonzeros {n : ℕ} (H : Rows F n) : List (ℕ × ℕ × F) :=
  (H.zipIdx).flatMap fun r => ((List.finRange n).filter fun j => r.1 j ≠ 0).map fun j => (r.2, j.val, r.1 j)

/-- `ClassicalCode.matrix_to_graph` (`/repo/qldpc/codes/common.py:267-283`). -/
def matrixToGraph {n : ℕ} (H : Rows F n) : TGraph F :=
  (nonzeros H).foldl (fun g e => g.updateEdge ⟨e.1, false⟩ ⟨e.2.1, true⟩ fun _ => e.2.2) ⟨[], []⟩

/-- `ClassicalCode.graph_to_matrix` (`/repo/qldpc/codes/common.py:285-294`) over the field of the graph. -/
def graphToMatrix (g : TGraph F) : Option (Σ n : ℕ, Rows F n) := assemble 0 g

/-- `zip(*np.nonzero(matrix))` for `matrix` of shape `(num_checks, 2, num_qudits)`, with the entries. -/
def nonzerosXZ {n : ℕ} (H : Rows F (n + n)) : List (ℕ × Bool × ℕ × F) :=
  (H.zipIdx).flatMap fun r =>
    (((List.finRange n).filter fun j => Spec.xPart r.1 j ≠ 0).map fun j => (r.2, false, j.val, Spec.xPart r.1 j)) ++
    (((List.finRange n).filter fun j => Spec.zPart r.1 j ≠ 0).map fun j => (r.2, true, j.val, Spec.zPart r.1 j))

/-- Add to the X or Z exponent of an operator (`/repo/qldpc/codes/common.py:789-792`). -/
def addXZ (xz : Bool) (v : ℤ) (old : Option (ℤ × ℤ)) : ℤ × ℤ :=
  let old := old.getD (0, 0)
  if xz then (old.1, old.2 + v) else (old.1 + v, old.2)

/-- `QuditCode.matrix_to_graph` (`/repo/qldpc/codes/common.py:779-802`).  Over the field with two elements
the exponents become a `Pauli`, which fails for values other than 0 and 1; the value is kept. -/
def matrixToGraphQ {n : ℕ} (fi : FieldInts F) (H : Rows F (n + n)) : Option (TGraph (ℤ × ℤ)) :=
  let g := (nonzerosXZ H).foldl
    (fun g e => g.updateEdge ⟨e.1, false⟩ ⟨e.2.2.1, true⟩ (addXZ e.2.1 (fi.toInt e.2.2.2))) ⟨[], []⟩
  if fi.order = 2 then
    if g.edges.all fun e => (pauliToString e.2).isSome then some g else none
  else some g

/-- `galois.GF(field)(matrix.reshape(num_checks, 2 * num_qudits))` for one row. -/
def rowToField {n : ℕ} (fi : FieldInts F) (r : Fin n → ℤ × ℤ) : Option (Fin (n + n) → F) :=
  if ∀ j, (fi.ofInt (r j).1).isSome ∧ (fi.ofInt (r j).2).isSome then
    some (Fin.append (fun j => (fi.ofInt (r j).1).getD 0) fun j => (fi.ofInt (r j).2).getD 0)
  else none

/-- `QuditCode.graph_to_matrix` (`/repo/qldpc/codes/common.py:804-814`) over the field of the graph. -/
def graphToMatrixQ (fi : FieldInts F) (g : TGraph (ℤ × ℤ)) : Option (Σ n : ℕ, Rows F (n + n)) :=
  (assemble (0, 0) g).bind fun M => (M.2.mapM (rowToField fi)).map fun R => ⟨M.1, R⟩

end QLDPC
