import Verif.Model.Graph
import Verif.Model.Product
import Verif.Model.Symplectic
import Verif.Model.Tanner

/-!
# The hypergraph product of Tanner graphs

`HGPCode.get_graph_product`, `get_sector` and `get_product_node_map`
(`/repo/qldpc/codes/quantum.py:759-840`).
-/

namespace QLDPC

/-- `get_sector(node_a, node_b)` (`/repo/qldpc/codes/quantum.py:809-812`). -/
def sectorOf (w : Node × Node) : ℕ × ℕ := (if w.1.isData then 0 else 1, if w.2.isData then 0 else 1)

/-- `sector in [(0, 0), (1, 1)]` (`/repo/qldpc/codes/quantum.py:774, 832`). -/
def isQuditSector (s : ℕ × ℕ) : Bool := s = (0, 0) || s = (1, 1)

/-- `nx.cartesian_product(graph_a, graph_b).edges(data=True)`: edges of the first graph times nodes of the
second, and nodes of the first times edges of the second, listed by source. -/
def cartesianEdges {δ : Type} (ga gb : TGraph δ) : List (((Node × Node) × (Node × Node)) × δ) :=
  let es := (ga.listEdges.flatMap fun e => gb.nodes.map fun x => (((e.1.1, x), (e.1.2, x)), e.2)) ++
    ga.nodes.flatMap fun x => gb.listEdges.map fun e => (((x, e.1.1), (x, e.1.2)), e.2)
  (ga.nodes.flatMap fun u => gb.nodes.map fun x => (u, x)).flatMap fun w => es.filter fun e => e.1.1 = w

/-- The body of the loop over edges (`/repo/qldpc/codes/quantum.py:768-796`): the check, the qudit and the
operator, as exponents of X and Z. -/
def orientEdge {F : Type} [Zero F] [Neg F] [DecidableEq F] (e : ((Node × Node) × (Node × Node)) × F) :
    ((Node × Node) × (Node × Node)) × (F × F) :=
  let (check, qudit) := if isQuditSector (sectorOf e.1.1) then (e.1.2, e.1.1) else (e.1.1, e.1.2)
  let op : F × F := (e.2, 0)
  let op := if sectorOf check = (0, 1) then (op.2, op.1) else op
  let op := if op.2 ≠ 0 ∧ sectorOf qudit = (0, 0) then (-op.1, -op.2) else op
  ((check, qudit), op)

/-- One step of the loop of `get_product_node_map` (`/repo/qldpc/codes/quantum.py:831-840`): the map so far,
`index_data` and `index_check`. -/
def nodeMapStep (numX num : ℕ) (s : List ((Node × Node) × Node) × ℕ × ℕ) (w : Node × Node) :
    List ((Node × Node) × Node) × ℕ × ℕ :=
  if isQuditSector (sectorOf w) then (s.1 ++ [(w, ⟨(s.2.1 : ℕ), true⟩)], s.2.1 + 1, s.2.2)
  else (s.1 ++ [(w, ⟨((s.2.2 + numX) % num : ℕ), false⟩)], s.2.1, s.2.2 + 1)

/-- `get_product_node_map(nodes_a, nodes_b)` (`/repo/qldpc/codes/quantum.py:814-840`). -/
def productNodeMap (na nb : List Node) : List ((Node × Node) × Node) :=
  let numDataA := na.countP fun v => v.isData
  let numDataB := nb.countP fun v => v.isData
  let numX := (na.length - numDataA) * numDataB
  let numZ := (nb.length - numDataB) * numDataA
  (((pySorted Node.lt id na).flatMap fun a => (pySorted Node.lt id nb).map fun b => (a, b)).foldl
    (nodeMapStep numX (numX + numZ)) ([], 0, 0)).1

/-- `nx.relabel_nodes(graph, mapping)` for a mapping with an entry for every node of the graph; `none` if one
has no entry (`networkx` leaves such a node as it is, a pair of nodes). -/
def relabelNodes {δ : Type} (g : TGraph δ (Node × Node)) (label : Node × Node → Option Node) :
    Option (TGraph δ) := do
  let nodes ← g.nodes.mapM label
  let edges ← g.listEdges.mapM fun e => do
    let a ← label e.1.1
    let b ← label e.1.2
    pure ((a, b), e.2)
  pure (edges.foldl (fun g e => g.updateEdge e.1.1 e.1.2 fun _ => e.2) ⟨nodes.foldl TGraph.insertNode [], []⟩)

variable {F : Type} [Field F] [DecidableEq F]

/-- `get_graph_product(graph_a, graph_b)` (`/repo/qldpc/codes/quantum.py:759-807`) for the graphs of two matrices
over the field of `fi`.  Exponents are elements of the field until the end, where they are given as
integers, as in `matrixToGraphQ`; over the field with two elements they become a `Pauli`. -/
def graphProduct (fi : FieldInts F) (ga gb : TGraph F) : Option (TGraph (ℤ × ℤ)) := do
  let g : TGraph (F × F) (Node × Node) := ((cartesianEdges ga gb).map orientEdge).foldl
    (fun g e => g.updateEdge e.1.1 e.1.2 fun _ => e.2) ⟨[], []⟩
  let map := productNodeMap ga.nodes gb.nodes
  let g ← relabelNodes g fun w => (map.find? fun e => e.1 = w).map Prod.snd
  let g : TGraph (ℤ × ℤ) := ⟨g.nodes, g.edges.map fun e => (e.1, (fi.toInt e.2.1, fi.toInt e.2.2))⟩
  if fi.order = 2 then
    if g.edges.all fun e => (pauliToString e.2).isSome then some g else none
  else some g

end QLDPC
