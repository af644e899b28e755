import Verif.Model.Classical
import Mathlib.Data.List.Sort
import Mathlib.Data.Sym.Sym2

/-!
# Classical Tanner codes

`/repo/qldpc/codes/classical.py:184-252`.  Node labels are of type `α`, values of the `"sort"` attribute of
type `κ`; python compares them with `<`, here `lt` on `κ ⊕ α`.
-/

namespace QLDPC

variable {F : Type} [Field F] [DecidableEq F] {n m : ℕ} {α κ : Type} [DecidableEq α]

/-- An `nx.DiGraph`: nodes in insertion order and, for every node, its successors in insertion order with
the `"sort"` attribute of the edge, if any. -/
structure DiGraph (α κ : Type) where
  nodes : List α
  succ : α → List (α × Option κ)

namespace DiGraph

/-- The empty graph. -/
def empty : DiGraph α κ := ⟨[], fun _ => []⟩

/-- Add a node if it is not there. -/
def addNode (g : DiGraph α κ) (a : α) : DiGraph α κ := if a ∈ g.nodes then g else { g with nodes := g.nodes ++ [a] }

/-- `graph.add_edge(a, b)`, then `graph[a][b]["sort"] = s` if `s` is given. -/
def addEdge (g : DiGraph α κ) (a b : α) (s : Option κ) : DiGraph α κ :=
  let g' := (g.addNode a).addNode b
  { g' with succ := fun x =>
      if x = a then
        if b ∈ (g.succ a).map Prod.fst then
          (g.succ a).map fun e => if e.1 = b then (b, s.orElse fun _ => e.2) else e
        else g.succ a ++ [(b, s)]
      else g.succ x }

/-- `[node for node in subgraph if subgraph.in_degree(node) == 0]` (`/repo/qldpc/codes/classical.py:221`). -/
def sources (g : DiGraph α κ) : List α :=
  g.nodes.filter fun v => g.nodes.all fun u => decide (v ∉ (g.succ u).map Prod.fst)

/-- `[node for node in subgraph if subgraph.out_degree(node) == 0]` (`/repo/qldpc/codes/classical.py:222`). -/
def sinks (g : DiGraph α κ) : List α := g.nodes.filter fun v => decide (g.succ v = [])

end DiGraph

/-- `sorted(l, key=key)`: stable; `b` may follow `a` unless `key(b) < key(a)`. -/
def pySorted {β γ : Type} (lt : γ → γ → Bool) (key : β → γ) (l : List β) : List β :=
  l.insertionSort fun a b => lt (key b) (key a) = false

/-- The key of an edge: its `"sort"` attribute, else the neighbor (`/repo/qldpc/codes/classical.py:238`). -/
def edgeKey (e : α × Option κ) : κ ⊕ α := match e.2 with | some s => .inl s | none => .inr e.1

/-- `_get_sorted_neighbors(node)` (`/repo/qldpc/codes/classical.py:234-239`). -/
def sortedNeighbors (lt : κ ⊕ α → κ ⊕ α → Bool) (g : DiGraph α κ) (v : α) : List α :=
  (pySorted lt edgeKey (g.succ v)).map Prod.fst

/-- `[sink_indices[sink] for sink in ...]` (`/repo/qldpc/codes/classical.py:223, 230`); `none` for a
`KeyError`. -/
def sinkIndices (sinks : List α) (l : List α) : Option (List (Fin sinks.length)) :=
  l.mapM fun v => if h : v ∈ sinks then some ⟨sinks.idxOf v, List.idxOf_lt_length_of_mem h⟩ else none

/-- One row of `matrix[np.ix_(checks, bits)] = subcode.matrix` (`/repo/qldpc/codes/classical.py:231`): entry
`bits[j]` becomes entry `j` of the row of the subcode. -/
def scatterRow {N : ℕ} (bits : List (Fin N)) (row : List F) : Fin N → F :=
  (bits.zip row).foldl (fun r p => Function.update r p.1 p.2) 0

/-- `matrix[np.ix_(checks, bits)] = subcode.matrix` for one source; a subcode on one bit is broadcast, any
other difference in shape raises. -/
def scatterBlock {N : ℕ} (bits : List (Fin N)) (sub : Rows F n) : Option (Rows F N) :=
  if bits.length = n then some (sub.map fun r => scatterRow bits (List.ofFn r))
  else if h : n = 1 then
    some (sub.map fun r => scatterRow bits (List.replicate bits.length (r ⟨0, by omega⟩)))
  else none

/-- `TannerCode(subgraph, subcode)` for a directed graph (`/repo/qldpc/codes/classical.py:214-232`). -/
def tannerCode (lt : κ ⊕ α → κ ⊕ α → Bool) (g : DiGraph α κ) (sub : CCode F n) :
    Option (CCode F (pySorted lt Sum.inr g.sinks).length) :=
  ((pySorted lt Sum.inr g.sources).mapM fun v =>
    (sinkIndices (pySorted lt Sum.inr g.sinks) (sortedNeighbors lt g v)).bind fun bits =>
      scatterBlock bits sub.matrix).map fun blocks => CCode.ofMatrix blocks.flatten

/-- `as_directed_subgraph(subgraph)` (`/repo/qldpc/codes/classical.py:241-252`).  `edges` are the edges of the
undirected graph with their `"sort"` attribute, which gives a value at each end; the node of an edge is
`frozenset([node_a, node_b])`, here `s(node_a, node_b)`. -/
def asDirected (edges : List (α × α × Option (α → κ))) : DiGraph (α ⊕ Sym2 α) κ :=
  edges.foldl (fun g e =>
    let edge : α ⊕ Sym2 α := .inr s(e.1, e.2.1)
    (g.addEdge (.inl e.1) edge (e.2.2.map fun f => f e.1)).addEdge (.inl e.2.1) edge
      (e.2.2.map fun f => f e.2.1)) DiGraph.empty

/-- The edges of the undirected graph afterwards: `edge_data.pop("sort", None)`
(`/repo/qldpc/codes/classical.py:249`) removes the attribute from the graph of the caller. -/
def edgesAfter (edges : List (α × α × Option (α → κ))) : List (α × α × Option (α → κ)) :=
  edges.map fun e => (e.1, e.2.1, none)

end QLDPC
