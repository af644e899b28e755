import Verif.Model.Tanner
import Mathlib.Algebra.Group.Prod
import Mathlib.Algebra.Group.TypeTags.Basic
import Mathlib.Data.ZMod.Basic
import Mathlib.Data.Finset.Insert

/-!
# Cayley complexes and quantum Tanner codes

`/repo/qldpc/objects.py:182-349` and `/repo/qldpc/codes/quantum.py:1074-1221`.  Members of a group are elements of an abstract
group with decidable equality; `lt` is the order of `GroupMember.__lt__`.  Python sets are lists without repetition, in the
order in which python iterates over them.
-/

namespace QLDPC

/-! ### Cayley complexes -/

section Complex

variable {G : Type} [Group G] [DecidableEq G]

/-- The check that a generating subset is symmetric (`/repo/qldpc/objects.py:258-266`). -/
def isSymmetric (S : List G) : Bool := S.all fun g => decide (g⁻¹ ∈ S)

/-- `satisfies_total_no_conjugacy` (`/repo/qldpc/objects.py:339-349`); `members` are the members of the group generated by both
subsets. -/
def totalNoConjugacy (members A B : List G) : Bool :=
  members.all fun g => A.all fun a => B.all fun b => decide (a * g ≠ g * b)

/-- The checks of `CayleyComplex.__init__` (`/repo/qldpc/objects.py:252-280`). -/
def complexAccepted (members A B : List G) (bipartite : Bool) : Bool :=
  isSymmetric A && isSymmetric B && (!bipartite || totalNoConjugacy members A B)

/-- The group with two elements, `CyclicGroup(2)`. -/
abbrev Two : Type := Multiplicative (ZMod 2)

/-- The element `shift` of `CyclicGroup(2)`. -/
def shift : Two := Multiplicative.ofAdd 1

/-- `cover_subset_a`, `cover_subset_b` for a bipartite complex (`/repo/qldpc/objects.py:287-301`). -/
def coverBi (S : List G) : List (G × Two) := S.map fun a => (a, shift)

/-- `cover_subset_a` for a quadripartite complex (`/repo/qldpc/objects.py:287-293`). -/
def coverQuadA (S : List G) : List (G × Two × Two) := S.map fun a => (a, shift, 1)

/-- `cover_subset_b` for a quadripartite complex (`/repo/qldpc/objects.py:295-301`). -/
def coverQuadB (S : List G) : List (G × Two × Two) := S.map fun b => (b, 1, shift)

end Complex

/-! ### Quantum Tanner codes -/

section QT

variable {H : Type} [Group H] [DecidableEq H] {F : Type} [Field F] [DecidableEq F] {n m : ℕ}

/-- `face = frozenset([gg, aa_gg, gg_bb, aa_gg_bb])` (`/repo/qldpc/codes/quantum.py:1212-1214`). -/
def qtFace (g a b : H) : Finset H := {g, a * g, g * b, a * g * b}

/-- The graphs of a quantum Tanner code: the nodes are members of the group and faces, the `"sort"` attributes pairs of
members. -/
abbrev QTGraph (H : Type) := DiGraph (H ⊕ Finset H) (H × H)

/-- The faces next to one node (`/repo/qldpc/codes/quantum.py:1210-1217`). -/
def addFaces (A B : List H) (gs : QTGraph H × QTGraph H) (g : H) : QTGraph H × QTGraph H :=
  (A.product B).foldl (fun gs p =>
    (gs.1.addEdge (.inl g) (.inr (qtFace g p.1 p.2)) (some p),
      gs.2.addEdge (.inl (p.1 * g)) (.inr (qtFace g p.1 p.2)) (some (p.1⁻¹, p.2)))) gs

/-- `node in graph.nodes()`. -/
def hasNode {α κ : Type} [DecidableEq α] (g : DiGraph α κ) (v : α) : Bool := decide (v ∈ g.nodes)

/-- The loop of `get_subgraphs` (`/repo/qldpc/codes/quantum.py:1200-1221`).  `nodes_to_add.pop()` takes any member of the set;
`pick` stands for its choices.  The result is `none` if the loop has not ended after `fuel` rounds. -/
def subgraphLoop (A B : List H) (pick : ℕ → ℕ) : ℕ → List H → QTGraph H × QTGraph H → Option (QTGraph H × QTGraph H)
  | 0, _, _ => none
  | _ + 1, [], gs => some gs
  | fuel + 1, p :: ps, gs =>
    let g := (p :: ps).getD (pick fuel % (p :: ps).length) p
    let new := ((A.product B).map fun q => q.1 * g * q.2).filter fun h => !hasNode gs.1 (.inl h)
    subgraphLoop A B pick fuel (new ∪ (p :: ps).erase g) (addFaces A B gs g)

/-- `get_subgraphs` (`/repo/qldpc/codes/quantum.py:1166-1221`); `next(iter(subset_a))` raises for an empty subset. -/
def qtSubgraphs (A B : List H) (pick : ℕ → ℕ) (fuel : ℕ) : Option (QTGraph H × QTGraph H) :=
  match A with
  | [] => none
  | a :: _ => subgraphLoop A B pick fuel [a * a⁻¹] (DiGraph.empty, DiGraph.empty)

/-- The order that python's `sorted` uses: tuples of members lexicographically, members by `__lt__`, frozensets by proper
inclusion.  Other comparisons do not occur. -/
def qtLt (lt : H → H → Bool) : (H × H) ⊕ (H ⊕ Finset H) → (H × H) ⊕ (H ⊕ Finset H) → Bool
  | .inl p, .inl q => if p.1 = q.1 then lt p.2 q.2 else lt p.1 q.1
  | .inr (.inl g), .inr (.inl h) => lt g h
  | .inr (.inr f), .inr (.inr f') => decide (f ⊂ f')
  | _, _ => false

/-- `get_subcodes` and the parity check matrices (`/repo/qldpc/codes/quantum.py:1139-1163`); the constructor of `CSSCode`
raises if the two codes have different lengths. -/
def qtCode (lt : H → H → Bool) (A B : List H) (pick : ℕ → ℕ) (fuel : ℕ) (codeA : CCode F n) (codeB : CCode F m) :
    Option (Σ N : ℕ, Rows F N × Rows F N) :=
  match qtSubgraphs A B pick fuel with
  | none => none
  | some (gx, gz) =>
    match tannerCode (qtLt lt) gx (codeA.tensorProduct codeB).dual, tannerCode (qtLt lt) gz (codeA.dual.tensorProduct codeB.dual).dual with
    | some cx, some cz =>
      if h : (pySorted (qtLt lt) Sum.inr gz.sinks).length = (pySorted (qtLt lt) Sum.inr gx.sinks).length then
        some ⟨_, cx.matrix, cz.matrix.map fun r j => r (j.cast h.symm)⟩
      else none
    | _, _ => none

end QT

/-- `QTCode(subset_a, subset_b, code_a, code_b, bipartite=True)` (`/repo/qldpc/codes/quantum.py:1112-1141`). -/
def qtCodeBi {G : Type} [Group G] [DecidableEq G] {F : Type} [Field F] [DecidableEq F] {n m : ℕ} (members : List G)
    (lt : G × Two → G × Two → Bool) (A B : List G) (pick : ℕ → ℕ) (fuel : ℕ) (codeA : CCode F n) (codeB : CCode F m) :
    Option (Σ N : ℕ, Rows F N × Rows F N) :=
  if complexAccepted members A B true then qtCode lt (coverBi A) (coverBi B) pick fuel codeA codeB else none

/-- `QTCode(subset_a, subset_b, code_a, code_b)` (`/repo/qldpc/codes/quantum.py:1112-1141`). -/
def qtCodeQuad {G : Type} [Group G] [DecidableEq G] {F : Type} [Field F] [DecidableEq F] {n m : ℕ} (members : List G)
    (lt : G × Two × Two → G × Two × Two → Bool) (A B : List G) (pick : ℕ → ℕ) (fuel : ℕ) (codeA : CCode F n)
    (codeB : CCode F m) : Option (Σ N : ℕ, Rows F N × Rows F N) :=
  if complexAccepted members A B false then qtCode lt (coverQuadA A) (coverQuadB B) pick fuel codeA codeB else none

end QLDPC
