import Verif.Lemmas.TannerGraph
import Mathlib.Algebra.Field.ZMod

/-!
# Property C34: classical Tanner codes
-/

namespace QLDPC.Props

open QLDPC QLDPC.Spec

set_option linter.unusedSectionVars false

variable {F : Type} [Field F] [DecidableEq F] {n m : ℕ} {α κ : Type} [DecidableEq α]

/-- A graph as networkx keeps it, whose sources all have degree `n` and lead only to sinks. -/
structure HalfRegular (g : DiGraph α κ) (n : ℕ) : Prop where
  simple : ∀ v, ((g.succ v).map Prod.fst).Nodup
  degree : ∀ v ∈ g.sources, (g.succ v).length = n
  bipartite : ∀ v ∈ g.sources, ∀ e ∈ g.succ v, e.1 ∈ g.sinks

/-- `order v` are the outgoing edges of `v`, with strictly increasing sort keys. -/
def SortedEdges (lt : κ ⊕ α → κ ⊕ α → Bool) (g : DiGraph α κ) (order : α → List (α × Option κ)) : Prop :=
  ∀ v ∈ g.sources, (order v).Perm (g.succ v) ∧ (order v).Pairwise fun a b => lt (edgeKey a) (edgeKey b) = true

/-- **C34**: on a half-regular graph the Tanner code can be built, with one bit for each sink. -/
theorem C34_exists (lt : κ ⊕ α → κ ⊕ α → Bool) (g : DiGraph α κ) (sub : CCode F n) (hg : HalfRegular g n) :
    ∃ c, tannerCode lt g sub = some c ∧ (pySorted lt Sum.inr g.sinks).Perm g.sinks := by
  obtain ⟨c, hc⟩ := Option.isSome_iff_exists.1 (tanner_isSome (lt := lt) (sub := sub) hg.degree hg.bipartite)
  exact ⟨c, hc, pySorted_perm _ _ _⟩

/-- **C34**: give the sink `s` the value `x s`.  The result is a word of `TannerCode(G, C)` iff for every
source the values at its neighbours, read in the order of the sort keys, are a word of `C`. -/
theorem C34_words (lt : κ ⊕ α → κ ⊕ α → Bool) (hasym : ∀ x y, lt x y = true → lt y x = false)
    (g : DiGraph α κ) (sub : CCode F n) (hg : HalfRegular g n) (order : α → List (α × Option κ))
    (ho : SortedEdges lt g order) (c) (hc : tannerCode lt g sub = some c) (x : α → F) :
    IsWord c.matrix (fun b => x ((pySorted lt Sum.inr g.sinks).get b)) ↔
      ∀ v ∈ g.sources, ∃ hl : (order v).length = n,
        IsWord sub.matrix fun j => x ((order v).get (Fin.cast hl.symm j)).1 := by
  rw [isWord_tanner hg.simple hg.degree hc]
  refine forall_congr' fun v => forall_congr' fun hv => ?_
  have e : sortedNeighbors lt g v = (order v).map Prod.fst := by
    unfold sortedNeighbors
    rw [pySorted_eq hasym (ho v hv).1 (ho v hv).2]
  have hlo : (order v).length = n := by rw [(ho v hv).1.length_eq]; exact hg.degree v hv
  have hls : (sortedNeighbors lt g v).length = n := by rw [e, List.length_map, hlo]
  have eq : (fun j => x ((sortedNeighbors lt g v).get (Fin.cast hls.symm j)))
      = fun j => x ((order v).get (Fin.cast hlo.symm j)).1 := by
    funext j
    simp [e]
  constructor
  · intro h; exact ⟨hlo, eq ▸ h hls⟩
  · rintro ⟨_, h⟩ _; exact eq ▸ h

/-- **C34**: a bit string determines the values at the sinks, so the theorem above covers all words. -/
theorem C34_all_words (lt : κ ⊕ α → κ ⊕ α → Bool) (g : DiGraph α κ) (hnd : g.nodes.Nodup)
    (w : Fin (pySorted lt Sum.inr g.sinks).length → F) :
    ∃ x : α → F, w = fun b => x ((pySorted lt Sum.inr g.sinks).get b) := by
  have hn : (pySorted lt Sum.inr g.sinks).Nodup :=
    (pySorted_perm _ _ _).nodup_iff.2 (hnd.filter _)
  refine ⟨fun a => entryAt w ((pySorted lt Sum.inr g.sinks).idxOf a), funext fun b => ?_⟩
  have : (pySorted lt Sum.inr g.sinks).idxOf ((pySorted lt Sum.inr g.sinks).get b) = b := by
    simpa using hn.idxOf_getElem b.val b.isLt
  dsimp only
  rw [this]
  unfold entryAt
  rw [dif_pos b.isLt]

/-! ### Undirected graphs -/

/-- The edges of an undirected graph, as networkx keeps it, that meet `v`. -/
def edgesAt (edges : List (α × α × Option (α → κ))) (v : α) : List (α × α × Option (α → κ)) :=
  edges.filter fun e => decide (v = e.1 ∨ v = e.2.1)

theorem incident_eq (edges : List (α × α × Option (α → κ))) (v : α) :
    incident edges v = (edgesAt edges v).map fun e => (.inr s(e.1, e.2.1), e.2.2.map fun f => f v) := by
  unfold incident edgesAt pairOf
  congr 1
  apply List.filter_congr
  intro e _
  simp [Sym2.mem_iff]

section
variable {edges : List (α × α × Option (α → κ))} (hnd : (edges.map fun e => s(e.1, e.2.1)).Nodup)
include hnd

/-- The sources of the directed graph are the vertices of the undirected graph that have an edge. -/
theorem mem_sources (y : α ⊕ Sym2 α) :
    y ∈ (asDirected edges).sources ↔ ∃ v, y = .inl v ∧ edgesAt edges v ≠ [] := by
  have h := asDirected_spec edges hnd
  have hv : ∀ v, edgesAt edges v ≠ [] ↔ ∃ e ∈ edges, v ∈ pairOf e := by
    intro v
    unfold edgesAt pairOf
    rw [Ne, List.filter_eq_nil_iff]
    simp only [Sym2.mem_iff, decide_eq_true_eq, not_forall, not_not, exists_prop]
  unfold DiGraph.sources
  rw [List.mem_filter, List.all_eq_true]
  simp only [decide_eq_true_eq]
  constructor
  · rintro ⟨hy, hin⟩
    cases y with
    | inl v => exact ⟨v, rfl, (hv v).2 ((h.vertex v).1 hy)⟩
    | inr p =>
      exfalso
      obtain ⟨e, he, rfl⟩ := (h.edge p).1 hy
      refine hin (.inl e.1) ((h.vertex _).2 ⟨e, he, by simp [pairOf]⟩) ?_
      rw [h.succ_vertex]
      unfold incident
      rw [List.map_map]
      exact List.mem_map.2 ⟨e, List.mem_filter.2 ⟨he, by simp [pairOf]⟩, rfl⟩
  · rintro ⟨v, rfl, hne⟩
    refine ⟨(h.vertex v).2 ((hv v).1 hne), fun u _ hu => ?_⟩
    cases u with
    | inl u =>
      rw [h.succ_vertex] at hu
      obtain ⟨d, hd, hd'⟩ := List.mem_map.1 hu
      obtain ⟨e, _, rfl⟩ := List.mem_map.1 hd
      exact absurd hd' (by simp)
    | inr p => rw [h.succ_edge] at hu; simp at hu

/-- The sinks of the directed graph are the edges. -/
theorem mem_sinks (y : α ⊕ Sym2 α) :
    y ∈ (asDirected edges).sinks ↔ ∃ e ∈ edges, y = .inr s(e.1, e.2.1) := by
  have h := asDirected_spec edges hnd
  unfold DiGraph.sinks
  rw [List.mem_filter]
  simp only [decide_eq_true_eq]
  constructor
  · rintro ⟨hy, hs⟩
    cases y with
    | inl v =>
      exfalso
      obtain ⟨e, he, hv⟩ := (h.vertex v).1 hy
      rw [h.succ_vertex] at hs
      unfold incident at hs
      rw [List.map_eq_nil_iff, List.filter_eq_nil_iff] at hs
      exact hs e he (by simpa using hv)
    | inr p =>
      obtain ⟨e, he, rfl⟩ := (h.edge p).1 hy
      exact ⟨e, he, rfl⟩
  · rintro ⟨e, he, rfl⟩
    exact ⟨(h.edge _).2 ⟨e, he, rfl⟩, h.succ_edge _⟩

/-- **C34**: a regular undirected graph becomes a half-regular directed graph, with sources the vertices
(that have an edge) and sinks the edges. -/
theorem C34_directed (hreg : ∀ v, edgesAt edges v ≠ [] → (edgesAt edges v).length = n) :
    HalfRegular (asDirected edges) n ∧ (asDirected edges).nodes.Nodup ∧
    (asDirected edges).sinks.Perm (edges.map fun e => .inr s(e.1, e.2.1)) ∧
    (∀ y, y ∈ (asDirected edges).sources ↔ ∃ v, y = .inl v ∧ edgesAt edges v ≠ []) ∧
    (∀ v, (asDirected edges).succ (.inl v) =
      (edgesAt edges v).map fun e => (.inr s(e.1, e.2.1), e.2.2.map fun f => f v)) := by
  have h := asDirected_spec edges hnd
  have hsucc : ∀ v, (asDirected edges).succ (.inl v) =
      (edgesAt edges v).map fun e => (.inr s(e.1, e.2.1), e.2.2.map fun f => f v) := by
    intro v; rw [h.succ_vertex, incident_eq]
  refine ⟨⟨?_, ?_, ?_⟩, h.nodup, ?_, mem_sources hnd, hsucc⟩
  · intro y
    cases y with
    | inl v =>
      rw [hsucc, List.map_map]
      have : ((edgesAt edges v).map fun e => s(e.1, e.2.1)).Nodup :=
        hnd.sublist (List.Sublist.map _ List.filter_sublist)
      have := this.map (f := (Sum.inr : Sym2 α → α ⊕ Sym2 α)) Sum.inr_injective
      rwa [List.map_map] at this
    | inr p => rw [h.succ_edge]; simp
  · intro y hy
    obtain ⟨v, rfl, hne⟩ := (mem_sources hnd y).1 hy
    rw [hsucc, List.length_map]
    exact hreg v hne
  · intro y hy e he
    obtain ⟨v, rfl, hne⟩ := (mem_sources hnd y).1 hy
    rw [hsucc] at he
    obtain ⟨d, hd, rfl⟩ := List.mem_map.1 he
    exact (mem_sinks hnd _).2 ⟨d, (List.mem_filter.1 hd).1, rfl⟩
  · refine (List.perm_ext_iff_of_nodup (l₁ := (asDirected edges).sinks) (h.nodup.filter _) ?_).2 ?_
    rotate_left
    · intro y
      refine (mem_sinks hnd y).trans ?_
      rw [List.mem_map]
      simp only [eq_comm]
    · have := hnd.map (f := (Sum.inr : Sym2 α → α ⊕ Sym2 α)) Sum.inr_injective
      rwa [List.map_map] at this

/-- **C34**, regular undirected graph without `"sort"` attributes: edges are frozensets, which python cannot
order, so they are read in the order in which networkx lists them.  Give the edge `p` the value `x p`.  The
result is a word iff at every vertex the values of its edges are a word of the subcode. -/
theorem C34_undirected (hreg : ∀ v, edgesAt edges v ≠ [] → (edgesAt edges v).length = n)
    (hsort : ∀ e ∈ edges, e.2.2 = none) (lt : κ ⊕ (α ⊕ Sym2 α) → κ ⊕ (α ⊕ Sym2 α) → Bool)
    (hlt : ∀ p q, lt (.inr (.inr p)) (.inr (.inr q)) = false) (sub : CCode F n) (c)
    (hc : tannerCode lt (asDirected edges) sub = some c) (x : Sym2 α → F) :
    IsWord c.matrix (fun b => Sum.elim 0 x ((pySorted lt Sum.inr (asDirected edges).sinks).get b)) ↔
      ∀ v, edgesAt edges v ≠ [] → ∃ hl : (edgesAt edges v).length = n,
        IsWord sub.matrix fun j => x s(((edgesAt edges v).get (Fin.cast hl.symm j)).1,
          ((edgesAt edges v).get (Fin.cast hl.symm j)).2.1) := by
  obtain ⟨hg, _, _, _, hsucc⟩ := C34_directed hnd hreg
  rw [isWord_tanner hg.simple hg.degree hc]
  have e : ∀ v, sortedNeighbors lt (asDirected edges) (.inl v) =
      (edgesAt edges v).map fun e => .inr s(e.1, e.2.1) := by
    intro v
    have hs : pySorted lt edgeKey ((asDirected edges).succ (.inl v)) = (asDirected edges).succ (.inl v) := by
      apply pySorted_eq_self
      rw [hsucc]
      intro a ha b hb
      obtain ⟨d, hd, rfl⟩ := List.mem_map.1 ha
      obtain ⟨d', hd', rfl⟩ := List.mem_map.1 hb
      rw [hsort d (List.mem_filter.1 hd).1, hsort d' (List.mem_filter.1 hd').1]
      exact hlt _ _
    unfold sortedNeighbors
    rw [hs, hsucc, List.map_map]
    rfl
  constructor
  · intro h v hv
    have hl := hreg v hv
    refine ⟨hl, ?_⟩
    have hl' : (sortedNeighbors lt (asDirected edges) (.inl v)).length = n := by rw [e, List.length_map, hl]
    have := h (.inl v) ((mem_sources hnd _).2 ⟨v, rfl, hv⟩) hl'
    simpa [e] using this
  · intro h y hy hl'
    obtain ⟨v, rfl, hv⟩ := (mem_sources hnd y).1 hy
    obtain ⟨hl, hw⟩ := h v hv
    simpa [e] using hw

end

/-! ### Examples -/

/-- comparison of numbers; edges of undirected graphs are not ordered -/
def ltNat : ℕ ⊕ ℕ → ℕ ⊕ ℕ → Bool
  | .inl a, .inl b => decide (a < b)
  | .inr a, .inr b => decide (a < b)
  | _, _ => false

def ltEdges : ℕ ⊕ (ℕ ⊕ Sym2 ℕ) → ℕ ⊕ (ℕ ⊕ Sym2 ℕ) → Bool
  | .inl a, .inl b => decide (a < b)
  | .inr (.inl a), .inr (.inl b) => decide (a < b)
  | _, _ => false

/-- two sources, three sinks, one edge order turned round -/
def bowtie : DiGraph ℕ ℕ :=
  (((DiGraph.empty.addEdge 0 10 (some 2)).addEdge 0 11 (some 1)).addEdge 1 12 none).addEdge 1 11 none

def pairCode : CCode (ZMod 3) 2 := CCode.ofMatrix [![1, 2]]

example : HalfRegular bowtie 2 := by
  refine ⟨fun v => ?_, by decide +kernel, by decide +kernel⟩
  by_cases h0 : v = 0
  · subst h0; decide +kernel
  by_cases h1 : v = 1
  · subst h1; decide +kernel
  · have : bowtie.succ v = [] := by simp [bowtie, DiGraph.addEdge, DiGraph.empty, DiGraph.addNode, h0, h1]
    rw [this]; simp

example : SortedEdges ltNat bowtie fun v => if v = 0 then [(11, some 1), (10, some 2)] else [(11, none), (12, none)] := by
  unfold SortedEdges; decide +kernel

example : ∀ x y, ltNat x y = true → ltNat y x = false := by
  rintro (a | a) (b | b) <;> simp [ltNat] <;> omega

example : (tannerCode ltNat bowtie pairCode).map (fun c => c.matrix.map List.ofFn) =
    some [[2, 1, 0], [0, 1, 2]] := by decide +kernel

/-- a triangle whose edges carry `"sort"` attributes -/
def triangle : List (ℕ × ℕ × Option (ℕ → ℕ)) :=
  [(0, 1, some fun v => v), (1, 2, some fun v => if v = 1 then 0 else 1), (0, 2, some fun v => if v = 2 then 0 else 1)]

example : (triangle.map fun e => s(e.1, e.2.1)).Nodup := by decide +kernel
example : ∀ v, edgesAt triangle v ≠ [] → (edgesAt triangle v).length = 2 := by
  intro v hv
  by_cases h0 : v = 0
  · subst h0; decide +kernel
  by_cases h1 : v = 1
  · subst h1; decide +kernel
  by_cases h2 : v = 2
  · subst h2; decide +kernel
  · exact absurd (by simp [edgesAt, triangle, h0, h1, h2]) hv

def firstCode : CCode (ZMod 3) 2 := CCode.ofMatrix [![1, 0]]

/-- **C34**: building the code removes the `"sort"` attributes from the graph that was passed
(`edge_data.pop`), so building it again from the same graph gives another code. -/
theorem C34_again_disagreement :
    (tannerCode ltEdges (asDirected triangle) firstCode).map (fun c => c.matrix.map List.ofFn) =
      some [[1, 0, 0], [0, 1, 0], [0, 0, 1]] ∧
    (tannerCode ltEdges (asDirected (edgesAfter triangle)) firstCode).map (fun c => c.matrix.map List.ofFn) =
      some [[1, 0, 0], [1, 0, 0], [0, 1, 0]] := by
  constructor <;> decide +kernel

#print axioms C34_exists
#print axioms C34_words
#print axioms C34_all_words
#print axioms C34_directed
#print axioms C34_undirected
#print axioms C34_again_disagreement

/-! ### Instances of the theorems: concrete cases meet the hypotheses -/

private theorem bowtie_regular : HalfRegular bowtie 2 := by
  refine ⟨fun v => ?_, by decide +kernel, by decide +kernel⟩
  by_cases h0 : v = 0
  · subst h0; decide +kernel
  by_cases h1 : v = 1
  · subst h1; decide +kernel
  · have : bowtie.succ v = [] := by simp [bowtie, DiGraph.addEdge, DiGraph.empty, DiGraph.addNode, h0, h1]
    rw [this]; simp
example := C34_exists ltNat bowtie pairCode bowtie_regular
example : True := by
  obtain ⟨c, hc⟩ := Option.isSome_iff_exists.1 (show (tannerCode ltNat bowtie pairCode).isSome = true by decide +kernel)
  have h := C34_words ltNat (by rintro (a | a) (b | b) <;> simp [ltNat] <;> omega) bowtie pairCode bowtie_regular
    (fun v => if v = 0 then [(11, some 1), (10, some 2)] else [(11, none), (12, none)]) (by unfold SortedEdges; decide +kernel) c hc
  trivial
example := C34_all_words (F := ZMod 3) ltNat bowtie (by decide +kernel)
private theorem triangle_regular : ∀ v, edgesAt triangle v ≠ [] → (edgesAt triangle v).length = 2 := by
  intro v hv
  by_cases h0 : v = 0
  · subst h0; decide +kernel
  by_cases h1 : v = 1
  · subst h1; decide +kernel
  by_cases h2 : v = 2
  · subst h2; decide +kernel
  · exact absurd (by simp [edgesAt, triangle, h0, h1, h2]) hv
example := C34_directed (edges := triangle) (by decide +kernel) triangle_regular

private def plainTriangle : List (ℕ × ℕ × Option (ℕ → ℕ)) := [(0, 1, none), (1, 2, none), (0, 2, none)]
private theorem plainTriangle_regular : ∀ v, edgesAt plainTriangle v ≠ [] → (edgesAt plainTriangle v).length = 2 := by
  intro v hv
  by_cases h0 : v = 0
  · subst h0; decide +kernel
  by_cases h1 : v = 1
  · subst h1; decide +kernel
  by_cases h2 : v = 2
  · subst h2; decide +kernel
  · exact absurd (by simp [edgesAt, plainTriangle, h0, h1, h2]) hv
example (x : Sym2 ℕ → ZMod 3) : True := by
  obtain ⟨c, hc⟩ := Option.isSome_iff_exists.1 (show (tannerCode (fun _ _ => false) (asDirected plainTriangle) (CCode.ofMatrix ([![1, 2]] : Rows (ZMod 3) 2))).isSome = true by decide +kernel)
  have h := C34_undirected (by decide +kernel) plainTriangle_regular (by decide +kernel) _ (fun _ _ => rfl) _ c hc x
  trivial

end QLDPC.Props
