import Verif.Lemmas.Tanner

/-! The directed graph of an undirected graph. -/

set_option linter.unusedSectionVars false

namespace QLDPC

open Spec

variable {F : Type} [Field F] [DecidableEq F] {n m : ℕ} {α κ : Type} [DecidableEq α]

theorem mem_addNode {g : DiGraph α κ} {a x : α} : x ∈ (g.addNode a).nodes ↔ x ∈ g.nodes ∨ x = a := by
  unfold DiGraph.addNode
  split
  · constructor
    · exact Or.inl
    · rintro (h | rfl) <;> assumption
  · simp

theorem nodup_addNode {g : DiGraph α κ} (h : g.nodes.Nodup) (a : α) : (g.addNode a).nodes.Nodup := by
  unfold DiGraph.addNode
  split
  · exact h
  · rename_i hn
    exact List.Nodup.append h (by simp) (by simpa using hn)

theorem mem_addEdge {g : DiGraph α κ} {a b x : α} {s : Option κ} :
    x ∈ (g.addEdge a b s).nodes ↔ x ∈ g.nodes ∨ x = a ∨ x = b := by
  change x ∈ ((g.addNode a).addNode b).nodes ↔ _
  rw [mem_addNode, mem_addNode, or_assoc]

theorem nodup_addEdge {g : DiGraph α κ} (h : g.nodes.Nodup) (a b : α) (s : Option κ) :
    (g.addEdge a b s).nodes.Nodup := nodup_addNode (nodup_addNode h a) b

theorem addEdge_succ_other (g : DiGraph α κ) {a b x : α} (s : Option κ) (h : x ≠ a) :
    (g.addEdge a b s).succ x = g.succ x := by
  unfold DiGraph.addEdge; dsimp only; rw [if_neg h]

theorem addEdge_succ_new (g : DiGraph α κ) {a b : α} (s : Option κ) (h : b ∉ (g.succ a).map Prod.fst) :
    (g.addEdge a b s).succ a = g.succ a ++ [(b, s)] := by
  unfold DiGraph.addEdge; dsimp only; rw [if_pos rfl, if_neg h]

theorem addEdge_succ_again (g : DiGraph α κ) {a b : α} (s : Option κ) {l : List (α × Option κ)}
    (hl : b ∉ l.map Prod.fst) (h : g.succ a = l ++ [(b, s)]) :
    (g.addEdge a b s).succ a = l ++ [(b, s)] := by
  unfold DiGraph.addEdge
  dsimp only
  rw [if_pos rfl, h, if_pos (by simp), List.map_append]
  congr 1
  · refine (List.map_congr_left (g := id) fun d hd => ?_).trans (List.map_id _)
    have hne : d.1 ≠ b := by
      rintro rfl
      exact hl (List.mem_map_of_mem hd)
    rw [if_neg hne]
    rfl
  · cases s <;> simp

/-- the edge of an entry of `subgraph.edges(data=True)` -/
def pairOf (e : α × α × Option (α → κ)) : Sym2 α := s(e.1, e.2.1)

/-- the edges at `v`, with the value of their `"sort"` attribute at `v` -/
def incident (edges : List (α × α × Option (α → κ))) (v : α) : List ((α ⊕ Sym2 α) × Option κ) :=
  (edges.filter fun e => decide (v ∈ pairOf e)).map fun e => (.inr (pairOf e), e.2.2.map fun f => f v)

structure DirectedOf (edges : List (α × α × Option (α → κ))) (g : DiGraph (α ⊕ Sym2 α) κ) : Prop where
  nodup : g.nodes.Nodup
  vertex : ∀ v, Sum.inl v ∈ g.nodes ↔ ∃ e ∈ edges, v ∈ pairOf e
  edge : ∀ p, Sum.inr p ∈ g.nodes ↔ ∃ e ∈ edges, pairOf e = p
  succ_vertex : ∀ v, g.succ (.inl v) = incident edges v
  succ_edge : ∀ p, g.succ (.inr p) = []

theorem incident_append (edges : List (α × α × Option (α → κ))) (e : α × α × Option (α → κ)) (v : α) :
    incident (edges ++ [e]) v = incident edges v ++
      if v ∈ pairOf e then [(.inr (pairOf e), e.2.2.map fun f => f v)] else [] := by
  unfold incident
  rw [List.filter_append, List.map_append]
  congr 1
  by_cases h : v ∈ pairOf e <;> simp [h]

theorem not_mem_incident {edges : List (α × α × Option (α → κ))} {p : Sym2 α} {v : α}
    (h : p ∉ edges.map pairOf) : (Sum.inr p : α ⊕ Sym2 α) ∉ (incident edges v).map Prod.fst := by
  unfold incident
  rw [List.map_map]
  intro hm
  obtain ⟨e, he, hp⟩ := List.mem_map.1 hm
  exact h (List.mem_map.2 ⟨e, (List.mem_filter.1 he).1, Sum.inr.inj hp⟩)

theorem asDirected_spec (edges : List (α × α × Option (α → κ))) (hnd : (edges.map pairOf).Nodup) :
    DirectedOf edges (asDirected edges) := by
  induction edges using List.reverseRecOn with
  | nil => exact ⟨by simp [asDirected, DiGraph.empty], by simp [asDirected, DiGraph.empty],
      by simp [asDirected, DiGraph.empty], fun v => rfl, fun p => rfl⟩
  | append_singleton edges e ih =>
    rw [List.map_append, List.nodup_append] at hnd
    have hp : pairOf e ∉ edges.map pairOf := fun h => hnd.2.2 _ h _ (by simp) rfl
    have h := ih hnd.1
    have hstep : asDirected (edges ++ [e]) =
        ((asDirected edges).addEdge (.inl e.1) (.inr (pairOf e)) (e.2.2.map fun f => f e.1)).addEdge
          (.inl e.2.1) (.inr (pairOf e)) (e.2.2.map fun f => f e.2.1) := by
      unfold asDirected; rw [List.foldl_append]; rfl
    rw [hstep]
    generalize asDirected edges = g at h ⊢
    have hmem : ∀ v, v ∈ pairOf e ↔ v = e.1 ∨ v = e.2.1 := by
      intro v; unfold pairOf; rw [Sym2.mem_iff]
    have hg1 : (g.addEdge (.inl e.1) (.inr (pairOf e)) (e.2.2.map fun f => f e.1)).succ (.inl e.1) =
        incident edges e.1 ++ [(.inr (pairOf e), e.2.2.map fun f => f e.1)] := by
      rw [addEdge_succ_new, h.succ_vertex]
      rw [h.succ_vertex]; exact not_mem_incident hp
    have hg2 : ∀ x, x ≠ Sum.inl e.1 →
        (g.addEdge (.inl e.1) (.inr (pairOf e)) (e.2.2.map fun f => f e.1)).succ x = g.succ x :=
      fun x hx => addEdge_succ_other g _ hx
    have hsucc : ∀ x, ((g.addEdge (.inl e.1) (.inr (pairOf e)) (e.2.2.map fun f => f e.1)).addEdge
          (.inl e.2.1) (.inr (pairOf e)) (e.2.2.map fun f => f e.2.1)).succ x =
        match x with
        | .inl v => incident (edges ++ [e]) v
        | .inr p => [] := by
      intro x
      generalize (g.addEdge (.inl e.1) (.inr (pairOf e)) (e.2.2.map fun f => f e.1)) = g1 at hg1 hg2 ⊢
      by_cases hx : x = .inl e.2.1
      · subst hx
        dsimp only
        rw [incident_append, if_pos ((hmem _).2 (Or.inr rfl))]
        by_cases hab : e.2.1 = e.1
        · exact addEdge_succ_again g1 _ (not_mem_incident hp) (by rw [hab]; exact hg1)
        · have := hg2 (.inl e.2.1) (by simpa using hab)
          rw [h.succ_vertex] at this
          rw [addEdge_succ_new, this]
          rw [this]; exact not_mem_incident hp
      · rw [addEdge_succ_other _ _ hx]
        cases x with
        | inl v =>
          dsimp only
          rw [incident_append]
          by_cases hva : v = e.1
          · subst hva
            rw [hg1, if_pos ((hmem _).2 (Or.inl rfl))]
          · have hvb : v ≠ e.2.1 := fun h => hx (by rw [h])
            rw [hg2 _ (by simpa using hva), if_neg (by rw [hmem]; simp [hva, hvb]), h.succ_vertex,
              List.append_nil]
        | inr p => dsimp only; rw [hg2 _ (by simp), h.succ_edge]
    refine ⟨nodup_addEdge (nodup_addEdge h.nodup _ _ _) _ _ _, fun v => ?_, fun p => ?_, fun v => ?_,
      fun p => ?_⟩
    · rw [mem_addEdge, mem_addEdge, h.vertex]
      simp only [Sum.inl.injEq, reduceCtorEq, or_false, List.mem_append, List.mem_singleton, or_and_right,
        exists_or, exists_eq_left]
      unfold pairOf
      rw [Sym2.mem_iff, or_assoc]
    · rw [mem_addEdge, mem_addEdge, h.edge]
      simp only [Sum.inr.injEq, reduceCtorEq, false_or, List.mem_append, List.mem_singleton, or_and_right,
        exists_or, exists_eq_left, or_assoc, or_self]
      simp only [eq_comm]
    · exact hsucc _
    · exact hsucc _

end QLDPC
