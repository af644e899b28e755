import Verif.Model.QuantumTanner
import Verif.Lemmas.TannerGraph
import Verif.Lemmas.Classical

/-!
# Lemmas on quantum Tanner codes
-/

namespace QLDPC

open Spec

/-! ### Graphs built from a list of edges -/

section Build

variable {α κ : Type} [DecidableEq α]

/-- The graph with the given edges. -/
def buildEdges (E : List (α × α × κ)) : DiGraph α κ := E.foldl (fun g e => g.addEdge e.1 e.2.1 (some e.2.2)) DiGraph.empty

theorem buildEdges_append (E : List (α × α × κ)) (e : α × α × κ) :
    buildEdges (E ++ [e]) = (buildEdges E).addEdge e.1 e.2.1 (some e.2.2) := by
  simp [buildEdges, List.foldl_append]

theorem nodes_buildEdges (E : List (α × α × κ)) :
    (buildEdges E).nodes.Nodup ∧ ∀ x, x ∈ (buildEdges E).nodes ↔ ∃ e ∈ E, x = e.1 ∨ x = e.2.1 := by
  induction E using List.reverseRecOn with
  | nil => exact ⟨by simp [buildEdges, DiGraph.empty], by simp [buildEdges, DiGraph.empty]⟩
  | append_singleton E e ih =>
    rw [buildEdges_append]
    refine ⟨nodup_addEdge ih.1 _ _ _, fun x => ?_⟩
    rw [mem_addEdge, ih.2]
    constructor
    · rintro (⟨e', he', h⟩ | h)
      · exact ⟨e', by simp [he'], h⟩
      · exact ⟨e, by simp, h⟩
    · rintro ⟨e', he', h⟩
      rcases List.mem_append.1 he' with he' | he'
      · exact Or.inl ⟨e', he', h⟩
      · rw [List.mem_singleton] at he'
        subst he'
        exact Or.inr h

theorem succ_buildEdges (E : List (α × α × κ)) (hE : (E.map fun e => (e.1, e.2.1)).Nodup) (v : α) :
    (buildEdges E).succ v = (E.filter fun e => e.1 = v).map fun e => (e.2.1, some e.2.2) := by
  induction E using List.reverseRecOn with
  | nil => rfl
  | append_singleton E e ih =>
    rw [List.map_append, List.nodup_append] at hE
    rw [buildEdges_append, List.filter_append, List.map_append]
    by_cases hv : e.1 = v
    · subst hv
      rw [addEdge_succ_new, ih hE.1]
      · simp
      · rw [ih hE.1, List.map_map]
        intro hm
        obtain ⟨e', he', h⟩ := List.mem_map.1 hm
        obtain ⟨h1, h2⟩ := List.mem_filter.1 he'
        refine hE.2.2 (e'.1, e'.2.1) (List.mem_map.2 ⟨e', h1, rfl⟩) (e.1, e.2.1) (by simp) ?_
        rw [of_decide_eq_true h2]
        simp only [Function.comp_apply] at h
        rw [h]
    · rw [addEdge_succ_other _ _ (fun h => hv h.symm), ih hE.1]
      simp [hv]

theorem simple_buildEdges (E : List (α × α × κ)) (hE : (E.map fun e => (e.1, e.2.1)).Nodup) (v : α) :
    (((buildEdges E).succ v).map Prod.fst).Nodup := by
  rw [succ_buildEdges E hE, List.map_map]
  have h := (List.Sublist.map (fun e => (e.1, e.2.1)) (List.filter_sublist (p := fun e => decide (e.1 = v)) (l := E))).nodup hE
  refine List.Nodup.map_on ?_ (List.Nodup.of_map _ h)
  intro x hx y hy hxy
  refine List.inj_on_of_nodup_map h hx hy ?_
  have h1 := of_decide_eq_true (List.mem_filter.1 hx).2
  have h2 := of_decide_eq_true (List.mem_filter.1 hy).2
  simp only [Function.comp_apply] at hxy
  rw [h1, h2, hxy]

end Build

section Bipartite

variable {α β κ : Type} [DecidableEq α] [DecidableEq β]

local instance : BEq (α ⊕ β) := instBEqOfDecidableEq

/-- The edges of a bipartite graph. -/
def biEdges (E : List (α × β × κ)) : List ((α ⊕ β) × (α ⊕ β) × κ) := E.map fun e => (.inl e.1, .inr e.2.1, e.2.2)

theorem nodup_biEdges {E : List (α × β × κ)} (hE : (E.map fun e => (e.1, e.2.1)).Nodup) :
    ((biEdges E).map fun e => (e.1, e.2.1)).Nodup := by
  unfold biEdges
  rw [List.map_map]
  refine List.Nodup.map_on ?_ (List.Nodup.of_map _ hE)
  intro x hx y hy hxy
  refine List.inj_on_of_nodup_map hE hx hy ?_
  simp only [Function.comp_apply, Prod.mk.injEq, Sum.inl.injEq, Sum.inr.injEq] at hxy
  rw [hxy.1, hxy.2]

theorem succ_biEdges {E : List (α × β × κ)} (hE : (E.map fun e => (e.1, e.2.1)).Nodup) :
    (∀ g, (buildEdges (biEdges E)).succ (.inl g) = (E.filter fun e => e.1 = g).map fun e => (.inr e.2.1, some e.2.2)) ∧
    ∀ f, (buildEdges (biEdges E)).succ (.inr f) = [] := by
  constructor
  · intro g
    rw [succ_buildEdges _ (nodup_biEdges hE)]
    unfold biEdges
    rw [List.filter_map, List.map_map]
    simp [Function.comp_def]
  · intro f
    rw [succ_buildEdges _ (nodup_biEdges hE)]
    unfold biEdges
    rw [List.filter_map, List.map_map]
    simp [Function.comp_def]

/-- The second half of the nodes in the order of their first appearance. -/
def rightNodes (T : List β) : List (α ⊕ β) := T.foldl (fun l t => if Sum.inr t ∈ l then l else l ++ [Sum.inr t]) []

theorem filter_addNode_left (g : DiGraph (α ⊕ β) κ) (a : α) :
    (g.addNode (.inl a)).nodes.filter Sum.isRight = g.nodes.filter Sum.isRight := by
  unfold DiGraph.addNode
  split <;> simp

theorem filter_addNode_right (g : DiGraph (α ⊕ β) κ) (b : β) :
    (g.addNode (.inr b)).nodes.filter Sum.isRight =
      if Sum.inr b ∈ g.nodes.filter Sum.isRight then g.nodes.filter Sum.isRight else g.nodes.filter Sum.isRight ++ [Sum.inr b] := by
  unfold DiGraph.addNode
  by_cases h : (Sum.inr b : α ⊕ β) ∈ g.nodes
  · rw [if_pos h, if_pos (List.mem_filter.2 ⟨h, rfl⟩)]
  · rw [if_neg h, if_neg (fun hc => h (List.mem_filter.1 hc).1)]
    simp

theorem filter_buildEdges (E : List (α × β × κ)) :
    (buildEdges (biEdges E)).nodes.filter Sum.isRight = rightNodes (E.map fun e => e.2.1) := by
  induction E using List.reverseRecOn with
  | nil => rfl
  | append_singleton E e ih =>
    have : biEdges (E ++ [e]) = biEdges E ++ [(.inl e.1, .inr e.2.1, e.2.2)] := by simp [biEdges]
    rw [this, buildEdges_append, List.map_append]
    unfold rightNodes at ih ⊢
    rw [List.foldl_append, ← ih]
    change (((buildEdges (biEdges E)).addNode (.inl e.1)).addNode (.inr e.2.1)).nodes.filter Sum.isRight = _
    rw [filter_addNode_right, filter_addNode_left]
    rfl

/-- Sinks and sources of such a graph. -/
theorem sinks_biEdges {E : List (α × β × κ)} (hE : (E.map fun e => (e.1, e.2.1)).Nodup) :
    (buildEdges (biEdges E)).sinks = rightNodes (E.map fun e => e.2.1) := by
  rw [← filter_buildEdges]
  unfold DiGraph.sinks
  refine List.filter_congr fun v hv => ?_
  cases v with
  | inl g =>
    rw [(succ_biEdges hE).1]
    obtain ⟨e, he, h⟩ := (nodes_buildEdges (biEdges E)).2 (.inl g) |>.1 hv
    obtain ⟨e', he', rfl⟩ := List.mem_map.1 he
    simp only [Sum.inl.injEq, reduceCtorEq, or_false] at h
    have : e' ∈ E.filter fun e => decide (e.1 = g) := List.mem_filter.2 ⟨he', by simp [h]⟩
    have hne : (E.filter fun e => decide (e.1 = g)) ≠ [] := List.ne_nil_of_mem this
    exact decide_eq_false (by rw [List.map_eq_nil_iff]; exact hne)
  | inr f =>
    rw [(succ_biEdges hE).2]
    rfl

theorem sources_biEdges {E : List (α × β × κ)} (hE : (E.map fun e => (e.1, e.2.1)).Nodup) {v : α ⊕ β}
    (hv : v ∈ (buildEdges (biEdges E)).sources) : ∃ e ∈ E, v = .inl e.1 := by
  unfold DiGraph.sources at hv
  obtain ⟨h1, h2⟩ := List.mem_filter.1 hv
  obtain ⟨e, he, h⟩ := (nodes_buildEdges (biEdges E)).2 v |>.1 h1
  obtain ⟨e', he', rfl⟩ := List.mem_map.1 he
  rcases h with h | h
  · exact ⟨e', he', h⟩
  · exfalso
    rw [List.all_eq_true] at h2
    have := of_decide_eq_true (h2 (.inl e'.1) ((nodes_buildEdges (biEdges E)).2 _ |>.2 ⟨_, he, Or.inl rfl⟩))
    apply this
    rw [(succ_biEdges hE).1, List.map_map, h]
    exact List.mem_map.2 ⟨e', List.mem_filter.2 ⟨he', by simp⟩, rfl⟩

theorem mem_sources_biEdges {E : List (α × β × κ)} (hE : (E.map fun e => (e.1, e.2.1)).Nodup) {e : α × β × κ} (he : e ∈ E) :
    (.inl e.1 : α ⊕ β) ∈ (buildEdges (biEdges E)).sources := by
  unfold DiGraph.sources
  rw [List.mem_filter, List.all_eq_true]
  refine ⟨(nodes_buildEdges _).2 _ |>.2 ⟨_, List.mem_map.2 ⟨e, he, rfl⟩, Or.inl rfl⟩, fun u _ => ?_⟩
  refine decide_eq_true ?_
  cases u with
  | inl g =>
    rw [(succ_biEdges hE).1, List.map_map]
    intro hc
    obtain ⟨d, -, hd⟩ := List.mem_map.1 hc
    cases hd
  | inr f => rw [(succ_biEdges hE).2]; simp

theorem mem_rightNodes (T : List β) : ((rightNodes T : List (α ⊕ β)).Nodup) ∧ ∀ x : α ⊕ β, x ∈ rightNodes T ↔ ∃ t ∈ T, x = .inr t := by
  unfold rightNodes
  induction T using List.reverseRecOn with
  | nil => simp
  | append_singleton T t ih =>
    rw [List.foldl_append, List.foldl_cons, List.foldl_nil]
    split_ifs with h
    · refine ⟨ih.1, fun x => ?_⟩
      rw [ih.2]
      constructor
      · rintro ⟨t', ht', rfl⟩; exact ⟨t', by simp [ht'], rfl⟩
      · rintro ⟨t', ht', rfl⟩
        rcases List.mem_append.1 ht' with h' | h'
        · exact ⟨t', h', rfl⟩
        · rw [List.mem_singleton.1 h']; exact (ih.2 _).1 h
    · refine ⟨List.Nodup.append ih.1 (by simp) (by simpa using h), fun x => ?_⟩
      rw [List.mem_append, ih.2, List.mem_singleton]
      constructor
      · rintro (⟨t', ht', rfl⟩ | rfl)
        · exact ⟨t', by simp [ht'], rfl⟩
        · exact ⟨t, by simp, rfl⟩
      · rintro ⟨t', ht', rfl⟩
        rcases List.mem_append.1 ht' with h' | h'
        · exact Or.inl ⟨t', h', rfl⟩
        · rw [List.mem_singleton.1 h']; exact Or.inr rfl

end Bipartite

/-! ### Rows of a Tanner code -/

section Rows

variable {F : Type} [Field F] [DecidableEq F] {n m : ℕ} {α κ : Type} [DecidableEq α]

theorem tanner_rows {lt : κ ⊕ α → κ ⊕ α → Bool} {g : DiGraph α κ} {sub : CCode F n}
    (hnd : ∀ v, ((g.succ v).map Prod.fst).Nodup) (hreg : ∀ v ∈ g.sources, (g.succ v).length = n)
    {c} (hc : tannerCode lt g sub = some c) {r} (hr : r ∈ c.matrix) :
    ∃ v ∈ g.sources, ∃ s ∈ sub.matrix, ∃ hl : (sortedNeighbors lt g v).length = n, ∀ x : α → F,
      ∑ b, r b * x ((pySorted lt Sum.inr g.sinks).get b) =
        ∑ j : Fin n, s j * x ((sortedNeighbors lt g v).get (Fin.cast hl.symm j)) := by
  unfold tannerCode at hc
  rw [Option.map_eq_some_iff] at hc
  obtain ⟨blocks, hb, rfl⟩ := hc
  rw [mapM_some_iff] at hb
  obtain ⟨b, hb', hrb⟩ := List.mem_flatten.1 (show r ∈ blocks.flatten from hr)
  obtain ⟨v, hv, hvb⟩ := forall₂_right hb b hb'
  have hv' := (pySorted_perm _ _ _).mem_iff.1 hv
  rw [Option.bind_eq_some_iff] at hvb
  obtain ⟨bits, h1, h2⟩ := hvb
  have hs := sinkIndices_spec h1
  have hlen : (sortedNeighbors lt g v).length = n := by
    rw [(sortedNeighbors_perm lt g v).length_eq, List.length_map]; exact hreg v hv'
  have hbl : bits.length = n := by rw [← hlen, ← hs, List.length_map]
  have hbn : bits.Nodup := by
    apply List.Nodup.of_map (pySorted lt Sum.inr g.sinks).get
    rw [hs]
    exact (sortedNeighbors_perm lt g v).nodup_iff.2 (hnd v)
  unfold scatterBlock at h2
  rw [if_pos hbl] at h2
  cases h2
  obtain ⟨s, hsm, rfl⟩ := List.mem_map.1 hrb
  refine ⟨v, hv', s, hsm, hlen, fun x => ?_⟩
  rw [sum_scatterRow _ hbn s hbl]
  refine Finset.sum_congr rfl fun j _ => ?_
  congr 2
  simp only [← hs, List.get_eq_getElem, List.getElem_map, Fin.val_cast]

end Rows

/-! ### The loop over nodes -/

section Loop

variable {H : Type} [Group H] [DecidableEq H]

/-- The edges that `get_subgraphs` adds for the nodes `P`. -/
def edgesX (A B P : List H) : List (H × Finset H × (H × H)) :=
  P.flatMap fun g => (A.product B).map fun p => (g, qtFace g p.1 p.2, p)

/-- The edges that `get_subgraphs` adds for the nodes `P`. -/
def edgesZ (A B P : List H) : List (H × Finset H × (H × H)) :=
  P.flatMap fun g => (A.product B).map fun p => (p.1 * g, qtFace g p.1 p.2, (p.1⁻¹, p.2))

theorem foldl_addFaces (A B P : List H) : P.foldl (addFaces A B) (DiGraph.empty, DiGraph.empty) =
    (buildEdges (biEdges (edgesX A B P)), buildEdges (biEdges (edgesZ A B P))) := by
  have inner : ∀ (l : List (H × H)) (g : H) (E E' : List (H × Finset H × (H × H))),
      l.foldl (fun gs p =>
        (gs.1.addEdge (.inl g) (.inr (qtFace g p.1 p.2)) (some p),
          gs.2.addEdge (.inl (p.1 * g)) (.inr (qtFace g p.1 p.2)) (some (p.1⁻¹, p.2))))
        ((buildEdges (biEdges E), buildEdges (biEdges E')) : QTGraph H × QTGraph H) =
      (buildEdges (biEdges (E ++ l.map fun p => (g, qtFace g p.1 p.2, p))),
        buildEdges (biEdges (E' ++ l.map fun p => (p.1 * g, qtFace g p.1 p.2, (p.1⁻¹, p.2))))) := by
    intro l g
    induction l with
    | nil => intro E E'; simp
    | cons p l ih =>
      intro E E'
      rw [List.foldl_cons]
      have hb : ∀ (E : List (H × Finset H × (H × H))) e, (buildEdges (biEdges E)).addEdge (.inl e.1) (.inr e.2.1) (some e.2.2) =
          buildEdges (biEdges (E ++ [e])) := by
        intro E e
        have : biEdges (E ++ [e]) = biEdges E ++ [(.inl e.1, .inr e.2.1, e.2.2)] := by simp [biEdges]
        rw [this, buildEdges_append]
      have h1 := hb E (g, qtFace g p.1 p.2, p)
      have h2 := hb E' (p.1 * g, qtFace g p.1 p.2, (p.1⁻¹, p.2))
      simp only at h1 h2
      rw [h1, h2, ih]
      simp
  have outer : ∀ (P : List H) (E E' : List (H × Finset H × (H × H))),
      P.foldl (addFaces A B) (buildEdges (biEdges E), buildEdges (biEdges E')) =
        (buildEdges (biEdges (E ++ edgesX A B P)), buildEdges (biEdges (E' ++ edgesZ A B P))) := by
    intro P
    induction P with
    | nil => intro E E'; simp [edgesX, edgesZ]
    | cons g P ih =>
      intro E E'
      rw [List.foldl_cons, addFaces, inner, ih]
      simp [edgesX, edgesZ]
  have := outer P [] []
  simpa [buildEdges, biEdges] using this

theorem mem_product' {A B : List H} {p : H × H} : p ∈ A.product B ↔ p.1 ∈ A ∧ p.2 ∈ B := by
  cases p
  exact List.mem_product

theorem hasNode_iff {α κ : Type} [DecidableEq α] (g : DiGraph α κ) (v : α) : hasNode g v = true ↔ v ∈ g.nodes := by
  unfold hasNode
  exact decide_eq_true_iff

theorem hasNode_edgesX {A B P : List H} (hA : A ≠ []) (hB : B ≠ []) (h : H) :
    hasNode (buildEdges (biEdges (edgesX A B P))) (.inl h) = true ↔ h ∈ P := by
  rw [hasNode_iff, (nodes_buildEdges _).2]
  constructor
  · rintro ⟨e, he, hh⟩
    obtain ⟨e', he', rfl⟩ := List.mem_map.1 he
    unfold edgesX at he'
    obtain ⟨g, hg, he'⟩ := List.mem_flatMap.1 he'
    obtain ⟨p, -, rfl⟩ := List.mem_map.1 he'
    simp only [Sum.inl.injEq, reduceCtorEq, or_false] at hh
    rw [hh]; exact hg
  · intro hh
    obtain ⟨a, ha⟩ := List.exists_mem_of_ne_nil A hA
    obtain ⟨b, hb⟩ := List.exists_mem_of_ne_nil B hB
    refine ⟨_, List.mem_map.2 ⟨(h, qtFace h a b, (a, b)), ?_, rfl⟩, Or.inl rfl⟩
    unfold edgesX
    exact List.mem_flatMap.2 ⟨h, hh, List.mem_map.2 ⟨(a, b), mem_product'.2 ⟨ha, hb⟩, rfl⟩⟩

/-- What the loop returns: the graphs for a set of nodes that is closed and not larger than needed. -/
theorem subgraphLoop_spec [Fintype H] {A B : List H} (hA : A ≠ []) (hB : B ≠ []) (V : Set H)
    (hV : ∀ g ∈ V, ∀ a ∈ A, ∀ b ∈ B, a * g * b ∈ V) (hne : ∀ g ∈ V, ∀ a ∈ A, ∀ b ∈ B, a * g * b ≠ g) (pick : ℕ → ℕ)
    (fuel : ℕ) (P pending : List H) (hP : (pending ++ P).Nodup) (hPV : ∀ g ∈ pending ++ P, g ∈ V)
    (hcl : ∀ g ∈ P, ∀ a ∈ A, ∀ b ∈ B, a * g * b ∈ pending ++ P) (hfuel : Fintype.card H < P.length + fuel) :
    ∃ P' : List H, P'.Nodup ∧ (∀ g ∈ pending ++ P, g ∈ P') ∧ (∀ g ∈ P', g ∈ V) ∧ (∀ g ∈ P', ∀ a ∈ A, ∀ b ∈ B, a * g * b ∈ P') ∧
      subgraphLoop A B pick fuel pending (P.foldl (addFaces A B) (DiGraph.empty, DiGraph.empty)) =
        some (P'.foldl (addFaces A B) (DiGraph.empty, DiGraph.empty)) := by
  induction fuel generalizing P pending with
  | zero =>
    exfalso
    have := List.Nodup.length_le_card (List.nodup_append.1 hP).2.1
    omega
  | succ fuel ih =>
    cases pending with
    | nil =>
      exact ⟨P, by simpa using hP, fun g hg => by simpa using hg, fun g hg => hPV g (by simpa using hg),
        fun g hg a ha b hb => by simpa using hcl g hg a ha b hb, rfl⟩
    | cons p ps =>
      have hlt : pick fuel % (p :: ps).length < (p :: ps).length := Nat.mod_lt _ (by simp)
      set g := (p :: ps).getD (pick fuel % (p :: ps).length) p with hg
      have hgm : g ∈ p :: ps := by rw [hg, List.getD_eq_getElem _ _ hlt]; exact List.getElem_mem hlt
      obtain ⟨hn1, hn2, hn3⟩ := List.nodup_append.1 hP
      have hgP : g ∉ P := fun h => hn3 g hgm g h rfl
      have hgV : g ∈ V := hPV g (List.mem_append_left _ hgm)
      set new := ((A.product B).map fun q => q.1 * g * q.2).filter fun h =>
        !hasNode (P.foldl (addFaces A B) (DiGraph.empty, DiGraph.empty)).1 (.inl h) with hnew
      have hmem : ∀ x, x ∈ new ↔ (∃ a ∈ A, ∃ b ∈ B, x = a * g * b) ∧ x ∉ P := by
        intro x
        rw [hnew, List.mem_filter, List.mem_map, foldl_addFaces]
        have := hasNode_edgesX (P := P) hA hB x
        constructor
        · rintro ⟨⟨q, hq, rfl⟩, h⟩
          refine ⟨⟨q.1, (mem_product'.1 hq).1, q.2, (mem_product'.1 hq).2, rfl⟩, fun hc => ?_⟩
          rw [this.2 hc] at h
          cases h
        · rintro ⟨⟨a, ha, b, hb, rfl⟩, h⟩
          refine ⟨⟨(a, b), mem_product'.2 ⟨ha, hb⟩, rfl⟩, ?_⟩
          rw [Bool.not_eq_true', Bool.eq_false_iff]
          exact fun hc => h (this.1 hc)
      have hmem' : ∀ x, x ∈ new ∪ (p :: ps).erase g ↔ x ∈ new ∨ x ∈ (p :: ps).erase g := fun x => List.mem_union_iff
      have herase : ∀ x, x ∈ (p :: ps).erase g ↔ x ≠ g ∧ x ∈ p :: ps := fun x => hn1.mem_erase_iff
      have q1 : ((new ∪ (p :: ps).erase g) ++ (P ++ [g])).Nodup := by
        rw [List.nodup_append]
        refine ⟨List.Nodup.union _ (hn1.erase g), ?_, ?_⟩
        · exact List.Nodup.append hn2 (by simp) (by simpa using hgP)
        · intro x hx y hy hxy
          subst hxy
          rw [List.mem_append, List.mem_singleton] at hy
          rcases (hmem' x).1 hx with hx | hx
          · obtain ⟨⟨a, ha, b, hb, rfl⟩, hxP⟩ := (hmem x).1 hx
            rcases hy with hy | hy
            · exact hxP hy
            · exact hne g hgV a ha b hb hy
          · obtain ⟨hxg, hxp⟩ := (herase x).1 hx
            rcases hy with hy | hy
            · exact hn3 x hxp x hy rfl
            · exact hxg hy
      have q2 : ∀ x ∈ (new ∪ (p :: ps).erase g) ++ (P ++ [g]), x ∈ V := by
        intro x hx
        rw [List.mem_append, List.mem_append, List.mem_singleton, hmem'] at hx
        rcases hx with (hx | hx) | hx | rfl
        · obtain ⟨⟨a, ha, b, hb, rfl⟩, -⟩ := (hmem x).1 hx
          exact hV g hgV a ha b hb
        · exact hPV x (List.mem_append_left _ ((herase x).1 hx).2)
        · exact hPV x (List.mem_append_right _ hx)
        · exact hgV
      have q3 : ∀ x ∈ P ++ [g], ∀ a ∈ A, ∀ b ∈ B, a * x * b ∈ (new ∪ (p :: ps).erase g) ++ (P ++ [g]) := by
        intro x hx a ha b hb
        have hcov : ∀ y, y ∈ (p :: ps) ++ P → y ∈ (new ∪ (p :: ps).erase g) ++ (P ++ [g]) := by
          intro y hy
          rcases List.mem_append.1 hy with hy | hy
          · by_cases hyg : y = g
            · simp [hyg]
            · exact List.mem_append_left _ ((hmem' y).2 (Or.inr ((herase y).2 ⟨hyg, hy⟩)))
          · exact List.mem_append_right _ (List.mem_append_left _ hy)
        rcases List.mem_append.1 hx with hx | hx
        · exact hcov _ (hcl x hx a ha b hb)
        · rw [List.mem_singleton] at hx
          subst hx
          by_cases hP' : a * g * b ∈ P
          · exact List.mem_append_right _ (List.mem_append_left _ hP')
          · exact List.mem_append_left _ ((hmem' _).2 (Or.inl ((hmem _).2 ⟨⟨a, ha, b, hb, rfl⟩, hP'⟩)))
      obtain ⟨P', h1, h2, h3, h4, h5⟩ := ih (P ++ [g]) (new ∪ (p :: ps).erase g) q1 q2 q3 (by
        rw [List.length_append, List.length_singleton]; omega)
      refine ⟨P', h1, ?_, h3, h4, ?_⟩
      · intro x hx
        apply h2
        rcases List.mem_append.1 hx with hx | hx
        · by_cases hxg : x = g
          · simp [hxg]
          · exact List.mem_append_left _ ((hmem' x).2 (Or.inr ((herase x).2 ⟨hxg, hx⟩)))
        · exact List.mem_append_right _ (List.mem_append_left _ hx)
      · rw [List.foldl_append] at h5
        exact h5

end Loop

/-! ### Faces -/

section Faces

variable {H : Type} [Group H] [DecidableEq H]

/-- What the covers provide: symmetric subsets, a colouring that every edge changes, and total no-conjugacy on a set of
nodes that contains the neighbours of its members. -/
structure QTGood (A B : List H) (W : Set H) (χ : H → Bool) : Prop where
  invA : ∀ a ∈ A, a⁻¹ ∈ A
  invB : ∀ b ∈ B, b⁻¹ ∈ B
  one : 1 ∈ W
  left : ∀ g ∈ W, ∀ a ∈ A, a * g ∈ W
  right : ∀ g ∈ W, ∀ b ∈ B, g * b ∈ W
  colA : ∀ g, ∀ a ∈ A, χ (a * g) = !χ g
  colB : ∀ g, ∀ b ∈ B, χ (g * b) = !χ g
  tnc : ∀ g ∈ W, ∀ a ∈ A, ∀ b ∈ B, a * g ≠ g * b

variable {A B : List H} {W : Set H} {χ : H → Bool}

theorem QTGood.ne_self (h : QTGood A B W χ) {g a b : H} (hg : g ∈ W) (ha : a ∈ A) (hb : b ∈ B) : a * g * b ≠ g := by
  intro hc
  refine h.tnc g hg a ha b⁻¹ (h.invB b hb) ?_
  exact eq_mul_inv_of_mul_eq hc

theorem mem_qtFace {g a b x : H} : x ∈ qtFace g a b ↔ x = g ∨ x = a * g ∨ x = g * b ∨ x = a * g * b := by
  simp [qtFace]

/-- A face, seen from the neighbour on the left. -/
theorem qtFace_left (g a b : H) : qtFace (a * g) a⁻¹ b = qtFace g a b := by
  ext x
  simp only [mem_qtFace, inv_mul_cancel_left]
  tauto

/-- A face, seen from the neighbour on the right. -/
theorem qtFace_right (g a b : H) : qtFace (g * b) a b⁻¹ = qtFace g a b := by
  ext x
  have h1 : a * (g * b) * b⁻¹ = a * g := by group
  have h2 : a * (g * b) = a * g * b := by group
  simp only [mem_qtFace, h1, h2, mul_inv_cancel_right]
  tauto

theorem QTGood.card_face (h : QTGood A B W χ) {g a b : H} (hg : g ∈ W) (ha : a ∈ A) (hb : b ∈ B) : (qtFace g a b).card = 4 := by
  have c1 := h.colA g a ha
  have c2 := h.colB g b hb
  have c3 := h.colB (a * g) b hb
  have n1 : g ≠ a * g := fun hc => by rw [← hc] at c1; cases hx : χ g <;> simp [hx] at c1
  have n2 : g ≠ g * b := fun hc => by rw [← hc] at c2; cases hx : χ g <;> simp [hx] at c2
  have n3 : g ≠ a * g * b := fun hc => h.ne_self hg ha hb hc.symm
  have n4 : a * g ≠ g * b := h.tnc g hg a ha b hb
  have n5 : a * g ≠ a * g * b := fun hc => by rw [← hc] at c3; cases hx : χ (a * g) <;> simp [hx] at c3
  have n6 : g * b ≠ a * g * b := fun hc => by
    have : χ (a * g * b) = χ g := by rw [c3, c1, Bool.not_not]
    rw [← hc, c2] at this
    cases hx : χ g <;> simp [hx] at this
  unfold qtFace
  rw [Finset.card_insert_of_notMem, Finset.card_insert_of_notMem, Finset.card_insert_of_notMem, Finset.card_singleton]
  · simpa using n6
  · simp [n4, n5]
  · simp [n1, n2, n3]

/-- When two faces, seen from nodes of different colour, agree. -/
theorem QTGood.face_eq_iff (h : QTGood A B W χ) {g k a b a' b' : H} (hg : g ∈ W) (hk : k ∈ W) (hgk : χ k ≠ χ g)
    (ha : a ∈ A) (hb : b ∈ B) (ha' : a' ∈ A) (hb' : b' ∈ B) :
    qtFace g a b = qtFace k a' b' ↔ (k = a * g ∧ a' = a⁻¹ ∧ b' = b) ∨ (k = g * b ∧ a' = a ∧ b' = b⁻¹) := by
  constructor
  · intro hf
    have hc : ∀ x, (x = g ∨ x = a * g ∨ x = g * b ∨ x = a * g * b) ↔ (x = k ∨ x = a' * k ∨ x = k * b' ∨ x = a' * k * b') := by
      intro x
      rw [← mem_qtFace, ← mem_qtFace, hf]
    have c1 := h.colA g a ha
    have c2 := h.colB g b hb
    have c3 : χ (a * g * b) = χ g := by rw [h.colB _ b hb, c1, Bool.not_not]
    have d1 := h.colA k a' ha'
    have d2 := h.colB k b' hb'
    have d3 : χ (a' * k * b') = χ k := by rw [h.colB _ b' hb', d1, Bool.not_not]
    have hkc : χ k = !χ g := by cases hx : χ k <;> cases hy : χ g <;> simp_all
    have hne : ∀ x y : H, χ x ≠ χ y → x ≠ y := fun x y hxy hc => hxy (by rw [hc])
    have hno : ∀ c : Bool, c ≠ !c := by decide
    have hno' : ∀ c : Bool, (!c) ≠ c := by decide
    -- even members of the faces agree
    have e1 : a' * k = g ∨ a' * k = a * g * b := by
      rcases (hc (a' * k)).2 (Or.inr (Or.inl rfl)) with h1 | h1 | h1 | h1
      · exact Or.inl h1
      · exact absurd h1 (hne _ _ (by rw [d1, c1, hkc, Bool.not_not]; exact hno _))
      · exact absurd h1 (hne _ _ (by rw [d1, c2, hkc, Bool.not_not]; exact hno _))
      · exact Or.inr h1
    have e2 : k * b' = g ∨ k * b' = a * g * b := by
      rcases (hc (k * b')).2 (Or.inr (Or.inr (Or.inl rfl))) with h1 | h1 | h1 | h1
      · exact Or.inl h1
      · exact absurd h1 (hne _ _ (by rw [d2, c1, hkc, Bool.not_not]; exact hno _))
      · exact absurd h1 (hne _ _ (by rw [d2, c2, hkc, Bool.not_not]; exact hno _))
      · exact Or.inr h1
    have e3 : k = a * g ∨ k = g * b := by
      rcases (hc k).2 (Or.inl rfl) with h1 | h1 | h1 | h1
      · exact absurd (congrArg χ h1) hgk
      · exact Or.inl h1
      · exact Or.inr h1
      · exact absurd ((congrArg χ h1).trans c3) hgk
    have hdiff : a' * k ≠ k * b' := h.tnc k hk a' ha' b' hb'
    rcases e3 with rfl | rfl
    · left
      rcases e1 with e1 | e1
      · have h1 : a' = a⁻¹ := by
          have : a' * a * g = 1 * g := by rw [mul_assoc, e1, one_mul]
          exact eq_inv_of_mul_eq_one_left (mul_right_cancel this)
        rcases e2 with e2 | e2
        · exact absurd (e1.trans e2.symm) hdiff
        · exact ⟨rfl, h1, mul_left_cancel e2⟩
      · exact absurd e1 (h.tnc (a * g) hk a' ha' b hb)
    · right
      have hassoc : a * g * b = a * (g * b) := mul_assoc _ _ _
      rcases e1 with e1 | e1
      · exfalso
        refine h.tnc (g * b) hk a' ha' b⁻¹ (h.invB b hb) ?_
        rw [e1, mul_inv_cancel_right]
      · rw [hassoc] at e1
        rcases e2 with e2 | e2
        · refine ⟨rfl, mul_right_cancel e1, ?_⟩
          have : g * (b * b') = g * 1 := by rw [← mul_assoc, e2, mul_one]
          exact eq_inv_of_mul_eq_one_right (mul_left_cancel this)
        · rw [hassoc] at e2
          exact absurd (e1.trans e2.symm) hdiff
  · rintro (⟨rfl, rfl, rfl⟩ | ⟨rfl, rfl, rfl⟩)
    · exact (qtFace_left g a _).symm
    · exact (qtFace_right g _ b).symm

/-- Faces seen from one node are different. -/
theorem QTGood.face_inj (h : QTGood A B W χ) {g a b a' b' : H} (hg : g ∈ W) (ha : a ∈ A) (hb : b ∈ B) (ha' : a' ∈ A)
    (hb' : b' ∈ B) (hf : qtFace g a b = qtFace g a' b') : a = a' ∧ b = b' := by
  rw [← qtFace_left g a' b'] at hf
  have hc := h.colA g a' ha'
  rcases (h.face_eq_iff hg (h.left g hg a' ha') (by rw [hc]; cases χ g <;> decide) ha hb (h.invA a' ha') hb').1 hf with h1 | h1
  · exact ⟨mul_right_cancel h1.1.symm, h1.2.2.symm⟩
  · exact absurd h1.1 (h.tnc g hg a' ha' b hb)

end Faces

/-! ### The sum over pairs of faces -/

theorem double_sum_zero {F : Type} [Field F] {H : Type} [Group H] [DecidableEq H] {n m : ℕ} (α : Fin n → H) (β : Fin m → H)
    (hα : Function.Injective α) (hβ : Function.Injective β) (S T : Fin n → Fin m → F)
    (h1 : ∀ i i', ∑ j, S i j * T i' j = 0) (h2 : ∀ j j', ∑ i, S i j * T i j' = 0) (g k : H)
    (hex : ∀ i j, ¬ (k = α i * g ∧ k = g * β j)) :
    ∑ i, ∑ j, ∑ i', ∑ j', S i j * T i' j' *
      (if (k = α i * g ∧ α i' = (α i)⁻¹ ∧ β j' = β j) ∨ (k = g * β j ∧ α i' = α i ∧ β j' = (β j)⁻¹) then (1 : F) else 0) = 0 := by
  by_cases hA : ∃ i0, k = α i0 * g
  · obtain ⟨i0, hi0⟩ := hA
    have hnB : ∀ j, ¬ k = g * β j := fun j hj => hex i0 j ⟨hi0, hj⟩
    have hi : ∀ i, k = α i * g ↔ i = i0 := by
      intro i
      constructor
      · intro hi; exact hα (mul_right_cancel (hi.symm.trans hi0))
      · rintro rfl; exact hi0
    rw [Finset.sum_eq_single i0]
    · have hsum : ∀ j, ∑ i', ∑ j', S i0 j * T i' j' *
          (if (k = α i0 * g ∧ α i' = (α i0)⁻¹ ∧ β j' = β j) ∨ (k = g * β j ∧ α i' = α i0 ∧ β j' = (β j)⁻¹) then (1 : F) else 0) =
          ∑ i', if α i' = (α i0)⁻¹ then S i0 j * T i' j else 0 := by
        intro j
        refine Finset.sum_congr rfl fun i' _ => ?_
        rw [Finset.sum_eq_single j]
        · by_cases hc : α i' = (α i0)⁻¹ <;> simp [hnB, hc, ← hi0]
        · intro j' _ hj'
          have : β j' ≠ β j := fun hc => hj' (hβ hc)
          simp [hnB, this]
        · simp
      simp only [hsum]
      rw [Finset.sum_comm]
      refine Finset.sum_eq_zero fun i' _ => ?_
      by_cases hc : α i' = (α i0)⁻¹
      · simp only [hc, if_true]; exact h1 i0 i'
      · simp [hc]
    · intro i _ hii
      have : ¬ k = α i * g := fun hc => hii ((hi i).1 hc)
      refine Finset.sum_eq_zero fun j _ => Finset.sum_eq_zero fun i' _ => Finset.sum_eq_zero fun j' _ => ?_
      simp [this, hnB]
    · simp
  · have hnA : ∀ i, ¬ k = α i * g := fun i hi => hA ⟨i, hi⟩
    by_cases hB : ∃ j0, k = g * β j0
    · obtain ⟨j0, hj0⟩ := hB
      have hj : ∀ j, k = g * β j ↔ j = j0 := by
        intro j
        constructor
        · intro hj; exact hβ (mul_left_cancel (hj.symm.trans hj0))
        · rintro rfl; exact hj0
      have hsum : ∀ i, ∑ j, ∑ i', ∑ j', S i j * T i' j' *
          (if (k = α i * g ∧ α i' = (α i)⁻¹ ∧ β j' = β j) ∨ (k = g * β j ∧ α i' = α i ∧ β j' = (β j)⁻¹) then (1 : F) else 0) =
          ∑ j', if β j' = (β j0)⁻¹ then S i j0 * T i j' else 0 := by
        intro i
        rw [Finset.sum_eq_single j0]
        · rw [Finset.sum_eq_single i]
          · refine Finset.sum_congr rfl fun j' _ => ?_
            by_cases hc : β j' = (β j0)⁻¹ <;> simp [hnA, hc, ← hj0]
          · intro i' _ hi'
            have : α i' ≠ α i := fun hc => hi' (hα hc)
            refine Finset.sum_eq_zero fun j' _ => ?_
            simp [hnA, this]
          · simp
        · intro j _ hjj
          have : ¬ k = g * β j := fun hc => hjj ((hj j).1 hc)
          refine Finset.sum_eq_zero fun i' _ => Finset.sum_eq_zero fun j' _ => ?_
          simp [this, hnA]
        · simp
      simp only [hsum]
      rw [Finset.sum_comm]
      refine Finset.sum_eq_zero fun j' _ => ?_
      by_cases hc : β j' = (β j0)⁻¹
      · simp only [hc, if_true]; exact h2 j0 j'
      · simp [hc]
    · have hnB : ∀ j, ¬ k = g * β j := fun j hj => hB ⟨j, hj⟩
      refine Finset.sum_eq_zero fun i _ => Finset.sum_eq_zero fun j _ => Finset.sum_eq_zero fun i' _ => Finset.sum_eq_zero fun j' _ => ?_
      simp [hnA, hnB]

end QLDPC
