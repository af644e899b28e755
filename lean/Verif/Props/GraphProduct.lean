import Verif.Lemmas.GraphTable

/-! # C47: the hypergraph product of Tanner graphs -/

namespace QLDPC.Props

open QLDPC QLDPC.Spec

variable {F : Type} [Field F] [DecidableEq F] {n m : ℕ}

/-- Two graphs are equal (`nx.utils.graphs_equal`): the same nodes, and the same edges with the same data. -/
structure SameGraph {δ : Type} (g g' : TGraph δ) : Prop where
  nodes : ∀ x, x ∈ g.nodes ↔ x ∈ g'.nodes
  edges : ∀ e, e ∈ g.listEdges ↔ e ∈ g'.listEdges
  once : g.nodes.Nodup ∧ g'.nodes.Nodup ∧ (g.listEdges.map Prod.fst).Nodup ∧ (g'.listEdges.map Prod.fst).Nodup

theorem mapM_map {α β : Type} {f : α → Option β} {g : α → β} {l : List α} (h : ∀ x ∈ l, f x = some (g x)) :
    l.mapM f = some (l.map g) := by
  rw [mapM_some_iff, List.forall₂_map_right_iff, List.forall₂_same]
  exact h

theorem listEdges_keys {δ : Type} {g : TGraph δ} (h : g.WF) : (g.listEdges.map Prod.fst).Nodup := by
  unfold TGraph.listEdges
  rw [List.map_flatMap, List.nodup_flatMap]
  constructor
  · intro u _
    exact h.keys.sublist (List.filter_sublist.map _)
  · refine h.nodes.imp ?_
    intro u v huv
    intro k hu hv
    simp only [List.mem_map, List.mem_filter, decide_eq_true_eq] at hu hv
    obtain ⟨e, ⟨-, h1⟩, rfl⟩ := hu
    obtain ⟨e', ⟨-, h2⟩, h3⟩ := hv
    exact huv (by rw [← h1, ← h2, h3])

theorem foldl_insertNode {ν : Type} [DecidableEq ν] (l acc : List ν) :
    (∀ x, x ∈ l.foldl TGraph.insertNode acc ↔ x ∈ acc ∨ x ∈ l) ∧
      (acc.Nodup → (l.foldl TGraph.insertNode acc).Nodup) := by
  induction l generalizing acc with
  | nil => simp
  | cons a l ih =>
    rw [List.foldl_cons]
    refine ⟨fun x => ?_, fun h => (ih _).2 (TGraph.nodup_insertNode h)⟩
    rw [(ih _).1, TGraph.mem_insertNode, List.mem_cons, or_assoc]

theorem find_mapData {δ ε : Type} (g : TGraph δ) (φ : δ → ε) (k : Node × Node) :
    (⟨g.nodes, g.edges.map fun e => (e.1, φ e.2)⟩ : TGraph ε).find k = (g.find k).map φ := by
  simp only [TGraph.find]
  rw [List.find?_map, Option.map_map, Option.map_map]
  rfl

theorem wf_mapData {δ ε : Type} {g : TGraph δ} (h : g.WF) (φ : δ → ε) :
    (⟨g.nodes, g.edges.map fun e => (e.1, φ e.2)⟩ : TGraph ε).WF where
  nodes := h.nodes
  keys := by
    simp only [List.map_map]
    exact h.keys
  src := by
    intro e he
    obtain ⟨e', he', rfl⟩ := List.mem_map.1 he
    exact h.src e' he'

/-- The product graph: well formed, with the edges and nodes of the product matrix. -/
theorem graphProduct_spec {fi : FieldInts F} (hf : Spec.FieldInts.Ok fi) {A : Rows F n} {B : Rows F m}
    (hA : NoZeroLines A) (hB : NoZeroLines B) :
    ∃ g, graphProduct fi (matrixToGraph A) (matrixToGraph B) = some g ∧ g.WF ∧
      (∀ k d, g.find k = some d ↔ ∃ i j : ℕ, k = (chk i, dat j) ∧
        opAt fi (cssMatrix (hgpX id A B) (hgpZ id A B)) i j = some d) ∧
      ∀ x, x ∈ g.nodes ↔ (∃ i : ℕ, (∃ j, opAt fi (cssMatrix (hgpX id A B) (hgpZ id A B)) i j ≠ none) ∧ x = chk i) ∨
        ∃ j : ℕ, (∃ i, opAt fi (cssMatrix (hgpX id A B) (hgpZ id A B)) i j ≠ none) ∧ x = dat j := by
  set H := cssMatrix (hgpX id A B) (hgpZ id A B) with hH
  let E := (cartesianEdges (matrixToGraph A) (matrixToGraph B)).map orientEdge
  let lab := pairLabel n m A.length B.length
  have hE : ∀ i j x z, (∃ e ∈ E, lab e.1.1 = chk i ∧ lab e.1.2 = dat j ∧ e.2 = (x, z)) ↔
      (x ≠ 0 ∨ z ≠ 0) ∧ matEntry (H.map xPart) i j = x ∧ matEntry (H.map zPart) i j = z := edge_iff hA hB
  have hEl : ∀ e ∈ E, (∃ i j : ℕ, lab e.1.1 = chk i ∧ lab e.1.2 = dat j) ∧
      (e.1.1.1 ∈ lineNodes n A.length ∧ e.1.1.2 ∈ lineNodes m B.length) ∧
      e.1.2.1 ∈ lineNodes n A.length ∧ e.1.2.2 ∈ lineNodes m B.length := fun e he => edge_labels hA hB he
  -- an edge is determined by its labels
  have hfun : ∀ e ∈ E, ∀ e' ∈ E, lab e.1.1 = lab e'.1.1 → lab e.1.2 = lab e'.1.2 → e.2 = e'.2 := by
    intro e he e' he' h1 h2
    obtain ⟨⟨i, j, hi, hj⟩, -⟩ := hEl e he
    have e1 := (hE i j e.2.1 e.2.2).1 ⟨e, he, hi, hj, rfl⟩
    have e2 := (hE i j e'.2.1 e'.2.2).1 ⟨e', he', h1 ▸ hi, h2 ▸ hj, rfl⟩
    exact Prod.ext (e1.2.1.symm.trans e2.2.1) (e1.2.2.symm.trans e2.2.2)
  -- the graph on pairs
  let g0 : TGraph (F × F) (Node × Node) :=
    TGraph.build (fun e : ((Node × Node) × (Node × Node)) × (F × F) => e.1.1) (fun e => e.1.2) (fun e _ => e.2) E ⟨[], []⟩
  have hw0 : g0.WF := TGraph.WF.empty.build _ _ _ _
  have hfind0 : ∀ e, e ∈ g0.listEdges ↔ e ∈ E := by
    intro e
    obtain ⟨k, d⟩ := e
    rw [hw0.mem_listEdges, TGraph.find_build_const _ _ _ _ _ _ rfl
      fun e he e' he' h1 h2 => hfun e he e' he' (by rw [h1]) (by rw [h2])]
    constructor
    · rintro ⟨e, he, h1, h2⟩
      have : e = (k, d) := Prod.ext h1 h2
      rwa [← this]
    · intro h
      exact ⟨(k, d), h, rfl, rfl⟩
  have hnodes0 : ∀ x, x ∈ g0.nodes ↔ ∃ e ∈ E, x = e.1.1 ∨ x = e.1.2 := by
    intro x
    rw [TGraph.mem_nodes_build]
    simp
  -- labels
  let label : Node × Node → Option Node := fun w =>
    ((productNodeMap (matrixToGraph A).nodes (matrixToGraph B).nodes).find? fun e => e.1 = w).map Prod.snd
  have hlabel : ∀ w : Node × Node, w.1 ∈ lineNodes n A.length → w.2 ∈ lineNodes m B.length →
      label w = some (lab w) := by
    intro w h1 h2
    have := find_productNodeMap (matrixToGraph_wf A).nodes (matrixToGraph_wf B).nodes (nodes_lines hA) (nodes_lines hB) w
    rw [if_pos ⟨h1, h2⟩] at this
    exact this
  let L1 : List ((Node × Node) × (F × F)) := g0.listEdges.map fun e => ((lab e.1.1, lab e.1.2), e.2)
  let g1 : TGraph (F × F) := TGraph.build (fun e : (Node × Node) × (F × F) => e.1.1) (fun e => e.1.2)
    (fun e _ => e.2) L1 ⟨(g0.nodes.map lab).foldl TGraph.insertNode [], []⟩
  have hrel : relabelNodes g0 label = some g1 := by
    unfold relabelNodes
    rw [mapM_map (g := lab), mapM_map (g := fun e => ((lab e.1.1, lab e.1.2), e.2))]
    · rfl
    · intro e he
      obtain ⟨-, h1, h2⟩ := hEl e ((hfind0 e).1 he)
      rw [hlabel _ h1.1 h1.2, hlabel _ h2.1 h2.2]
      rfl
    · intro x hx
      obtain ⟨e, he, rfl | rfl⟩ := (hnodes0 x).1 hx
      · exact hlabel _ (hEl e he).2.1.1 (hEl e he).2.1.2
      · exact hlabel _ (hEl e he).2.2.1 (hEl e he).2.2.2
  have hw1 : g1.WF := by
    apply TGraph.WF.build
    exact ⟨(foldl_insertNode _ _).2 List.nodup_nil, by simp, by simp⟩
  have hmem1 : ∀ e, e ∈ L1 ↔ ∃ e' ∈ E, e = ((lab e'.1.1, lab e'.1.2), e'.2) := by
    intro e
    simp only [L1, List.mem_map, hfind0, eq_comm (a := e)]
  have hfind1 : ∀ k d, g1.find k = some d ↔ ∃ i j : ℕ, k = (chk i, dat j) ∧ (d.1 ≠ 0 ∨ d.2 ≠ 0) ∧
      matEntry (H.map xPart) i j = d.1 ∧ matEntry (H.map zPart) i j = d.2 := by
    intro k d
    rw [TGraph.find_build_const]
    · constructor
      · rintro ⟨e, he, rfl, rfl⟩
        obtain ⟨e', he', rfl⟩ := (hmem1 e).1 he
        obtain ⟨⟨i, j, hi, hj⟩, -⟩ := hEl e' he'
        exact ⟨i, j, Prod.ext hi hj, (hE i j _ _).1 ⟨e', he', hi, hj, rfl⟩⟩
      · rintro ⟨i, j, rfl, h⟩
        obtain ⟨e', he', hi, hj, hd⟩ := (hE i j d.1 d.2).2 h
        exact ⟨_, (hmem1 _).2 ⟨e', he', rfl⟩, Prod.ext hi hj, hd⟩
    · rfl
    · intro e he e' he' h1 h2
      obtain ⟨u, hu, rfl⟩ := (hmem1 e).1 he
      obtain ⟨v, hv, rfl⟩ := (hmem1 e').1 he'
      exact hfun u hu v hv h1 h2
  have hnodes1 : ∀ x, x ∈ g1.nodes ↔ ∃ e ∈ E, x = lab e.1.1 ∨ x = lab e.1.2 := by
    intro x
    rw [TGraph.mem_nodes_build]
    dsimp only
    rw [(foldl_insertNode _ _).1]
    constructor
    · rintro ((h | h) | ⟨e, he, h⟩)
      · simp at h
      · obtain ⟨w, hw, rfl⟩ := List.mem_map.1 h
        obtain ⟨e, he, rfl | rfl⟩ := (hnodes0 w).1 hw
        · exact ⟨e, he, .inl rfl⟩
        · exact ⟨e, he, .inr rfl⟩
      · obtain ⟨e', he', rfl⟩ := (hmem1 e).1 he
        exact ⟨e', he', h⟩
    · rintro ⟨e, he, h⟩
      exact .inr ⟨_, (hmem1 _).2 ⟨e, he, rfl⟩, h⟩
  -- integers
  let φ : F × F → ℤ × ℤ := fun d => (fi.toInt d.1, fi.toInt d.2)
  let g2 : TGraph (ℤ × ℤ) := ⟨g1.nodes, g1.edges.map fun e => (e.1, φ e.2)⟩
  have hw2 : g2.WF := wf_mapData hw1 φ
  have hopAt : ∀ i j (d : F × F), ((d.1 ≠ 0 ∨ d.2 ≠ 0) ∧ matEntry (H.map xPart) i j = d.1 ∧
      matEntry (H.map zPart) i j = d.2) → opAt fi H i j = some (φ d) := by
    rintro i j ⟨d1, d2⟩ ⟨h0, h1, h2⟩
    unfold opAt
    dsimp only at h0 h1 h2
    rw [h1, h2, if_neg (by tauto)]
  have hfind2 : ∀ k d, g2.find k = some d ↔ ∃ i j : ℕ, k = (chk i, dat j) ∧ opAt fi H i j = some d := by
    intro k d
    rw [find_mapData, Option.map_eq_some_iff]
    constructor
    · rintro ⟨d', h, rfl⟩
      obtain ⟨i, j, rfl, h'⟩ := (hfind1 k d').1 h
      exact ⟨i, j, rfl, hopAt i j d' h'⟩
    · rintro ⟨i, j, rfl, h⟩
      unfold opAt at h
      split at h
      · cases h
      · rename_i h0
        refine ⟨(matEntry (H.map xPart) i j, matEntry (H.map zPart) i j), (hfind1 _ _).2 ⟨i, j, rfl, ?_, rfl, rfl⟩,
          Option.some.inj h⟩
        dsimp only
        tauto
  refine ⟨g2, ?_, hw2, hfind2, ?_⟩
  · have : graphProduct fi (matrixToGraph A) (matrixToGraph B) = (relabelNodes g0 label).bind fun g =>
        let g : TGraph (ℤ × ℤ) := ⟨g.nodes, g.edges.map fun e => (e.1, φ e.2)⟩
        if fi.order = 2 then if g.edges.all fun e => (pauliToString e.2).isSome then some g else none
        else some g := rfl
    rw [this, hrel, Option.bind_some]
    dsimp only
    split
    · rename_i h2
      rw [if_pos]
      rw [List.all_eq_true]
      rintro ⟨k, d⟩ he
      obtain ⟨e', -, he'⟩ := List.mem_map.1 he
      have hd : d = φ e'.2 := (congrArg Prod.snd he').symm
      rcases hf.two h2 e'.2.1 with h | h <;> rcases hf.two h2 e'.2.2 with h' | h' <;>
        simp [hd, φ, h, h', pauliToString]
    · rfl
  · intro x
    have hne : ∀ i j, opAt fi H i j ≠ none ↔ ∃ e ∈ E, lab e.1.1 = chk i ∧ lab e.1.2 = dat j := by
      intro i j
      constructor
      · intro h
        obtain ⟨e, he, h1, h2, -⟩ := (hE i j _ _).2 ⟨opAt_ne_none.1 h, rfl, rfl⟩
        exact ⟨e, he, h1, h2⟩
      · rintro ⟨e, he, h1, h2⟩
        rw [hopAt i j e.2 ((hE i j _ _).1 ⟨e, he, h1, h2, rfl⟩)]
        simp
    have : g2.nodes = g1.nodes := rfl
    rw [this, hnodes1]
    simp only [hne]
    constructor
    · rintro ⟨e, he, h⟩
      obtain ⟨⟨i, j, hi, hj⟩, -⟩ := hEl e he
      rcases h with rfl | rfl
      · exact .inl ⟨i, ⟨j, e, he, hi, hj⟩, hi⟩
      · exact .inr ⟨j, ⟨i, e, he, hi, hj⟩, hj⟩
    · rintro (⟨i, ⟨j, e, he, hi, hj⟩, rfl⟩ | ⟨j, ⟨i, e, he, hi, hj⟩, rfl⟩)
      · exact ⟨e, he, .inl hi.symm⟩
      · exact ⟨e, he, .inr hj.symm⟩

/-- **C47**: the product of the Tanner graphs of two matrices without zero rows and columns, with its nodes
relabelled, is the Tanner graph of the hypergraph product code of the matrices. -/
theorem C47_graph {fi : FieldInts F} (hf : Spec.FieldInts.Ok fi) {A : Rows F n} {B : Rows F m}
    (hA : NoZeroLines A) (hB : NoZeroLines B) :
    ∃ g g', graphProduct fi (matrixToGraph A) (matrixToGraph B) = some g ∧
      matrixToGraphQ fi (cssMatrix (hgpX id A B) (hgpZ id A B)) = some g' ∧ SameGraph g g' := by
  obtain ⟨g, hg, hw, hfind, hnodes⟩ := graphProduct_spec hf hA hB
  refine ⟨g, _, hg, matrixToGraphQ_eq hf _, ?_, ?_, ?_⟩
  · intro x
    rw [hnodes, nodes_graphXZ]
  · rintro ⟨k, d⟩
    rw [hw.mem_listEdges, (graphXZ_wf fi _).mem_listEdges, hfind, find_graphXZ hf]
  · exact ⟨hw.nodes, (graphXZ_wf fi _).nodes, listEdges_keys hw, listEdges_keys (graphXZ_wf fi _)⟩

/-- C47: every edge of the product graph, in terms of the entries of the two matrices: the X-type checks
`(i, q)` and the Z-type checks `(p, l)`, on the qudits `(p, q)` and `(i, l)`. -/
theorem C47_edges {fi : FieldInts F} (hf : Spec.FieldInts.Ok fi) {A : Rows F n} {B : Rows F m}
    (hA : NoZeroLines A) (hB : NoZeroLines B) {g : TGraph (ℤ × ℤ)}
    (h : graphProduct fi (matrixToGraph A) (matrixToGraph B) = some g) (c q : ℕ) (x z : ℤ) :
    ((⟨c, false⟩, ⟨q, true⟩), (x, z)) ∈ g.listEdges ↔
      (∃ i p j : ℕ, matEntry A i p ≠ 0 ∧ j < m ∧ c = i * m + j ∧ q = p * m + j ∧
        x = fi.toInt (matEntry A i p) ∧ z = 0) ∨
      (∃ i p l : ℕ, matEntry A i p ≠ 0 ∧ l < B.length ∧ c = A.length * m + (p * B.length + l) ∧
        q = n * m + (i * B.length + l) ∧ x = 0 ∧ z = fi.toInt (matEntry A i p)) ∨
      (∃ l j p : ℕ, matEntry B l j ≠ 0 ∧ p < n ∧ c = A.length * m + (p * B.length + l) ∧ q = p * m + j ∧
        x = 0 ∧ z = fi.toInt (- matEntry B l j)) ∨
      ∃ l j i : ℕ, matEntry B l j ≠ 0 ∧ i < A.length ∧ c = i * m + j ∧ q = n * m + (i * B.length + l) ∧
        x = fi.toInt (matEntry B l j) ∧ z = 0 := by
  obtain ⟨g', hg', hw, hfind, -⟩ := graphProduct_spec hf hA hB
  obtain rfl : g' = g := Option.some.inj (hg'.symm.trans h)
  rw [hw.mem_listEdges, hfind]
  have e1 : (∃ i j : ℕ, (((⟨c, false⟩, ⟨q, true⟩) : Node × Node) = (chk i, dat j)) ∧
      opAt fi (cssMatrix (hgpX id A B) (hgpZ id A B)) i j = some (x, z)) ↔
      ∃ a b, (fi.toInt a, fi.toInt b) = (x, z) ∧
      ∃ e ∈ (cartesianEdges (matrixToGraph A) (matrixToGraph B)).map orientEdge,
        pairLabel n m A.length B.length e.1.1 = chk c ∧ pairLabel n m A.length B.length e.1.2 = dat q ∧ e.2 = (a, b) := by
    simp only [edge_iff hA hB]
    constructor
    · rintro ⟨i, j, hk, ho⟩
      rw [key_iff] at hk
      obtain ⟨rfl, rfl⟩ := hk
      unfold opAt at ho
      split at ho
      · cases ho
      · rename_i h0
        exact ⟨_, _, Option.some.inj ho, by tauto, rfl, rfl⟩
    · rintro ⟨a, b, h1, h2, h3, h4⟩
      refine ⟨c, q, rfl, ?_⟩
      unfold opAt
      rw [h3, h4, if_neg (by tauto), h1]
  rw [e1]
  simp only [mem_oriented hA hB]
  constructor
  · rintro ⟨a, b, hab, e, he, h1, h2, h3⟩
    obtain ⟨rfl, rfl⟩ := Prod.mk.inj hab
    rcases he with ⟨i', p, j, h0, hj, rfl⟩ | ⟨i', p, l, h0, hl, rfl⟩ | ⟨l, j, p, h0, hp, rfl⟩ |
      ⟨l, j, i', h0, hi', rfl⟩ <;> simp only [pairLabel, Node.mk.injEq, and_true, Prod.mk.injEq] at h1 h2 h3 <;>
      obtain ⟨rfl, rfl⟩ := h3
    · exact .inl ⟨i', p, j, h0, hj, by exact_mod_cast h1.symm, by exact_mod_cast h2.symm, rfl, hf.zero⟩
    · exact .inr (.inl ⟨i', p, l, h0, hl, by exact_mod_cast h1.symm, by exact_mod_cast h2.symm, hf.zero, rfl⟩)
    · exact .inr (.inr (.inl ⟨l, j, p, h0, hp, by exact_mod_cast h1.symm, by exact_mod_cast h2.symm, hf.zero, rfl⟩))
    · exact .inr (.inr (.inr ⟨l, j, i', h0, hi', by exact_mod_cast h1.symm, by exact_mod_cast h2.symm, rfl, hf.zero⟩))
  · rintro (⟨i, p, j, h0, hj, rfl, rfl, rfl, rfl⟩ | ⟨i, p, l, h0, hl, rfl, rfl, rfl, rfl⟩ |
      ⟨l, j, p, h0, hp, rfl, rfl, rfl, rfl⟩ | ⟨l, j, i, h0, hi, rfl, rfl, rfl, rfl⟩)
    · exact ⟨_, _, by rw [← hf.zero], _, .inl ⟨i, p, j, h0, hj, rfl⟩, by simp [pairLabel], by simp [pairLabel], rfl⟩
    · exact ⟨_, _, by rw [← hf.zero], _, .inr (.inl ⟨i, p, l, h0, hl, rfl⟩), by simp [pairLabel], by simp [pairLabel], rfl⟩
    · exact ⟨_, _, by rw [← hf.zero], _, .inr (.inr (.inl ⟨l, j, p, h0, hp, rfl⟩)), by simp [pairLabel], by simp [pairLabel], rfl⟩
    · exact ⟨_, _, by rw [← hf.zero], _, .inr (.inr (.inr ⟨l, j, i, h0, hi, rfl⟩)), by simp [pairLabel], by simp [pairLabel], rfl⟩

theorem matEntry_zero_row {H : Rows F n} {i : ℕ} (hi : i < H.length) (h : H[i] = 0) (j : ℕ) : matEntry H i j = 0 := by
  rw [matEntry, List.getElem?_eq_getElem hi, h]
  simp [entryAt]

/-- The product matrix has no zero rows, and every qudit is acted on. -/
theorem hgp_noZero {A : Rows F n} {B : Rows F m} (hA : NoZeroLines A) (hB : NoZeroLines B) :
    (∀ r ∈ cssMatrix (hgpX id A B) (hgpZ id A B), r ≠ 0) ∧
      ∀ j, ∃ r ∈ cssMatrix (hgpX id A B) (hgpZ id A B), xPart r j ≠ 0 ∨ zPart r j ≠ 0 := by
  have hdecomp : ∀ {a c d : ℕ}, a < c * d → ∃ u v, u < c ∧ v < d ∧ a = u * d + v := by
    intro a c d h
    have hd : 0 < d := Nat.pos_of_ne_zero fun h0 => by simp [h0] at h
    refine ⟨a / d, a % d, ?_, Nat.mod_lt _ hd, ?_⟩
    · rw [Nat.div_lt_iff_lt_mul hd]
      exact h
    · rw [Nat.mul_comm]
      exact (Nat.div_add_mod a d).symm
  have hlx := (C46_matrix_x A B).1
  have hlz := (C46_matrix_z A B).1
  have hlen : (cssMatrix (hgpX id A B) (hgpZ id A B)).length = A.length * m + n * B.length := by
    rw [cssMatrix, blockDiag2, List.length_append, List.length_map, List.length_map, hlx, hlz]
  have hent := fun i j x z => (edge_iff hA hB i j x z).1
  set H := cssMatrix (hgpX id A B) (hgpZ id A B) with hH
  constructor
  · intro r hr h0
    obtain ⟨c, hc, rfl⟩ := List.getElem_of_mem hr
    have hz : ∀ j, matEntry (H.map xPart) c j = 0 ∧ matEntry (H.map zPart) c j = 0 := by
      intro j
      constructor <;> refine matEntry_zero_row (by simpa using hc) ?_ j
      · rw [List.getElem_map, h0]
        rfl
      · rw [List.getElem_map, h0]
        rfl
    rw [hlen] at hc
    by_cases hc1 : c < A.length * m
    · obtain ⟨i, q, hi, hq, rfl⟩ := hdecomp hc1
      obtain ⟨p, hp⟩ := (exists_row hi).2 (hA.1 _ (List.getElem_mem hi))
      have := hent (i * m + q) (p * m + q) _ _ ⟨_, (mem_oriented hA hB _).2 (.inl ⟨i, p, q, hp, hq, rfl⟩),
        by simp [pairLabel], by simp [pairLabel], rfl⟩
      exact hp (this.2.1.symm.trans (hz _).1)
    · obtain ⟨p, l, hp, hl, hpl⟩ := hdecomp (a := c - A.length * m) (c := n) (d := B.length) (by omega)
      obtain rfl : c = A.length * m + (p * B.length + l) := by omega
      obtain ⟨i, hi⟩ := (exists_col hp).2 (hA.2 ⟨p, hp⟩)
      have := hent (A.length * m + (p * B.length + l)) (n * m + (i * B.length + l)) _ _
        ⟨_, (mem_oriented hA hB _).2 (.inr (.inl ⟨i, p, l, hi, hl, rfl⟩)), by simp [pairLabel], by simp [pairLabel], rfl⟩
      exact hi (this.2.2.symm.trans (hz _).2)
  · rintro ⟨j, hj⟩
    have key : ∃ c, matEntry (H.map xPart) c j ≠ 0 := by
      by_cases hj1 : j < n * m
      · obtain ⟨p, q, hp, hq, rfl⟩ := hdecomp hj1
        obtain ⟨i, hi⟩ := (exists_col hp).2 (hA.2 ⟨p, hp⟩)
        have := hent (i * m + q) (p * m + q) _ _ ⟨_, (mem_oriented hA hB _).2 (.inl ⟨i, p, q, hi, hq, rfl⟩),
          by simp [pairLabel], by simp [pairLabel], rfl⟩
        exact ⟨_, this.2.1.trans_ne hi⟩
      · obtain ⟨i, l, hi, hl, hil⟩ := hdecomp (a := j - n * m) (c := A.length) (d := B.length) (by omega)
        obtain rfl : j = n * m + (i * B.length + l) := by omega
        obtain ⟨q, hq⟩ := (exists_row hl).2 (hB.1 _ (List.getElem_mem hl))
        have := hent (i * m + q) (n * m + (i * B.length + l)) _ _
          ⟨_, (mem_oriented hA hB _).2 (.inr (.inr (.inr ⟨l, q, i, hq, hi, rfl⟩))), by simp [pairLabel],
            by simp [pairLabel], rfl⟩
        exact ⟨_, this.2.1.trans_ne hq⟩
    rw [exists_col hj] at key
    obtain ⟨r, hr, h⟩ := key
    obtain ⟨r', hr', rfl⟩ := List.mem_map.1 hr
    exact ⟨r', hr', .inl h⟩

/-- C47: `graph_to_matrix` of the product graph is the parity check matrix of the hypergraph product code. -/
theorem C47_matrix {fi : FieldInts F} (hf : Spec.FieldInts.Ok fi) {A : Rows F n} {B : Rows F m}
    (hA : NoZeroLines A) (hB : NoZeroLines B) :
    (graphProduct fi (matrixToGraph A) (matrixToGraph B)).bind (graphToMatrixQ fi) =
      some ⟨n * m + A.length * B.length, cssMatrix (hgpX id A B) (hgpZ id A B)⟩ := by
  have h29 := (C29_qudit fi hf _).2 (hgp_noZero hA hB)
  obtain ⟨g, hg, hw, hfind, hnodes⟩ := graphProduct_spec hf hA hB
  set H := cssMatrix (hgpX id A B) (hgpZ id A B) with hH
  rw [matrixToGraphQ_eq hf, Option.bind_some] at h29
  rw [hg, Option.bind_some, ← h29]
  unfold graphToMatrixQ
  congr 1
  let R := indicesOf H.length fun i => ∃ j, opAt fi H i j ≠ none
  let C := indicesOf (n * m + A.length * B.length) fun j => ∃ i, opAt fi H i j ≠ none
  have hb : ∀ i j, opAt fi H i j ≠ none → i < H.length ∧ j < n * m + A.length * B.length := by
    intro i j h
    rcases opAt_ne_none.1 h with h | h
    · simpa using matEntry_bound h
    · simpa using matEntry_bound h
  have hR : ∀ i, i ∈ R ↔ ∃ j, opAt fi H i j ≠ none := fun i => mem_indicesOf (fun ⟨j, h⟩ => (hb _ _ h).1)
  have hC : ∀ j, j ∈ C ↔ ∃ i, opAt fi H i j ≠ none := fun j => mem_indicesOf (fun ⟨i, h⟩ => (hb _ _ h).2)
  have hconv : ∀ x : Node, ((∃ i : ℕ, (∃ j, opAt fi H i j ≠ none) ∧ x = chk i) ∨
      ∃ j : ℕ, (∃ i, opAt fi H i j ≠ none) ∧ x = dat j) ↔
      (∃ i ∈ R, x = ⟨(i : ℕ), false⟩) ∨ ∃ j ∈ C, x = ⟨(j : ℕ), true⟩ := by
    intro x
    simp only [hR, hC]
  rw [assemble_spec (0, 0) hw (opAt fi H) R C nodup_indicesOf nodup_indicesOf
      (fun x => (hnodes x).trans (hconv x)) hfind hR hC,
    assemble_spec (0, 0) (graphXZ_wf fi H) (opAt fi H) R C nodup_indicesOf nodup_indicesOf
      (fun x => (nodes_graphXZ fi H x).trans (hconv x)) (find_graphXZ hf H) hR hC]

/-- C47: the condition on the matrices cannot be dropped.  The Tanner graph of a matrix with a zero column has
no node for it, so the product graph has fewer nodes than the Tanner graph of the product code. -/
theorem C47_zero_column_disagreement :
    ((graphProduct (primeInts 2) (matrixToGraph ([![1, 0]] : Rows (ZMod 2) 2))
      (matrixToGraph ([![1, 1]] : Rows (ZMod 2) 2))).map fun g => g.nodes.length) = some 6 ∧
    ((matrixToGraphQ (primeInts 2) (cssMatrix (hgpX id ([![1, 0]] : Rows (ZMod 2) 2) ([![1, 1]] : Rows (ZMod 2) 2))
      (hgpZ id ([![1, 0]] : Rows (ZMod 2) 2) ([![1, 1]] : Rows (ZMod 2) 2)))).map fun g => g.nodes.length) =
      some 9 := by decide +kernel

example : NoZeroLines ([![1, 2], ![0, 1], ![2, 0]] : List (Fin 2 → ZMod 3)) ∧ Spec.FieldInts.Ok (primeInts 3) :=
  ⟨by unfold NoZeroLines; decide +kernel, primeInts_ok 3 (by decide)⟩
example : ((graphProduct (primeInts 3) (matrixToGraph ([![1, 2], ![0, 1], ![2, 0]] : Rows (ZMod 3) 2))
    (matrixToGraph ([![1, 1, 2]] : Rows (ZMod 3) 3))).map fun g => g.nodes.length) = some 20 := by decide +kernel

/-! ### Instances of the theorems: concrete cases meet the hypotheses -/

example := C47_graph (primeInts_ok 3 (by decide)) (A := [![1, 2], ![0, 1], ![2, 0]]) (B := [![1, 1, 2]]) (by unfold NoZeroLines; decide +kernel)
  (by unfold NoZeroLines; decide +kernel)
example := C47_matrix (primeInts_ok 3 (by decide)) (A := [![1, 2], ![0, 1], ![2, 0]]) (B := [![1, 1, 2]]) (by unfold NoZeroLines; decide +kernel)
  (by unfold NoZeroLines; decide +kernel)
example : True := by
  obtain ⟨g, hg⟩ := Option.isSome_iff_exists.1 (show (graphProduct (primeInts 3)
    (matrixToGraph ([![1, 2], ![0, 1], ![2, 0]] : Rows (ZMod 3) 2)) (matrixToGraph ([![1, 1, 2]] : Rows (ZMod 3) 3))).isSome = true by decide +kernel)
  have h := C47_edges (primeInts_ok 3 (by decide)) (A := [![1, 2], ![0, 1], ![2, 0]]) (B := [![1, 1, 2]]) (by unfold NoZeroLines; decide +kernel)
    (by unfold NoZeroLines; decide +kernel) hg 0 1 1 0
  trivial

end QLDPC.Props

#print axioms QLDPC.Props.C47_graph
#print axioms QLDPC.Props.C47_edges
#print axioms QLDPC.Props.C47_matrix
#print axioms QLDPC.Props.C47_zero_column_disagreement
