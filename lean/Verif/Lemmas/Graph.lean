import Verif.Model.Graph
import Verif.Lemmas.Strings
import Mathlib.Data.List.Perm.Basic
import Mathlib.Data.List.Nodup

/-! # Lemmas on Tanner graphs -/

namespace QLDPC

open Spec

variable {δ ε : Type}

namespace TGraph

variable {ν : Type} [DecidableEq ν]

/-- The data of an edge. -/
def find (g : TGraph δ ν) (k : ν × ν) : Option δ := (g.edges.find? fun e => e.1 = k).map Prod.snd

structure WF (g : TGraph δ ν) : Prop where
  nodes : g.nodes.Nodup
  keys : (g.edges.map Prod.fst).Nodup
  src : ∀ e ∈ g.edges, e.1.1 ∈ g.nodes

theorem mem_insertNode {l : List ν} {a x : ν} : x ∈ insertNode l a ↔ x ∈ l ∨ x = a := by
  unfold insertNode
  split
  · rename_i h
    constructor
    · exact .inl
    · rintro (h' | rfl)
      · exact h'
      · exact h
  · simp

theorem nodup_insertNode {l : List ν} {a : ν} (h : l.Nodup) : (insertNode l a).Nodup := by
  unfold insertNode
  split
  · exact h
  · rename_i ha
    rw [List.nodup_append]
    exact ⟨h, by simp, by rintro x hx y hy rfl; exact ha (by simpa using (List.mem_singleton.1 hy) ▸ hx)⟩

theorem map_fst_update (l : List ((ν × ν) × δ)) (k : ν × ν) (f : Option δ → δ) :
    (l.map fun e => if e.1 = k then (e.1, f (some e.2)) else e).map Prod.fst = l.map Prod.fst := by
  rw [List.map_map]
  refine List.map_congr_left fun e _ => ?_
  simp only [Function.comp_apply]
  split <;> rfl

theorem WF.update {g : TGraph δ ν} (h : g.WF) (a b : ν) (f : Option δ → δ) : (g.updateEdge a b f).WF where
  nodes := nodup_insertNode (nodup_insertNode h.nodes)
  keys := by
    simp only [updateEdge]
    split
    · rw [map_fst_update]
      exact h.keys
    · rename_i hk
      rw [List.map_append, List.nodup_append]
      refine ⟨h.keys, by simp, ?_⟩
      rintro x hx y hy rfl
      simp only [List.map_cons, List.map_nil, List.mem_singleton] at hy
      subst hy
      exact hk hx
  src := by
    intro e he
    simp only [updateEdge] at he ⊢
    rw [mem_insertNode, mem_insertNode]
    have : e.1 ∈ g.edges.map Prod.fst ∨ e.1 = (a, b) := by
      split at he
      · left
        rw [← map_fst_update g.edges (a, b) f]
        exact List.mem_map_of_mem he
      · rcases List.mem_append.1 he with he | he
        · exact .inl (List.mem_map_of_mem he)
        · simp only [List.mem_singleton] at he
          exact .inr (by rw [he])
    rcases this with h' | h'
    · obtain ⟨e', he', heq⟩ := List.mem_map.1 h'
      rw [← heq]
      exact .inl (.inl (h.src e' he'))
    · rw [h']
      exact .inl (.inr rfl)

theorem find_update (g : TGraph δ ν) (a b : ν) (f : Option δ → δ) (k : ν × ν) :
    (g.updateEdge a b f).find k = if k = (a, b) then some (f (g.find (a, b))) else g.find k := by
  unfold updateEdge find
  dsimp only
  split
  · rename_i hk
    rw [List.find?_map]
    have hp : ((fun e : (ν × ν) × δ => decide (e.1 = k)) ∘
        fun e => if e.1 = (a, b) then (e.1, f (some e.2)) else e) = fun e => decide (e.1 = k) := by
      funext e
      simp only [Function.comp_apply]
      split <;> rfl
    rw [hp]
    cases hf : g.edges.find? (fun e => decide (e.1 = k)) with
    | none =>
      split
      · rename_i hk'
        subst hk'
        obtain ⟨e, he, heq⟩ := List.mem_map.1 hk
        have := List.find?_eq_none.1 hf e he
        simp [heq] at this
      · rfl
    | some e =>
      have he : e.1 = k := by simpa using List.find?_some hf
      split
      · rename_i hk'
        subst hk'
        rw [hf]
        simp [he]
      · rename_i hk'
        simp [he, hk']
  · rename_i hk
    rw [List.find?_append]
    by_cases hk' : k = (a, b)
    · subst hk'
      have hn : g.edges.find? (fun e => decide (e.1 = (a, b))) = none := by
        rw [List.find?_eq_none]
        intro e he heq
        exact hk (List.mem_map.2 ⟨e, he, by simpa using heq⟩)
      simp [hn]
    · rw [if_neg hk']
      have : [((a, b), f none)].find? (fun e => decide (e.1 = k)) = none := by
        simp [List.find?_cons, Ne.symm hk']
      rw [this]
      simp

theorem WF.mem_iff {g : TGraph δ ν} (h : g.WF) (k : ν × ν) (d : δ) :
    (k, d) ∈ g.edges ↔ g.find k = some d := by
  have hk := h.keys
  unfold find
  generalize g.edges = l at hk
  induction l with
  | nil => simp
  | cons e l ih =>
    simp only [List.map_cons, List.nodup_cons] at hk
    rw [List.find?_cons, List.mem_cons]
    by_cases he : e.1 = k
    · simp only [he, decide_true]
      constructor
      · rintro (rfl | hm)
        · rfl
        · exact absurd (List.mem_map.2 ⟨_, hm, rfl⟩) (he ▸ hk.1)
      · intro hd
        left
        have : e.2 = d := by simpa using hd
        rw [← he, ← this]
    · simp only [he, decide_false]
      refine Iff.trans ?_ (ih hk.2)
      constructor
      · rintro (rfl | hm)
        · exact absurd rfl he
        · exact hm
      · exact .inr

theorem WF.mem_listEdges {g : TGraph δ ν} (h : g.WF) (k : ν × ν) (d : δ) :
    (k, d) ∈ g.listEdges ↔ g.find k = some d := by
  rw [← h.mem_iff]
  simp only [listEdges, List.mem_flatMap, List.mem_filter, decide_eq_true_eq]
  constructor
  · rintro ⟨u, -, h', -⟩
    exact h'
  · intro h'
    exact ⟨k.1, h.src _ h', h', rfl⟩

/-- Adding many edges. -/
def build (a b : ε → ν) (f : ε → Option δ → δ) (l : List ε) (g : TGraph δ ν) : TGraph δ ν :=
  l.foldl (fun g e => g.updateEdge (a e) (b e) (f e)) g

theorem WF.build {g : TGraph δ ν} (h : g.WF) (a b : ε → ν) (f : ε → Option δ → δ) (l : List ε) :
    (TGraph.build a b f l g).WF := by
  induction l generalizing g with
  | nil => exact h
  | cons e l ih => exact ih (h.update _ _ _)

theorem WF.empty : (⟨[], []⟩ : TGraph δ ν).WF := ⟨by simp, by simp, by simp⟩

theorem mem_nodes_build (a b : ε → ν) (f : ε → Option δ → δ) (l : List ε) (g : TGraph δ ν) (x : ν) :
    x ∈ (build a b f l g).nodes ↔ x ∈ g.nodes ∨ ∃ e ∈ l, x = a e ∨ x = b e := by
  induction l generalizing g with
  | nil => simp [build]
  | cons e l ih =>
    have : build a b f (e :: l) g = build a b f l (g.updateEdge (a e) (b e) (f e)) := rfl
    rw [this, ih]
    simp only [updateEdge, mem_insertNode, List.mem_cons, exists_eq_or_imp]
    rw [or_assoc, or_assoc, or_assoc]

theorem find_build (a b : ε → ν) (f : ε → Option δ → δ) (l : List ε) (g : TGraph δ ν) (k : ν × ν) :
    (build a b f l g).find k =
      (l.filter fun e => (a e, b e) = k).foldl (fun o e => some (f e o)) (g.find k) := by
  induction l generalizing g with
  | nil => rfl
  | cons e l ih =>
    have : build a b f (e :: l) g = build a b f l (g.updateEdge (a e) (b e) (f e)) := rfl
    rw [this, ih, find_update]
    by_cases he : (a e, b e) = k
    · rw [List.filter_cons_of_pos (by simpa using he), List.foldl_cons, if_pos he.symm, he]
    · rw [List.filter_cons_of_neg (by simpa using he), if_neg (Ne.symm he)]

end TGraph

/-! ### Filling a matrix -/

theorem pyIndex_nat {len i : ℕ} : pyIndex len (i : ℤ) = if i < len then some i else none := by
  unfold pyIndex
  rw [if_pos (by omega)]
  simp

theorem setEntry_range {m n : ℕ} (G : ℕ → Fin n → δ) (i j : ℕ) (v : δ) :
    setEntry ((List.range m).map G) i j v = if i < m ∧ j < n then
      some ((List.range m).map fun i' j' => if i' = i ∧ j'.val = j then v else G i' j') else none := by
  unfold setEntry
  rw [pyIndex_nat, pyIndex_nat]
  simp only [List.length_map, List.length_range]
  by_cases hi : i < m
  · by_cases hj : j < n
    · rw [if_pos hi, if_pos hj, if_pos ⟨hi, hj⟩]
      simp only [hj, dif_pos]
      congr 1
      refine List.ext_getElem (by simp) fun k h1 h2 => ?_
      rw [List.getElem_modify]
      simp only [List.getElem_map, List.getElem_range]
      by_cases hk : i = k
      · subst hk
        rw [if_pos rfl]
        funext j'
        by_cases hj' : j'.val = j
        · have : j' = ⟨j, hj⟩ := Fin.ext hj'
          subst this
          simp
        · rw [Function.update_of_ne (fun h => hj' (by rw [h]))]
          simp [hj']
      · rw [if_neg hk]
        funext j'
        simp [Ne.symm hk]
    · rw [if_pos hi, if_neg hj, if_neg (by tauto)]
  · rw [if_neg hi, if_neg (c := i < m ∧ j < n) (by tauto)]

theorem fill_range {m n : ℕ} (val : ℕ → ℕ → δ) (L : List ((Node × Node) × δ))
    (hL : ∀ e ∈ L, ∃ i j : ℕ, e = ((⟨i, false⟩, ⟨j, true⟩), val i j) ∧ i < m ∧ j < n)
    (G : ℕ → Fin n → δ) :
    L.foldlM (fun M e => setEntry M e.1.1.index e.1.2.index e.2) ((List.range m).map G) =
      some ((List.range m).map fun i (j : Fin n) =>
        if ((⟨(i : ℕ), false⟩, ⟨(j.val : ℕ), true⟩) : Node × Node) ∈ L.map Prod.fst then val i j else G i j) := by
  induction L generalizing G with
  | nil => simp
  | cons e L ih =>
    obtain ⟨i, j, rfl, hi, hj⟩ := hL e (by simp)
    rw [List.foldlM_cons]
    simp only
    rw [setEntry_range, if_pos ⟨hi, hj⟩]
    simp only [Option.bind_eq_bind, Option.bind_some]
    rw [ih fun e he => hL e (by simp [he])]
    congr 1
    refine List.map_congr_left fun i' _ => ?_
    funext j'
    simp only [List.map_cons, List.mem_cons]
    by_cases hm : ((⟨(i' : ℕ), false⟩, ⟨(j'.val : ℕ), true⟩) : Node × Node) ∈ L.map Prod.fst
    · rw [if_pos hm, if_pos (.inr hm)]
    · rw [if_neg hm]
      by_cases h : i' = i ∧ j'.val = j
      · rw [if_pos h, if_pos]
        · rw [h.1, h.2]
        · left
          rw [h.1, h.2]
      · rw [if_neg h, if_neg]
        rintro (h' | h')
        · apply h
          simpa using h'
        · exact hm h'

theorem fill_none {m n : ℕ} (L : List ((Node × Node) × δ))
    (hN : ∀ e ∈ L, ∃ i j : ℕ, e.1 = (⟨i, false⟩, ⟨j, true⟩))
    (hL : ∃ e ∈ L, ∃ i j : ℕ, e.1 = (⟨i, false⟩, ⟨j, true⟩) ∧ ¬(i < m ∧ j < n)) (G : ℕ → Fin n → δ) :
    L.foldlM (fun M e => setEntry M e.1.1.index e.1.2.index e.2) ((List.range m).map G) = none := by
  induction L generalizing G with
  | nil => obtain ⟨e, he, -⟩ := hL; simp at he
  | cons e L ih =>
    obtain ⟨i, j, hij⟩ := hN e (by simp)
    rw [List.foldlM_cons, hij]
    simp only
    rw [setEntry_range]
    by_cases h : i < m ∧ j < n
    · rw [if_pos h]
      simp only [Option.bind_eq_bind, Option.bind_some]
      refine ih (fun e he => hN e (by simp [he])) ?_ _
      obtain ⟨e', he', i', j', h1, h2⟩ := hL
      rcases List.mem_cons.1 he' with rfl | he'
      · rw [hij] at h1
        simp only [Prod.mk.injEq, Node.mk.injEq, Nat.cast_inj, and_true] at h1
        rw [← h1.1, ← h1.2] at h2
        exact absurd h h2
      · exact ⟨e', he', i', j', h1, h2⟩
    · rw [if_neg h]
      rfl

theorem count_nodes {nodes : List Node} (h : nodes.Nodup) (b : Bool) (S : List ℕ) (hS : S.Nodup)
    (hm : ∀ x : Node, x.isData = b → (x ∈ nodes ↔ ∃ i ∈ S, x = ⟨(i : ℕ), b⟩)) :
    (nodes.countP fun v => v.isData = b) = S.length := by
  rw [List.countP_eq_length_filter]
  have hp : (nodes.filter fun v => v.isData = b).Perm (S.map fun i : ℕ => (⟨(i : ℤ), b⟩ : Node)) := by
    refine (List.perm_ext_iff_of_nodup (h.filter _) (hS.map ?_)).2 fun x => ?_
    · intro i j hij
      simpa using hij
    · rw [List.mem_filter, List.mem_map, decide_eq_true_eq]
      constructor
      · rintro ⟨h1, h2⟩
        obtain ⟨i, hi, rfl⟩ := (hm x h2).1 h1
        exact ⟨i, hi, rfl⟩
      · rintro ⟨i, hi, rfl⟩
        exact ⟨(hm _ rfl).2 ⟨i, hi, rfl⟩, rfl⟩
  rw [hp.length_eq, List.length_map]

/-- Reading back a graph whose edges are given by a table `tab`, on checks `R` and bits `C`. -/
theorem assemble_spec (zero : δ) {g : TGraph δ} (hg : g.WF) (tab : ℕ → ℕ → Option δ) (R C : List ℕ)
    (hR : R.Nodup) (hC : C.Nodup)
    (hnodes : ∀ x : Node, x ∈ g.nodes ↔ (∃ i ∈ R, x = ⟨(i : ℕ), false⟩) ∨ ∃ j ∈ C, x = ⟨(j : ℕ), true⟩)
    (hedges : ∀ k d, g.find k = some d ↔ ∃ i j : ℕ, k = (⟨i, false⟩, ⟨j, true⟩) ∧ tab i j = some d)
    (hRt : ∀ i, i ∈ R ↔ ∃ j, tab i j ≠ none) (hCt : ∀ j, j ∈ C ↔ ∃ i, tab i j ≠ none) :
    assemble zero g = if (∀ i ∈ R, i < R.length) ∧ ∀ j ∈ C, j < C.length then
      some ⟨C.length, (List.range R.length).map fun i j => (tab i j).getD zero⟩ else none := by
  have hbits : (g.nodes.countP fun v => v.isData) = C.length := by
    have := count_nodes hg.nodes true C hC (fun x hx => by
      rw [hnodes]
      constructor
      · rintro (⟨i, -, rfl⟩ | h)
        · simp at hx
        · exact h
      · exact .inr)
    simpa using this
  have hchecks : g.nodes.length - (g.nodes.countP fun v => v.isData) = R.length := by
    have := count_nodes hg.nodes false R hR (fun x hx => by
      rw [hnodes]
      constructor
      · rintro (h | ⟨i, -, rfl⟩)
        · exact h
        · simp at hx
      · exact .inl)
    have h2 := List.length_eq_countP_add_countP (fun v : Node => v.isData) (l := g.nodes)
    simp only [Bool.not_eq_true] at h2
    omega
  unfold assemble
  dsimp only
  rw [hchecks]
  clear hchecks
  generalize (g.nodes.countP fun v => v.isData) = nb at hbits ⊢
  subst hbits
  have hrep : List.replicate R.length (fun _ : Fin C.length => zero) =
      (List.range R.length).map fun _ _ => zero := by
    rw [List.map_const', List.length_range]
  rw [hrep]
  split
  · rename_i h
    rw [fill_range (fun i j => (tab i j).getD zero)]
    · rw [Option.map_some]
      congr 2
      refine List.map_congr_left fun i hi => ?_
      funext j
      split
      · rfl
      · rename_i hn
        cases ht : tab i j with
        | none => rfl
        | some d =>
          exact absurd (List.mem_map.2 ⟨_, (hg.mem_listEdges _ _).2 ((hedges _ _).2 ⟨i, j, rfl, ht⟩), rfl⟩) hn
    · rintro ⟨k, d⟩ he
      obtain ⟨i, j, rfl, ht⟩ := (hedges _ _).1 ((hg.mem_listEdges _ _).1 he)
      refine ⟨i, j, by rw [ht]; rfl, h.1 i ((hRt i).2 ⟨j, by simp [ht]⟩), h.2 j ((hCt j).2 ⟨i, by simp [ht]⟩)⟩
  · rename_i h
    rw [fill_none, Option.map_none]
    · rintro ⟨k, d⟩ he
      obtain ⟨i, j, rfl, ht⟩ := (hedges _ _).1 ((hg.mem_listEdges _ _).1 he)
      exact ⟨i, j, rfl⟩
    · rw [Classical.not_and_iff_not_or_not] at h
      rcases h with h | h
      · push Not at h
        obtain ⟨i, hi, hlt⟩ := h
        obtain ⟨j, hj⟩ := (hRt i).1 hi
        obtain ⟨d, hd⟩ := Option.ne_none_iff_exists'.1 hj
        exact ⟨_, (hg.mem_listEdges _ _).2 ((hedges _ d).2 ⟨i, j, rfl, hd⟩), i, j, rfl, by omega⟩
      · push Not at h
        obtain ⟨j, hj, hlt⟩ := h
        obtain ⟨i, hi⟩ := (hCt j).1 hj
        obtain ⟨d, hd⟩ := Option.ne_none_iff_exists'.1 hi
        exact ⟨_, (hg.mem_listEdges _ _).2 ((hedges _ d).2 ⟨i, j, rfl, hd⟩), i, j, rfl, by omega⟩

end QLDPC
