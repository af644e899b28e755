import Verif.Lemmas.Graph
import Verif.Spec.Matrix

/-! # Tanner graphs of matrices -/

namespace QLDPC

open Spec

variable {F : Type} [Field F] [DecidableEq F] {n : ℕ}

theorem filter_zipIdx_flatMap {α β : Type} (H : List α) (g : α × ℕ → List β) (p : β → Bool) (i k : ℕ)
    (hp : ∀ r, ∀ e ∈ g r, p e = true → r.2 = i) :
    ((H.zipIdx k).flatMap g).filter p =
      if k ≤ i then ((H[i - k]?).map fun r => (g (r, i)).filter p).getD [] else [] := by
  induction H generalizing k with
  | nil => simp
  | cons r H ih =>
    rw [List.zipIdx_cons, List.flatMap_cons, List.filter_append, ih]
    by_cases hk : k = i
    · subst hk
      rw [if_neg (by omega), if_pos le_rfl]
      simp
    · have h0 : (g (r, k)).filter p = [] :=
        List.filter_eq_nil_iff.2 fun e he hpe => hk (hp _ e he hpe)
      rw [h0, List.nil_append]
      by_cases hki : k ≤ i
      · rw [if_pos hki, if_pos (by omega)]
        have : i - k = (i - (k + 1)) + 1 := by omega
        rw [this, List.getElem?_cons_succ]
      · rw [if_neg hki, if_neg (by omega)]

theorem nodup_singleton {α : Type} [DecidableEq α] {l : List α} (h : l.Nodup) (x : α) (hx : ∀ y ∈ l, y = x) :
    l = if x ∈ l then [x] else [] := by
  match l with
  | [] => simp
  | [y] => rw [hx y (by simp)]; simp
  | y :: z :: l =>
    have h1 := hx y (by simp)
    have h2 := hx z (by simp)
    simp [h1, h2] at h

theorem filter_finRange (q : Fin n → Bool) (j : ℕ) :
    ((List.finRange n).filter fun x => q x && decide (x.val = j)) =
      if h : j < n then (if q ⟨j, h⟩ then [⟨j, h⟩] else []) else [] := by
  split
  · rename_i h
    have := nodup_singleton ((List.nodup_finRange n).filter fun x => q x && decide (x.val = j)) ⟨j, h⟩
      (fun y hy => by
        have := (List.mem_filter.1 hy).2
        simp only [Bool.and_eq_true, decide_eq_true_eq] at this
        exact Fin.ext this.2)
    rw [this]
    simp
  · rename_i h
    refine List.filter_eq_nil_iff.2 fun x _ hx => ?_
    simp only [Bool.and_eq_true, decide_eq_true_eq] at hx
    omega

theorem filter_row {β : Type} (v : Fin n → F) (f : Fin n → β) (p : β → Bool) (j : ℕ)
    (hp : ∀ x, p (f x) = decide (x.val = j)) :
    (((List.finRange n).filter fun x => v x ≠ 0).map f).filter p =
      if h : j < n then (if v ⟨j, h⟩ ≠ 0 then [f ⟨j, h⟩] else []) else [] := by
  rw [List.filter_map, List.filter_filter]
  have : (fun a => (p ∘ f) a && decide (v a ≠ 0)) =
      fun x : Fin n => decide (v x ≠ 0) && decide (x.val = j) := by
    funext x
    rw [Function.comp_apply, hp, Bool.and_comm]
  rw [this, filter_finRange]
  split
  · split <;> simp_all
  · rfl

theorem key_iff {i j i' j' : ℕ} : (((⟨i, false⟩, ⟨j, true⟩) : Node × Node) = (⟨i', false⟩, ⟨j', true⟩)) ↔
    i = i' ∧ j = j' := by simp

theorem filter_nonzeros (H : Rows F n) (i j : ℕ) :
    ((nonzeros H).filter fun e => (((⟨e.1, false⟩, ⟨e.2.1, true⟩) : Node × Node) = (⟨i, false⟩, ⟨j, true⟩))) =
      if matEntry H i j ≠ 0 then [(i, j, matEntry H i j)] else [] := by
  unfold nonzeros
  rw [filter_zipIdx_flatMap H _ _ i 0]
  · simp only [Nat.zero_le, if_true, Nat.sub_zero, matEntry]
    have hrow : ∀ o : Option (Fin n → F), (o.map fun r => ((((List.finRange n).filter fun j => r j ≠ 0).map
        fun j => (i, j.val, r j)).filter fun e => (((⟨e.1, false⟩, ⟨e.2.1, true⟩) : Node × Node) =
          (⟨i, false⟩, ⟨j, true⟩)))).getD [] = if (o.map fun r => entryAt r j).getD 0 ≠ 0 then
          [(i, j, (o.map fun r => entryAt r j).getD 0)] else [] := by
      intro o
      cases o with
      | none => simp
      | some r =>
        simp only [Option.map_some, Option.getD_some]
        rw [filter_row r _ _ j (fun x => by simp)]
        unfold entryAt
        split
        · rfl
        · simp
    exact hrow _
  · rintro ⟨r, k⟩ e he hpe
    obtain ⟨x, -, rfl⟩ := List.mem_map.1 he
    simpa using (key_iff.1 (by simpa using hpe)).1

theorem mem_nonzeros {H : Rows F n} {e : ℕ × ℕ × F} :
    e ∈ nonzeros H ↔ matEntry H e.1 e.2.1 ≠ 0 ∧ e.2.2 = matEntry H e.1 e.2.1 := by
  obtain ⟨i, j, v⟩ := e
  have := filter_nonzeros H i j
  have hm : (i, j, v) ∈ nonzeros H ↔ (i, j, v) ∈ (nonzeros H).filter fun e =>
      (((⟨e.1, false⟩, ⟨e.2.1, true⟩) : Node × Node) = (⟨i, false⟩, ⟨j, true⟩)) := by
    simp [List.mem_filter]
  rw [hm, this]
  split
  · rename_i h
    simp [h]
  · rename_i h
    simp at h
    simp [h]

theorem matEntry_bound {H : Rows F n} {i j : ℕ} (h : matEntry H i j ≠ 0) : i < H.length ∧ j < n := by
  unfold matEntry at h
  constructor
  · by_contra hi
    rw [List.getElem?_eq_none (by omega)] at h
    simp at h
  · by_contra hj
    cases hr : H[i]? with
    | none => simp [hr] at h
    | some r => simp [hr, entryAt, hj] at h

theorem matrixToGraph_eq (H : Rows F n) : matrixToGraph H = TGraph.build (fun e : ℕ × ℕ × F => ⟨e.1, false⟩)
    (fun e => ⟨e.2.1, true⟩) (fun e _ => e.2.2) (nonzeros H) ⟨[], []⟩ := rfl

theorem matrixToGraph_wf (H : Rows F n) : (matrixToGraph H).WF := TGraph.WF.empty.build _ _ _ _

theorem build_find_other {δ ε : Type} (a b : ε → ℕ) (f : ε → Option δ → δ) (l : List ε) (k : Node × Node) (d : δ)
    (h : (TGraph.build (fun e => (⟨a e, false⟩ : Node)) (fun e => ⟨b e, true⟩) f l ⟨[], []⟩).find k = some d) :
    ∃ i j : ℕ, k = (⟨i, false⟩, ⟨j, true⟩) := by
  rw [TGraph.find_build] at h
  by_cases hk : ∃ e ∈ l, ((⟨a e, false⟩, ⟨b e, true⟩) : Node × Node) = k
  · obtain ⟨e, -, rfl⟩ := hk
    exact ⟨_, _, rfl⟩
  · rw [List.filter_eq_nil_iff.2 (by simpa using fun e he => fun h' => hk ⟨e, he, h'⟩)] at h
    simp [TGraph.find] at h

theorem find_matrixToGraph (H : Rows F n) (k : Node × Node) (d : F) :
    (matrixToGraph H).find k = some d ↔ ∃ i j : ℕ, k = (⟨i, false⟩, ⟨j, true⟩) ∧
      (if matEntry H i j ≠ 0 then some (matEntry H i j) else none) = some d := by
  have key : ∀ i j : ℕ, (matrixToGraph H).find (⟨i, false⟩, ⟨j, true⟩) =
      if matEntry H i j ≠ 0 then some (matEntry H i j) else none := by
    intro i j
    rw [matrixToGraph_eq, TGraph.find_build]
    have := filter_nonzeros H i j
    rw [this]
    split <;> rfl
  constructor
  · intro h
    obtain ⟨i, j, rfl⟩ := build_find_other (fun e : ℕ × ℕ × F => e.1) (fun e => e.2.1) _ _ _ _ h
    exact ⟨i, j, rfl, by rw [← key, h]⟩
  · rintro ⟨i, j, rfl, h⟩
    rw [key, h]

theorem nodes_matrixToGraph (H : Rows F n) (x : Node) : x ∈ (matrixToGraph H).nodes ↔
    (∃ i : ℕ, (∃ j, matEntry H i j ≠ 0) ∧ x = ⟨i, false⟩) ∨
      ∃ j : ℕ, (∃ i, matEntry H i j ≠ 0) ∧ x = ⟨j, true⟩ := by
  rw [matrixToGraph_eq, TGraph.mem_nodes_build]
  simp only [List.not_mem_nil, false_or]
  constructor
  · rintro ⟨e, he, h⟩
    have he := (mem_nonzeros.1 he).1
    rcases h with rfl | rfl
    · exact .inl ⟨_, ⟨_, he⟩, rfl⟩
    · exact .inr ⟨_, ⟨_, he⟩, rfl⟩
  · rintro (⟨i, ⟨j, h⟩, rfl⟩ | ⟨j, ⟨i, h⟩, rfl⟩)
    · exact ⟨(i, j, matEntry H i j), mem_nonzeros.2 ⟨h, rfl⟩, .inl rfl⟩
    · exact ⟨(i, j, matEntry H i j), mem_nonzeros.2 ⟨h, rfl⟩, .inr rfl⟩

/-- Reading back the graph of a matrix; `R` and `C` are its nonzero rows and columns. -/
theorem graphToMatrix_matrixToGraph (H : Rows F n) (R C : List ℕ) (hR : R.Nodup) (hC : C.Nodup)
    (hRt : ∀ i, i ∈ R ↔ ∃ j, matEntry H i j ≠ 0) (hCt : ∀ j, j ∈ C ↔ ∃ i, matEntry H i j ≠ 0) :
    graphToMatrix (matrixToGraph H) = if (∀ i ∈ R, i < R.length) ∧ ∀ j ∈ C, j < C.length then
      some ⟨C.length, (List.range R.length).map fun i j => matEntry H i j⟩ else none := by
  have hne : ∀ i j, (if matEntry H i j ≠ 0 then some (matEntry H i j) else none) ≠ none ↔ matEntry H i j ≠ 0 := by
    intro i j
    split <;> simp_all
  rw [graphToMatrix, assemble_spec 0 (matrixToGraph_wf H)
    (fun i j => if matEntry H i j ≠ 0 then some (matEntry H i j) else none) R C hR hC]
  · have : ∀ i j : ℕ, ((if matEntry H i j ≠ 0 then some (matEntry H i j) else none).getD 0) = matEntry H i j := by
      intro i j
      split
      · rfl
      · rename_i h
        simp only [ne_eq, not_not] at h
        rw [h]
        rfl
    simp only [this]
  · intro x
    rw [nodes_matrixToGraph]
    simp only [hRt, hCt]
  · exact find_matrixToGraph H
  · intro i
    simp only [hne, hRt]
  · intro j
    simp only [hne, hCt]

theorem rows_eq_matEntry (H : Rows F n) :
    ((List.range H.length).map fun i (j : Fin n) => matEntry H i j) = H := by
  refine List.ext_getElem (by simp) fun i h1 h2 => ?_
  funext j
  rw [List.getElem_map, List.getElem_range, matEntry, List.getElem?_eq_getElem h2]
  simp [entryAt]

/-! ### Qudit codes -/

theorem filter_nonzerosXZ (H : Rows F (n + n)) (i j : ℕ) :
    ((nonzerosXZ H).filter fun e =>
      (((⟨e.1, false⟩, ⟨e.2.2.1, true⟩) : Node × Node) = (⟨i, false⟩, ⟨j, true⟩))) =
      (if matEntry (H.map xPart) i j ≠ 0 then [(i, false, j, matEntry (H.map xPart) i j)] else []) ++
      (if matEntry (H.map zPart) i j ≠ 0 then [(i, true, j, matEntry (H.map zPart) i j)] else []) := by
  unfold nonzerosXZ
  rw [filter_zipIdx_flatMap H _ _ i 0]
  · simp only [Nat.zero_le, if_true, Nat.sub_zero, matEntry, List.getElem?_map]
    cases hr : H[i]? with
    | none => simp
    | some r =>
      simp only [Option.map_some, Option.getD_some]
      rw [List.filter_append, filter_row (xPart r) _ _ j (fun x => by simp),
        filter_row (zPart r) _ _ j (fun x => by simp)]
      unfold entryAt
      split
      · rfl
      · simp
  · rintro ⟨r, k⟩ e he hpe
    rcases List.mem_append.1 he with he | he
    · obtain ⟨x, -, rfl⟩ := List.mem_map.1 he
      simpa using (key_iff.1 (by simpa using hpe)).1
    · obtain ⟨x, -, rfl⟩ := List.mem_map.1 he
      simpa using (key_iff.1 (by simpa using hpe)).1

/-- The operator of check `i` on qudit `j`, if not the identity. -/
def opAt (fi : FieldInts F) (H : Rows F (n + n)) (i j : ℕ) : Option (ℤ × ℤ) :=
  if matEntry (H.map xPart) i j = 0 ∧ matEntry (H.map zPart) i j = 0 then none
  else some (fi.toInt (matEntry (H.map xPart) i j), fi.toInt (matEntry (H.map zPart) i j))

/-- The graph before exponents are made into Paulis. -/
def graphXZ (fi : FieldInts F) (H : Rows F (n + n)) : TGraph (ℤ × ℤ) :=
  TGraph.build (fun e : ℕ × Bool × ℕ × F => ⟨e.1, false⟩) (fun e => ⟨e.2.2.1, true⟩)
    (fun e => addXZ e.2.1 (fi.toInt e.2.2.2)) (nonzerosXZ H) ⟨[], []⟩

theorem graphXZ_wf (fi : FieldInts F) (H : Rows F (n + n)) : (graphXZ fi H).WF :=
  TGraph.WF.empty.build _ _ _ _

theorem find_graphXZ {fi : FieldInts F} (hf : Spec.FieldInts.Ok fi) (H : Rows F (n + n)) (k : Node × Node)
    (d : ℤ × ℤ) : (graphXZ fi H).find k = some d ↔ ∃ i j : ℕ, k = (⟨i, false⟩, ⟨j, true⟩) ∧
      opAt fi H i j = some d := by
  have key : ∀ i j : ℕ, (graphXZ fi H).find (⟨i, false⟩, ⟨j, true⟩) = opAt fi H i j := by
    intro i j
    rw [graphXZ, TGraph.find_build, filter_nonzerosXZ H i j, opAt]
    by_cases hx : matEntry (H.map xPart) i j = 0 <;> by_cases hz : matEntry (H.map zPart) i j = 0 <;>
      simp [hx, hz, addXZ, TGraph.find, hf.zero]
  constructor
  · intro h
    obtain ⟨i, j, rfl⟩ := build_find_other (fun e : ℕ × Bool × ℕ × F => e.1) (fun e => e.2.2.1) _ _ _ _ h
    exact ⟨i, j, rfl, by rw [← key, h]⟩
  · rintro ⟨i, j, rfl, h⟩
    rw [key, h]

theorem opAt_ne_none {fi : FieldInts F} {H : Rows F (n + n)} {i j : ℕ} : opAt fi H i j ≠ none ↔
    matEntry (H.map xPart) i j ≠ 0 ∨ matEntry (H.map zPart) i j ≠ 0 := by
  unfold opAt
  split
  · rename_i h
    simp [h]
  · rename_i h
    simp only [ne_eq, reduceCtorEq, not_false_eq_true, true_iff]
    tauto

theorem mem_nonzerosXZ {H : Rows F (n + n)} {i j : ℕ} : (∃ e ∈ nonzerosXZ H, e.1 = i ∧ e.2.2.1 = j) ↔
    matEntry (H.map xPart) i j ≠ 0 ∨ matEntry (H.map zPart) i j ≠ 0 := by
  have h1 : (∃ e ∈ nonzerosXZ H, e.1 = i ∧ e.2.2.1 = j) ↔ ((nonzerosXZ H).filter fun e =>
      (((⟨e.1, false⟩, ⟨e.2.2.1, true⟩) : Node × Node) = (⟨i, false⟩, ⟨j, true⟩))) ≠ [] := by
    rw [ne_eq, List.filter_eq_nil_iff]
    push Not
    simp
  rw [h1, filter_nonzerosXZ]
  by_cases hx : matEntry (H.map xPart) i j = 0 <;> by_cases hz : matEntry (H.map zPart) i j = 0 <;>
    simp [hx, hz]

theorem nodes_graphXZ (fi : FieldInts F) (H : Rows F (n + n)) (x : Node) : x ∈ (graphXZ fi H).nodes ↔
    (∃ i : ℕ, (∃ j, opAt fi H i j ≠ none) ∧ x = ⟨i, false⟩) ∨
      ∃ j : ℕ, (∃ i, opAt fi H i j ≠ none) ∧ x = ⟨j, true⟩ := by
  rw [graphXZ, TGraph.mem_nodes_build]
  simp only [List.not_mem_nil, false_or, opAt_ne_none, ← mem_nonzerosXZ]
  constructor
  · rintro ⟨e, he, h⟩
    rcases h with rfl | rfl
    · exact .inl ⟨_, ⟨_, e, he, rfl, rfl⟩, rfl⟩
    · exact .inr ⟨_, ⟨_, e, he, rfl, rfl⟩, rfl⟩
  · rintro (⟨i, ⟨j, e, he, rfl, rfl⟩, rfl⟩ | ⟨j, ⟨i, e, he, rfl, rfl⟩, rfl⟩)
    · exact ⟨e, he, .inl rfl⟩
    · exact ⟨e, he, .inr rfl⟩

theorem matrixToGraphQ_eq {fi : FieldInts F} (hf : Spec.FieldInts.Ok fi) (H : Rows F (n + n)) :
    matrixToGraphQ fi H = some (graphXZ fi H) := by
  have hg : (graphXZ fi H).WF := TGraph.WF.empty.build _ _ _ _
  have : matrixToGraphQ fi H = if fi.order = 2 then
      (if (graphXZ fi H).edges.all fun e => (pauliToString e.2).isSome then some (graphXZ fi H) else none)
      else some (graphXZ fi H) := rfl
  rw [this]
  split
  · rename_i h2
    rw [if_pos]
    rw [List.all_eq_true]
    rintro ⟨k, d⟩ he
    obtain ⟨i, j, rfl, h⟩ := (find_graphXZ hf H k d).1 ((hg.mem_iff _ _).1 he)
    unfold opAt at h
    split at h
    · cases h
    · have h := Option.some.inj h
      subst h
      rcases hf.two h2 (matEntry (H.map xPart) i j) with a | a <;>
        rcases hf.two h2 (matEntry (H.map zPart) i j) with b | b <;> simp [pauliToString, a, b]
  · rfl

theorem graphToMatrixQ_matrixToGraphQ {fi : FieldInts F} (hf : Spec.FieldInts.Ok fi) (H : Rows F (n + n))
    (R C : List ℕ) (hR : R.Nodup) (hC : C.Nodup) (hRt : ∀ i, i ∈ R ↔ ∃ j, opAt fi H i j ≠ none)
    (hCt : ∀ j, j ∈ C ↔ ∃ i, opAt fi H i j ≠ none) :
    (matrixToGraphQ fi H).bind (graphToMatrixQ fi) =
      if (∀ i ∈ R, i < R.length) ∧ ∀ j ∈ C, j < C.length then
        some ⟨C.length, (List.range R.length).map fun i =>
          Fin.append (fun j : Fin C.length => matEntry (H.map xPart) i j)
            fun j : Fin C.length => matEntry (H.map zPart) i j⟩ else none := by
  rw [matrixToGraphQ_eq hf, Option.bind_some, graphToMatrixQ,
    assemble_spec (0, 0) (graphXZ_wf fi H) (opAt fi H) R C hR hC
      (fun x => by rw [nodes_graphXZ]; simp only [hRt, hCt]) (find_graphXZ hf H) hRt hCt]
  split
  · simp only [Option.bind_some]
    have hget : ∀ i j, (opAt fi H i j).getD (0, 0) =
        (fi.toInt (matEntry (H.map xPart) i j), fi.toInt (matEntry (H.map zPart) i j)) := by
      intro i j
      unfold opAt
      split
      · rename_i h
        simp [h, hf.zero]
      · rfl
    have hm : (((List.range R.length).map fun i (j : Fin C.length) => (opAt fi H i j).getD (0, 0)).mapM
        (rowToField fi)) = some ((List.range R.length).map fun i =>
          Fin.append (fun j : Fin C.length => matEntry (H.map xPart) i j)
            fun j : Fin C.length => matEntry (H.map zPart) i j) := by
      rw [mapM_some_iff, List.forall₂_map_left_iff, List.forall₂_map_right_iff]
      refine List.forall₂_same.2 fun i _ => ?_
      unfold rowToField
      rw [if_pos]
      · simp only [hget, hf.ofInt_toInt, Option.getD_some]
      · intro j
        simp [hget, hf.ofInt_toInt]
    rw [hm]
    rfl
  · rfl

end QLDPC
