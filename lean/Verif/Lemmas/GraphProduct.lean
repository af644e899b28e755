import Verif.Model.GraphProduct
import Verif.Lemmas.GraphMatrix
import Verif.Lemmas.Tanner
import Mathlib.Tactic.Ring

/-! # Lemmas on the product of Tanner graphs -/

namespace QLDPC

open Spec

/-! ### Relabelling -/

/-- The nodes of the Tanner graph of a matrix with `n` columns and `r` rows, in order. -/
def lineNodes (n r : ℕ) : List Node :=
  ((List.range n).map fun p : ℕ => (⟨(p : ℤ), true⟩ : Node)) ++
    (List.range r).map fun i : ℕ => (⟨(i : ℤ), false⟩ : Node)

theorem mem_lineNodes {n r : ℕ} {x : Node} : x ∈ lineNodes n r ↔
    (∃ p : ℕ, p < n ∧ x = ⟨(p : ℤ), true⟩) ∨ ∃ i : ℕ, i < r ∧ x = ⟨(i : ℤ), false⟩ := by
  simp only [lineNodes, List.mem_append, List.mem_map, List.mem_range, eq_comm (a := x)]

theorem nodup_lineNodes (n r : ℕ) : (lineNodes n r).Nodup := by
  unfold lineNodes
  rw [List.nodup_append]
  refine ⟨List.nodup_range.map fun a b h => by simpa using h, List.nodup_range.map fun a b h => by simpa using h, ?_⟩
  intro a ha b hb hab
  simp only [List.mem_map, List.mem_range] at ha hb
  obtain ⟨p, -, rfl⟩ := ha
  obtain ⟨i, -, rfl⟩ := hb
  simp at hab

theorem sorted_nodes {n r : ℕ} {l : List Node} (hn : l.Nodup) (h : ∀ x, x ∈ l ↔ x ∈ lineNodes n r) :
    pySorted Node.lt id l = lineNodes n r := by
  apply pySorted_eq
  · rintro ⟨i, _ | _⟩ ⟨j, _ | _⟩ <;> simp [Node.lt] <;> omega
  · exact (List.perm_ext_iff_of_nodup (nodup_lineNodes n r) hn).2 fun x => (h x).symm
  · unfold lineNodes
    rw [List.pairwise_append]
    refine ⟨?_, ?_, ?_⟩
    · rw [List.pairwise_map]
      exact List.pairwise_lt_range.imp fun h => by simpa [Node.lt] using h
    · rw [List.pairwise_map]
      exact List.pairwise_lt_range.imp fun h => by simpa [Node.lt] using h
    · intro a ha b hb
      simp only [List.mem_map, List.mem_range] at ha hb
      obtain ⟨p, -, rfl⟩ := ha
      obtain ⟨i, -, rfl⟩ := hb
      simp [Node.lt]

theorem count_lineNodes {n r : ℕ} {l : List Node} (hn : l.Nodup) (h : ∀ x, x ∈ l ↔ x ∈ lineNodes n r) :
    (l.countP fun v => v.isData) = n ∧ l.length = n + r := by
  have hp : (lineNodes n r).Perm l :=
    (List.perm_ext_iff_of_nodup (nodup_lineNodes n r) hn).2 fun x => (h x).symm
  rw [← hp.countP_eq, ← hp.length_eq]
  unfold lineNodes
  constructor
  · rw [List.countP_append, List.countP_map, List.countP_map]
    have h1 : ((fun v : Node => v.isData) ∘ fun p : ℕ => (⟨(p : ℤ), true⟩ : Node)) = fun _ => true := rfl
    have h2 : ((fun v : Node => v.isData) ∘ fun p : ℕ => (⟨(p : ℤ), false⟩ : Node)) = fun _ => false := rfl
    rw [h1, h2]
    simp
  · simp

/-- The label of a pair of nodes. -/
def pairLabel (n m rA rB : ℕ) (w : Node × Node) : Node :=
  match w.1.isData, w.2.isData with
  | true, true => ⟨w.1.index * m + w.2.index, true⟩
  | false, false => ⟨n * m + (w.1.index * rB + w.2.index), true⟩
  | false, true => ⟨w.1.index * m + w.2.index, false⟩
  | true, false => ⟨rA * m + (w.1.index * rB + w.2.index), false⟩

abbrev MapState := List ((Node × Node) × Node) × ℕ × ℕ

theorem fold_qudits (numX num : ℕ) (w : ℕ → Node × Node) (hw : ∀ q, isQuditSector (sectorOf (w q)) = true)
    (k : ℕ) (s : MapState) :
    ((List.range k).map w).foldl (nodeMapStep numX num) s =
      (s.1 ++ (List.range k).map (fun q => (w q, ⟨((s.2.1 + q : ℕ) : ℤ), true⟩)), s.2.1 + k, s.2.2) := by
  induction k with
  | zero => simp
  | succ k ih =>
    rw [List.range_succ, List.map_append, List.foldl_append, ih]
    simp [nodeMapStep, hw, Nat.add_assoc]

theorem fold_checks (numX num : ℕ) (w : ℕ → Node × Node) (hw : ∀ q, isQuditSector (sectorOf (w q)) = false)
    (k : ℕ) (s : MapState) :
    ((List.range k).map w).foldl (nodeMapStep numX num) s =
      (s.1 ++ (List.range k).map (fun q => (w q, ⟨((s.2.2 + q + numX) % num : ℕ), false⟩)), s.2.1, s.2.2 + k) := by
  induction k with
  | zero => simp
  | succ k ih =>
    rw [List.range_succ, List.map_append, List.foldl_append, ih]
    simp [nodeMapStep, hw, Nat.add_assoc]

theorem fold_blocks (f : MapState → Node × Node → MapState) (L : ℕ → List (Node × Node))
    (R : ℕ → ℕ → ℕ → List ((Node × Node) × Node)) (x y : ℕ)
    (h : ∀ p (s : MapState), (L p).foldl f s = (s.1 ++ R p s.2.1 s.2.2, s.2.1 + x, s.2.2 + y))
    (k : ℕ) (s : MapState) :
    ((List.range k).flatMap L).foldl f s =
      (s.1 ++ (List.range k).flatMap (fun p => R p (s.2.1 + p * x) (s.2.2 + p * y)), s.2.1 + k * x,
        s.2.2 + k * y) := by
  induction k with
  | zero => simp
  | succ k ih =>
    rw [List.range_succ, List.flatMap_append, List.foldl_append, ih]
    simp [h, List.flatMap_append, Nat.add_mul, Nat.add_assoc]

theorem productNodeMap_eq {n m rA rB : ℕ} {na nb : List Node} (ha : na.Nodup) (hb : nb.Nodup)
    (hna : ∀ x, x ∈ na ↔ x ∈ lineNodes n rA) (hnb : ∀ x, x ∈ nb ↔ x ∈ lineNodes m rB) :
    productNodeMap na nb = ((lineNodes n rA).flatMap fun a => (lineNodes m rB).map fun b => (a, b)).map
      fun w => (w, pairLabel n m rA rB w) := by
  unfold productNodeMap
  dsimp only
  rw [sorted_nodes ha hna, sorted_nodes hb hnb, (count_lineNodes ha hna).1, (count_lineNodes ha hna).2,
    (count_lineNodes hb hnb).1, (count_lineNodes hb hnb).2, Nat.add_sub_cancel_left, Nat.add_sub_cancel_left]
  generalize hX : rA * m = numX
  generalize hT : numX + rB * n = num
  -- rows
  have h1 : ∀ (p : ℕ) (s : MapState), ((lineNodes m rB).map fun b => ((⟨(p : ℤ), true⟩ : Node), b)).foldl
      (nodeMapStep numX num) s = (s.1 ++ (((List.range m).map fun q : ℕ => (((⟨(p : ℤ), true⟩ : Node), (⟨(q : ℤ), true⟩ : Node)),
          (⟨((s.2.1 + q : ℕ) : ℤ), true⟩ : Node))) ++ (List.range rB).map fun l : ℕ => (((⟨(p : ℤ), true⟩ : Node), (⟨(l : ℤ), false⟩ : Node)),
          (⟨((s.2.2 + l + numX) % num : ℕ), false⟩ : Node))), s.2.1 + m, s.2.2 + rB) := by
    intro p s
    unfold lineNodes
    rw [List.map_append, List.map_map, List.map_map, List.foldl_append]
    have e1 := fold_qudits numX num (fun q : ℕ => ((⟨(p : ℤ), true⟩ : Node), (⟨(q : ℤ), true⟩ : Node)))
      (fun q => by simp [sectorOf, isQuditSector]) m s
    have e2 := fold_checks numX num (fun q : ℕ => ((⟨(p : ℤ), true⟩ : Node), (⟨(q : ℤ), false⟩ : Node)))
      (fun q => by simp [sectorOf, isQuditSector]) rB
    simp only [Function.comp_def]
    rw [e1, e2]
    simp
  have h2 : ∀ (i : ℕ) (s : MapState), ((lineNodes m rB).map fun b => ((⟨(i : ℤ), false⟩ : Node), b)).foldl
      (nodeMapStep numX num) s = (s.1 ++ (((List.range m).map fun q : ℕ => (((⟨(i : ℤ), false⟩ : Node), (⟨(q : ℤ), true⟩ : Node)),
          (⟨((s.2.2 + q + numX) % num : ℕ), false⟩ : Node))) ++ (List.range rB).map fun l : ℕ => (((⟨(i : ℤ), false⟩ : Node), (⟨(l : ℤ), false⟩ : Node)),
          (⟨((s.2.1 + l : ℕ) : ℤ), true⟩ : Node))), s.2.1 + rB, s.2.2 + m) := by
    intro i s
    unfold lineNodes
    rw [List.map_append, List.map_map, List.map_map, List.foldl_append]
    have e1 := fold_checks numX num (fun q : ℕ => ((⟨(i : ℤ), false⟩ : Node), (⟨(q : ℤ), true⟩ : Node)))
      (fun q => by simp [sectorOf, isQuditSector]) m s
    have e2 := fold_qudits numX num (fun q : ℕ => ((⟨(i : ℤ), false⟩ : Node), (⟨(q : ℤ), false⟩ : Node)))
      (fun q => by simp [sectorOf, isQuditSector]) rB
    simp only [Function.comp_def]
    rw [e1, e2]
    simp
  have hsplit : ((lineNodes n rA).flatMap fun a => (lineNodes m rB).map fun b => (a, b)) =
      ((List.range n).flatMap fun p : ℕ => (lineNodes m rB).map fun b => ((⟨(p : ℤ), true⟩ : Node), b)) ++
      (List.range rA).flatMap fun i : ℕ => (lineNodes m rB).map fun b => ((⟨(i : ℤ), false⟩ : Node), b) := by
    generalize lineNodes m rB = LB
    rw [lineNodes, List.flatMap_append, List.flatMap_map, List.flatMap_map]
  rw [hsplit, List.foldl_append,
    fold_blocks (nodeMapStep numX num) _ (fun p d c => (((List.range m).map fun q : ℕ => (((⟨(p : ℤ), true⟩ : Node), (⟨(q : ℤ), true⟩ : Node)),
          (⟨((d + q : ℕ) : ℤ), true⟩ : Node))) ++ (List.range rB).map fun l : ℕ => (((⟨(p : ℤ), true⟩ : Node), (⟨(l : ℤ), false⟩ : Node)),
          (⟨((c + l + numX) % num : ℕ), false⟩ : Node)))) m rB h1,
    fold_blocks (nodeMapStep numX num) _ (fun i d c => (((List.range m).map fun q : ℕ => (((⟨(i : ℤ), false⟩ : Node), (⟨(q : ℤ), true⟩ : Node)),
          (⟨((c + q + numX) % num : ℕ), false⟩ : Node))) ++ (List.range rB).map fun l : ℕ => (((⟨(i : ℤ), false⟩ : Node), (⟨(l : ℤ), false⟩ : Node)),
          (⟨((d + l : ℕ) : ℤ), true⟩ : Node)))) rB m h2]
  simp only [List.nil_append, List.map_append, List.map_flatMap, Nat.zero_add]
  congr 1
  · apply List.flatMap_congr
    intro p hp
    rw [List.mem_range] at hp
    unfold lineNodes
    rw [List.map_append, List.map_append, List.map_map, List.map_map, List.map_map, List.map_map]
    refine congrArg₂ (· ++ ·) ?_ ?_
    · apply List.map_congr_left
      intro q _
      simp [pairLabel]
    · apply List.map_congr_left
      intro l hl
      rw [List.mem_range] at hl
      have hlt : p * rB + l + numX < num := by
        rw [← hT]
        have : p * rB + l < rB * n := by
          calc p * rB + l < p * rB + rB := by omega
            _ = (p + 1) * rB := by ring
            _ ≤ n * rB := Nat.mul_le_mul_right _ hp
            _ = rB * n := Nat.mul_comm _ _
        omega
      simp only [Function.comp_apply, pairLabel, Nat.mod_eq_of_lt hlt]
      subst hX
      simp only [Nat.cast_add, Nat.cast_mul, Prod.mk.injEq, Node.mk.injEq, and_true, true_and]
      ring
  · apply List.flatMap_congr
    intro i hi
    rw [List.mem_range] at hi
    unfold lineNodes
    rw [List.map_append, List.map_append, List.map_map, List.map_map, List.map_map, List.map_map]
    refine congrArg₂ (· ++ ·) ?_ ?_
    · apply List.map_congr_left
      intro q hq
      rw [List.mem_range] at hq
      have hlt : i * m + q < numX := by
        rw [← hX]
        calc i * m + q < i * m + m := by omega
          _ = (i + 1) * m := by ring
          _ ≤ rA * m := Nat.mul_le_mul_right _ hi
      have he : n * rB + i * m + q + numX = i * m + q + num := by
        rw [← hT, Nat.mul_comm n rB]
        ring
      have hmod : (n * rB + i * m + q + numX) % num = i * m + q := by
        rw [he, Nat.add_mod_right, Nat.mod_eq_of_lt (by omega)]
      simp only [Function.comp_apply, pairLabel, hmod]
      simp
    · apply List.map_congr_left
      intro l _
      simp only [Function.comp_apply, pairLabel]
      simp [add_assoc]

theorem find_map_key {α β : Type} [DecidableEq α] (l : List α) (f : α → β) (w : α) :
    ((l.map fun w => (w, f w)).find? fun e => e.1 = w).map Prod.snd = if w ∈ l then some (f w) else none := by
  induction l with
  | nil => simp
  | cons a l ih =>
    rw [List.map_cons, List.find?_cons]
    by_cases h : a = w
    · simp [h]
    · simp only [h, decide_false, ih, List.mem_cons, Ne.symm h, false_or]

/-- Looking up a pair. -/
theorem find_productNodeMap {n m rA rB : ℕ} {na nb : List Node} (ha : na.Nodup) (hb : nb.Nodup)
    (hna : ∀ x, x ∈ na ↔ x ∈ lineNodes n rA) (hnb : ∀ x, x ∈ nb ↔ x ∈ lineNodes m rB) (w : Node × Node) :
    ((productNodeMap na nb).find? fun e => e.1 = w).map Prod.snd =
      if w.1 ∈ lineNodes n rA ∧ w.2 ∈ lineNodes m rB then some (pairLabel n m rA rB w) else none := by
  rw [productNodeMap_eq ha hb hna hnb, find_map_key]
  congr 1
  simp only [List.mem_flatMap, List.mem_map, eq_iff_iff]
  constructor
  · rintro ⟨a, h1, b, h2, rfl⟩
    exact ⟨h1, h2⟩
  · rintro ⟨h1, h2⟩
    exact ⟨w.1, h1, w.2, h2, rfl⟩

/-! ### Edges given once -/

namespace TGraph

variable {δ ν ε : Type} [DecidableEq ν]

theorem find_build_const (a b : ε → ν) (f : ε → δ) (l : List ε) (g : TGraph δ ν) (k : ν × ν) (hg : g.find k = none)
    (h : ∀ e ∈ l, ∀ e' ∈ l, a e = a e' → b e = b e' → f e = f e') (d : δ) :
    (build a b (fun e _ => f e) l g).find k = some d ↔ ∃ e ∈ l, (a e, b e) = k ∧ f e = d := by
  rw [find_build, hg]
  have hm : ∀ e, e ∈ l.filter (fun e => decide ((a e, b e) = k)) ↔ e ∈ l ∧ (a e, b e) = k := by
    intro e
    simp [List.mem_filter]
  rcases List.eq_nil_or_concat (l.filter fun e => decide ((a e, b e) = k)) with h0 | ⟨l', e0, h0⟩
  · rw [h0]
    simp only [h0, List.not_mem_nil, false_iff] at hm
    simp only [List.foldl_nil, reduceCtorEq, false_iff]
    rintro ⟨e, h1, h2, -⟩
    exact hm e ⟨h1, h2⟩
  · rw [h0] at hm
    rw [h0, List.concat_eq_append, List.foldl_append]
    simp only [List.foldl_cons, List.foldl_nil, Option.some.injEq]
    have h1 := (hm e0).1 (by simp)
    constructor
    · rintro rfl
      exact ⟨e0, h1.1, h1.2, rfl⟩
    · rintro ⟨e, h2, h3, rfl⟩
      have := h1.2.trans h3.symm
      simp only [Prod.mk.injEq] at this
      exact h _ h1.1 _ h2 this.1 this.2

end TGraph

end QLDPC
