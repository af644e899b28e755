import Verif.Lemmas.GraphProduct
import Verif.Props.Product
import Verif.Props.Graph

/-! # The edges of the product graph and the entries of the product matrix -/

namespace QLDPC

open Spec Props

variable {F : Type} [Field F] [DecidableEq F] {n m : ℕ}

/-- A data node and a check node. -/
abbrev dat (p : ℕ) : Node := ⟨(p : ℤ), true⟩
abbrev chk (p : ℕ) : Node := ⟨(p : ℤ), false⟩

theorem nodes_lines {A : Rows F n} (hA : NoZeroLines A) (x : Node) :
    x ∈ (matrixToGraph A).nodes ↔ x ∈ lineNodes n A.length := by
  rw [nodes_matrixToGraph, mem_lineNodes, or_comm]
  refine or_congr ⟨?_, ?_⟩ ⟨?_, ?_⟩
  · rintro ⟨j, ⟨i, h⟩, rfl⟩
    exact ⟨j, (matEntry_bound h).2, rfl⟩
  · rintro ⟨j, h, rfl⟩
    exact ⟨j, (exists_col h).2 (hA.2 ⟨j, h⟩), rfl⟩
  · rintro ⟨i, ⟨j, h⟩, rfl⟩
    exact ⟨i, (matEntry_bound h).1, rfl⟩
  · rintro ⟨i, h, rfl⟩
    exact ⟨i, (exists_row h).2 (hA.1 _ (List.getElem_mem h)), rfl⟩

theorem mem_cartesianEdges {δ : Type} {ga gb : TGraph δ} (ha : ga.WF) (hb : gb.WF)
    (e : ((Node × Node) × (Node × Node)) × δ) : e ∈ cartesianEdges ga gb ↔
      (∃ k d x, ga.find k = some d ∧ x ∈ gb.nodes ∧ e = (((k.1, x), (k.2, x)), d)) ∨
      ∃ k d x, gb.find k = some d ∧ x ∈ ga.nodes ∧ e = (((x, k.1), (x, k.2)), d) := by
  have hes : ∀ (P : Prop), (e ∈ ((ga.listEdges.flatMap fun e => gb.nodes.map fun x => (((e.1.1, x), (e.1.2, x)), e.2)) ++
      ga.nodes.flatMap fun x => gb.listEdges.map fun e => (((x, e.1.1), (x, e.1.2)), e.2)) ↔
      (∃ k d x, ga.find k = some d ∧ x ∈ gb.nodes ∧ e = (((k.1, x), (k.2, x)), d)) ∨
      ∃ k d x, gb.find k = some d ∧ x ∈ ga.nodes ∧ e = (((x, k.1), (x, k.2)), d)) := by
    intro P
    simp only [List.mem_append, List.mem_flatMap, List.mem_map]
    refine or_congr ⟨?_, ?_⟩ ⟨?_, ?_⟩
    · rintro ⟨⟨k, d⟩, h1, x, h2, rfl⟩
      exact ⟨k, d, x, (ha.mem_listEdges _ _).1 h1, h2, rfl⟩
    · rintro ⟨k, d, x, h1, h2, rfl⟩
      exact ⟨(k, d), (ha.mem_listEdges _ _).2 h1, x, h2, rfl⟩
    · rintro ⟨x, h2, ⟨k, d⟩, h1, rfl⟩
      exact ⟨k, d, x, (hb.mem_listEdges _ _).1 h1, h2, rfl⟩
    · rintro ⟨k, d, x, h1, h2, rfl⟩
      exact ⟨x, h2, (k, d), (hb.mem_listEdges _ _).2 h1, rfl⟩
  unfold cartesianEdges
  dsimp only
  rw [List.mem_flatMap]
  simp only [List.mem_filter, hes True, decide_eq_true_eq]
  constructor
  · rintro ⟨w, -, h, -⟩
    exact h
  · intro h
    refine ⟨e.1.1, ?_, h, rfl⟩
    simp only [List.mem_flatMap, List.mem_map]
    rcases h with ⟨k, d, x, h1, h2, rfl⟩ | ⟨k, d, x, h1, h2, rfl⟩
    · exact ⟨k.1, ha.src _ ((ha.mem_iff _ _).2 h1), x, h2, rfl⟩
    · exact ⟨x, h2, k.1, hb.src _ ((hb.mem_iff _ _).2 h1), rfl⟩

/-- The four kinds of edges of the product graph. -/
theorem mem_oriented {A : Rows F n} {B : Rows F m} (hA : NoZeroLines A) (hB : NoZeroLines B)
    (e : ((Node × Node) × (Node × Node)) × (F × F)) :
    e ∈ (cartesianEdges (matrixToGraph A) (matrixToGraph B)).map orientEdge ↔
      (∃ i p q, matEntry A i p ≠ 0 ∧ q < m ∧ e = (((chk i, dat q), (dat p, dat q)), (matEntry A i p, 0))) ∨
      (∃ i p l, matEntry A i p ≠ 0 ∧ l < B.length ∧
        e = (((dat p, chk l), (chk i, chk l)), (0, matEntry A i p))) ∨
      (∃ l q p, matEntry B l q ≠ 0 ∧ p < n ∧ e = (((dat p, chk l), (dat p, dat q)), (0, - matEntry B l q))) ∨
      ∃ l q i, matEntry B l q ≠ 0 ∧ i < A.length ∧
        e = (((chk i, dat q), (chk i, chk l)), (matEntry B l q, 0)) := by
  have hfind : ∀ {k : ℕ} (H : Rows F k) (key : Node × Node) (d : F), (matrixToGraph H).find key = some d ↔
      ∃ i j : ℕ, key = (chk i, dat j) ∧ matEntry H i j ≠ 0 ∧ d = matEntry H i j := by
    intro k H key d
    rw [find_matrixToGraph]
    refine exists_congr fun i => exists_congr fun j => and_congr_right fun _ => ?_
    split <;> simp_all [eq_comm]
  rw [List.mem_map]
  simp only [mem_cartesianEdges (matrixToGraph_wf A) (matrixToGraph_wf B), hfind, nodes_lines hA, nodes_lines hB,
    mem_lineNodes]
  constructor
  · rintro ⟨_, ⟨_, _, _, ⟨i, p, rfl, h0, rfl⟩, (⟨q, hq, rfl⟩ | ⟨l, hl, rfl⟩), rfl⟩ |
      ⟨_, _, _, ⟨l, q, rfl, h0, rfl⟩, (⟨p, hp, rfl⟩ | ⟨i, hi, rfl⟩), rfl⟩, rfl⟩
    · exact .inl ⟨i, p, q, h0, hq, by simp [orientEdge, sectorOf, isQuditSector]⟩
    · exact .inr (.inl ⟨i, p, l, h0, hl, by simp [orientEdge, sectorOf, isQuditSector]⟩)
    · exact .inr (.inr (.inl ⟨l, q, p, h0, hp, by simp [orientEdge, sectorOf, isQuditSector, h0]⟩))
    · exact .inr (.inr (.inr ⟨l, q, i, h0, hi, by simp [orientEdge, sectorOf, isQuditSector]⟩))
  · rintro (⟨i, p, q, h0, hq, rfl⟩ | ⟨i, p, l, h0, hl, rfl⟩ | ⟨l, q, p, h0, hp, rfl⟩ | ⟨l, q, i, h0, hi, rfl⟩)
    · exact ⟨(((chk i, dat q), (dat p, dat q)), matEntry A i p),
        .inl ⟨_, _, dat q, ⟨i, p, rfl, h0, rfl⟩, .inl ⟨q, hq, rfl⟩, rfl⟩, by simp [orientEdge, sectorOf, isQuditSector]⟩
    · exact ⟨(((chk i, chk l), (dat p, chk l)), matEntry A i p),
        .inl ⟨_, _, chk l, ⟨i, p, rfl, h0, rfl⟩, .inr ⟨l, hl, rfl⟩, rfl⟩, by simp [orientEdge, sectorOf, isQuditSector]⟩
    · exact ⟨(((dat p, chk l), (dat p, dat q)), matEntry B l q),
        .inr ⟨_, _, dat p, ⟨l, q, rfl, h0, rfl⟩, .inl ⟨p, hp, rfl⟩, rfl⟩,
        by simp [orientEdge, sectorOf, isQuditSector, h0]⟩
    · exact ⟨(((chk i, chk l), (chk i, dat q)), matEntry B l q),
        .inr ⟨_, _, chk i, ⟨l, q, rfl, h0, rfl⟩, .inr ⟨i, hi, rfl⟩, rfl⟩, by simp [orientEdge, sectorOf, isQuditSector]⟩

/-! ### Entries of the product matrix -/

theorem getElem?_cssMatrix_x (X Z : Rows F n) (i : ℕ) : ((cssMatrix X Z).map xPart)[i]? =
    if i < X.length then X[i]? else (Z[i - X.length]?).map fun _ => 0 := by
  unfold cssMatrix blockDiag2
  rw [List.map_append, List.map_map, List.map_map]
  have h1 : (xPart ∘ fun r : Fin n → F => Fin.append r (0 : Fin n → F)) = id := by
    funext r
    simp [xPart_append]
  have h2 : (xPart ∘ fun r : Fin n → F => Fin.append (0 : Fin n → F) r) = fun _ => 0 := by
    funext r
    simp [xPart_append]
  rw [h1, h2, List.map_id, List.getElem?_append]
  simp only [List.length_map, List.getElem?_map]

theorem getElem?_cssMatrix_z (X Z : Rows F n) (i : ℕ) : ((cssMatrix X Z).map zPart)[i]? =
    if i < X.length then (X[i]?).map fun _ => 0 else Z[i - X.length]? := by
  unfold cssMatrix blockDiag2
  rw [List.map_append, List.map_map, List.map_map]
  have h1 : (zPart ∘ fun r : Fin n → F => Fin.append r (0 : Fin n → F)) = fun _ => 0 := by
    funext r
    simp [zPart_append]
  have h2 : (zPart ∘ fun r : Fin n → F => Fin.append (0 : Fin n → F) r) = id := by
    funext r
    simp [zPart_append]
  rw [h1, h2, List.map_id, List.getElem?_append]
  simp only [List.length_map, List.getElem?_map]

theorem matEntry_cssMatrix_x (X Z : Rows F n) (i j : ℕ) : matEntry ((cssMatrix X Z).map xPart) i j =
    if i < X.length then matEntry X i j else 0 := by
  rw [matEntry, getElem?_cssMatrix_x]
  split
  · rfl
  · cases Z[i - X.length]? <;> simp [entryAt]

theorem matEntry_cssMatrix_z (X Z : Rows F n) (i j : ℕ) : matEntry ((cssMatrix X Z).map zPart) i j =
    if i < X.length then 0 else matEntry Z (i - X.length) j := by
  rw [matEntry, getElem?_cssMatrix_z]
  split
  · cases X[i]? <;> simp [entryAt]
  · rfl

/-- The edges of the product graph are the entries of the product matrix. -/
theorem edge_iff {A : Rows F n} {B : Rows F m} (hA : NoZeroLines A) (hB : NoZeroLines B) (i j : ℕ) (x z : F) :
    (∃ e ∈ (cartesianEdges (matrixToGraph A) (matrixToGraph B)).map orientEdge,
      pairLabel n m A.length B.length e.1.1 = chk i ∧ pairLabel n m A.length B.length e.1.2 = dat j ∧ e.2 = (x, z)) ↔
    (x ≠ 0 ∨ z ≠ 0) ∧ matEntry ((cssMatrix (hgpX id A B) (hgpZ id A B)).map xPart) i j = x ∧
      matEntry ((cssMatrix (hgpX id A B) (hgpZ id A B)).map zPart) i j = z := by
  obtain ⟨hlx, hX⟩ := C46_matrix_x A B
  obtain ⟨hlz, hZ⟩ := C46_matrix_z A B
  rw [matEntry_cssMatrix_x, matEntry_cssMatrix_z, hlx]
  have hflat : ∀ {a b c d : ℕ}, a < c → b < d → a * d + b < c * d := by
    intro a b c d h1 h2
    calc a * d + b < a * d + d := by omega
      _ = (a + 1) * d := by ring
      _ ≤ c * d := Nat.mul_le_mul_right _ h1
  constructor
  · rintro ⟨e, he, h1, h2, h3⟩
    rw [mem_oriented hA hB] at he
    rcases he with ⟨i', p, q, h0, hq, rfl⟩ | ⟨i', p, l, h0, hl, rfl⟩ | ⟨l, q, p, h0, hp, rfl⟩ |
      ⟨l, q, i', h0, hi', rfl⟩
    · obtain ⟨hi', hp⟩ := matEntry_bound h0
      simp only [pairLabel, Node.mk.injEq, and_true, Prod.mk.injEq] at h1 h2 h3
      obtain rfl : i' * m + q = i := by exact_mod_cast h1
      obtain rfl : p * m + q = j := by exact_mod_cast h2
      obtain ⟨rfl, rfl⟩ := h3
      rw [if_pos (hflat hi' hq), if_pos (hflat hi' hq), (hX i' q hi' hq).1 p q hp hq, if_pos rfl]
      exact ⟨.inl h0, rfl, rfl⟩
    · obtain ⟨hi', hp⟩ := matEntry_bound h0
      simp only [pairLabel, Node.mk.injEq, and_true, Prod.mk.injEq] at h1 h2 h3
      obtain rfl : A.length * m + (p * B.length + l) = i := by exact_mod_cast h1
      obtain rfl : n * m + (i' * B.length + l) = j := by exact_mod_cast h2
      obtain ⟨rfl, rfl⟩ := h3
      rw [if_neg (by omega), if_neg (by omega), Nat.add_sub_cancel_left, (hZ p l hp hl).2 i' l hi' hl, if_pos rfl]
      exact ⟨.inr h0, rfl, rfl⟩
    · obtain ⟨hl, hq⟩ := matEntry_bound h0
      simp only [pairLabel, Node.mk.injEq, and_true, Prod.mk.injEq] at h1 h2 h3
      obtain rfl : A.length * m + (p * B.length + l) = i := by exact_mod_cast h1
      obtain rfl : p * m + q = j := by exact_mod_cast h2
      obtain ⟨rfl, rfl⟩ := h3
      rw [if_neg (by omega), if_neg (by omega), Nat.add_sub_cancel_left, (hZ p l hp hl).1 p q hp hq, if_pos rfl]
      exact ⟨.inr (neg_ne_zero.2 h0), rfl, rfl⟩
    · obtain ⟨hl, hq⟩ := matEntry_bound h0
      simp only [pairLabel, Node.mk.injEq, and_true, Prod.mk.injEq] at h1 h2 h3
      obtain rfl : i' * m + q = i := by exact_mod_cast h1
      obtain rfl : n * m + (i' * B.length + l) = j := by exact_mod_cast h2
      obtain ⟨rfl, rfl⟩ := h3
      rw [if_pos (hflat hi' hq), if_pos (hflat hi' hq), (hX i' q hi' hq).2 i' l hi' hl, if_pos rfl]
      exact ⟨.inl h0, rfl, rfl⟩
  · rintro ⟨h0, h1, h2⟩
    have hdecomp : ∀ {a c d : ℕ}, a < c * d → ∃ u v, u < c ∧ v < d ∧ a = u * d + v := by
      intro a c d h
      have hd : 0 < d := Nat.pos_of_ne_zero fun h0 => by simp [h0] at h
      refine ⟨a / d, a % d, ?_, Nat.mod_lt _ hd, ?_⟩
      · rw [Nat.div_lt_iff_lt_mul hd]
        exact h
      · rw [Nat.mul_comm]
        exact (Nat.div_add_mod a d).symm
    by_cases hi : i < A.length * m
    · rw [if_pos hi] at h1 h2
      subst h2
      have h0 : x ≠ 0 := by simpa using h0
      obtain ⟨i', q, hi', hq, rfl⟩ := hdecomp hi
      have hj := (matEntry_bound (h1.trans_ne h0)).2
      by_cases hj1 : j < n * m
      · obtain ⟨p, q', hp, hq', rfl⟩ := hdecomp hj1
        rw [(hX i' q hi' hq).1 p q' hp hq'] at h1
        split at h1
        · rename_i hqq
          subst hqq
          subst h1
          refine ⟨_, (mem_oriented hA hB _).2 (.inl ⟨i', p, q, h0, hq, rfl⟩), ?_, ?_, rfl⟩ <;> simp [pairLabel]
        · exact absurd h1.symm h0
      · obtain ⟨k, l, hk, hl, hkl⟩ := hdecomp (a := j - n * m) (c := A.length) (d := B.length) (by omega)
        obtain rfl : j = n * m + (k * B.length + l) := by omega
        rw [(hX i' q hi' hq).2 k l hk hl] at h1
        split at h1
        · rename_i hqq
          subst hqq
          subst h1
          refine ⟨_, (mem_oriented hA hB _).2 (.inr (.inr (.inr ⟨l, q, i', h0, hi', rfl⟩))), ?_, ?_, rfl⟩ <;>
            simp [pairLabel]
        · exact absurd h1.symm h0
    · rw [if_neg hi] at h1 h2
      subst h1
      have h0 : z ≠ 0 := by simpa using h0
      obtain ⟨hi2, hj⟩ := matEntry_bound (h2.trans_ne h0)
      rw [hlz] at hi2
      obtain ⟨p, l, hp, hl, hpl⟩ := hdecomp hi2
      obtain rfl : i = A.length * m + (p * B.length + l) := by omega
      rw [hpl] at h2
      by_cases hj1 : j < n * m
      · obtain ⟨p', q, hp', hq, rfl⟩ := hdecomp hj1
        rw [(hZ p l hp hl).1 p' q hp' hq] at h2
        split at h2
        · rename_i hqq
          subst hqq
          subst h2
          refine ⟨_, (mem_oriented hA hB _).2 (.inr (.inr (.inl ⟨l, q, p, neg_ne_zero.1 h0, hp, rfl⟩))), ?_, ?_, rfl⟩ <;>
            simp [pairLabel]
        · exact absurd h2.symm h0
      · obtain ⟨k, l', hk, hl', hkl⟩ := hdecomp (a := j - n * m) (c := A.length) (d := B.length) (by omega)
        obtain rfl : j = n * m + (k * B.length + l') := by omega
        rw [(hZ p l hp hl).2 k l' hk hl'] at h2
        split at h2
        · rename_i hqq
          subst hqq
          subst h2
          refine ⟨_, (mem_oriented hA hB _).2 (.inr (.inl ⟨k, p, l, h0, hl, rfl⟩)), ?_, ?_, rfl⟩ <;> simp [pairLabel]
        · exact absurd h2.symm h0

/-- The labels of an edge of the product graph. -/
theorem edge_labels {A : Rows F n} {B : Rows F m} (hA : NoZeroLines A) (hB : NoZeroLines B)
    {e : ((Node × Node) × (Node × Node)) × (F × F)}
    (he : e ∈ (cartesianEdges (matrixToGraph A) (matrixToGraph B)).map orientEdge) :
    (∃ i j : ℕ, pairLabel n m A.length B.length e.1.1 = chk i ∧ pairLabel n m A.length B.length e.1.2 = dat j) ∧
      (e.1.1.1 ∈ lineNodes n A.length ∧ e.1.1.2 ∈ lineNodes m B.length) ∧
      e.1.2.1 ∈ lineNodes n A.length ∧ e.1.2.2 ∈ lineNodes m B.length := by
  rw [mem_oriented hA hB] at he
  simp only [mem_lineNodes]
  rcases he with ⟨i, p, q, h0, hq, rfl⟩ | ⟨i, p, l, h0, hl, rfl⟩ | ⟨l, q, p, h0, hp, rfl⟩ | ⟨l, q, i, h0, hi, rfl⟩
  · obtain ⟨hi, hp⟩ := matEntry_bound h0
    exact ⟨⟨i * m + q, p * m + q, by simp [pairLabel], by simp [pairLabel]⟩,
      ⟨.inr ⟨i, hi, rfl⟩, .inl ⟨q, hq, rfl⟩⟩, .inl ⟨p, hp, rfl⟩, .inl ⟨q, hq, rfl⟩⟩
  · obtain ⟨hi, hp⟩ := matEntry_bound h0
    exact ⟨⟨A.length * m + (p * B.length + l), n * m + (i * B.length + l), by simp [pairLabel], by simp [pairLabel]⟩,
      ⟨.inl ⟨p, hp, rfl⟩, .inr ⟨l, hl, rfl⟩⟩, .inr ⟨i, hi, rfl⟩, .inr ⟨l, hl, rfl⟩⟩
  · obtain ⟨hl, hq⟩ := matEntry_bound h0
    exact ⟨⟨A.length * m + (p * B.length + l), p * m + q, by simp [pairLabel], by simp [pairLabel]⟩,
      ⟨.inl ⟨p, hp, rfl⟩, .inr ⟨l, hl, rfl⟩⟩, .inl ⟨p, hp, rfl⟩, .inl ⟨q, hq, rfl⟩⟩
  · obtain ⟨hl, hq⟩ := matEntry_bound h0
    exact ⟨⟨i * m + q, n * m + (i * B.length + l), by simp [pairLabel], by simp [pairLabel]⟩,
      ⟨.inr ⟨i, hi, rfl⟩, .inl ⟨q, hq, rfl⟩⟩, .inr ⟨i, hi, rfl⟩, .inr ⟨l, hl, rfl⟩⟩

end QLDPC
