import Verif.Model.Qudit
import Verif.Props.Qudit
import Verif.Lemmas.CssLogicals

/-! What does hold of `get_logical_ops` of a general subsystem code. -/

set_option linter.unusedSectionVars false

namespace QLDPC

open Spec Props

variable {F : Type} [Field F] [DecidableEq F] {n : ℕ}

theorem indexList_spec {α : Type} {l : List α} {idx : List ℕ} {out : List α}
    (h : indexList l idx = some out) :
    (∀ x ∈ out, x ∈ l) ∧ (l.Nodup → idx.Nodup → out.Nodup) ∧
      (∀ x ∈ out, ∃ i ∈ idx, l[i]? = some x) := by
  induction idx generalizing out with
  | nil =>
    simp [indexList] at h
    subst h
    simp
  | cons i idx ih =>
    simp only [indexList, List.mapM_cons, Option.bind_eq_bind, Option.pure_def,
      Option.bind_eq_some_iff] at h
    obtain ⟨x, hx, out', ho, rfl⟩ : ∃ a, l[i]? = some a ∧ ∃ b, idx.mapM (fun i => l[i]?) = some b ∧
        a :: b = out := by simpa using h
    obtain ⟨h1, h2, h3⟩ := ih (out := out') ho
    refine ⟨?_, ?_, ?_⟩
    · intro y hy
      rcases List.mem_cons.1 hy with rfl | hy
      · exact List.mem_of_getElem? hx
      · exact h1 y hy
    · intro hl hi
      rw [List.nodup_cons] at hi ⊢
      refine ⟨fun hmem => ?_, h2 hl hi.2⟩
      obtain ⟨j, hj, hj'⟩ := h3 x hmem
      have hlt : i < l.length := (List.getElem?_eq_some_iff.1 hx).1
      have hij : i = j := (List.getElem?_inj hlt hl).1 (hx.trans hj'.symm)
      exact hi.1 (hij ▸ hj)
    · intro y hy
      rcases List.mem_cons.1 hy with rfl | hy
      · exact ⟨i, by simp, hx⟩
      · obtain ⟨j, hj, hj'⟩ := h3 y hy
        exact ⟨j, by simp [hj], hj'⟩

/-- pivot columns after the first `s` rows, shifted by `s`, are distinct -/
theorem pivots_nodup {N : ℕ} (M : Rows F N) (s t : ℕ) :
    (((firstNonzeroCols ((dropZero (rowReduce M)).take t)).drop s).map fun p => p.val - s).Nodup := by
  have hD := rrefPairs_isRREF M
  have hT : IsRREF ((rrefPairs M).take t) :=
    ⟨fun q hq => hD.one q (List.mem_of_mem_take hq), fun q hq => hD.left q (List.mem_of_mem_take hq),
      hD.pair.sublist (List.take_sublist _ _)⟩
  rw [dropZero_rowReduce, ← List.map_take, firstNonzeroCols_rref hT]
  set D := (rrefPairs M).take t
  have hp : (D.map Prod.fst).Pairwise (· < ·) := by
    rw [List.pairwise_map]
    exact hT.pair.imp fun h => h.1
  have hge : ∀ (L : List (Fin N)) (a : ℕ), L.Pairwise (· < ·) → (∀ x ∈ L, a ≤ x.val) →
      ∀ x ∈ L.drop s, a + s ≤ x.val := by
    clear hp hT hD
    induction s with
    | zero => intro L a _ h x hx; simpa using h x hx
    | succ s ih =>
      intro L a hL h x hx
      cases L with
      | nil => simp at hx
      | cons y L =>
        rw [List.pairwise_cons] at hL
        rw [List.drop_succ_cons] at hx
        have := ih L (a + 1) hL.2 (fun z hz => by
          have h1 : y.val < z.val := hL.1 z hz
          have h2 := h y (by simp)
          omega) x hx
        omega
  have hp' := hp.sublist (List.drop_sublist s _)
  have hge' := hge _ 0 hp (fun x _ => Nat.zero_le _)
  rw [List.Nodup, List.pairwise_map]
  refine hp'.imp_of_mem ?_
  intro x y hx hy hlt
  have h1 := hge' x hx
  have h2 : x.val < y.val := hlt
  omega

/-- the parts of the standard form that the pairing depends on -/
theorem stdSubsystem_cols {M : Rows F (n + n)} {d : StdData F n} (h : stdSubsystem M = some d) :
    ∃ d0, stdStabilizer (subsystemStabilizers M) = some d0 ∧ d.locs = d0.locs ∧
      d.colsSX = d0.colsSX ∧ d.colsSZ = d0.colsSZ ∧
      d.colsLX = d0.colsLZ.filter (fun q => q ∉ d.colsGX) ∧ (∀ c ∈ d.colsGX, c ∈ d0.colsLZ) ∧
      (d0.colsLZ.Nodup → d.colsGX.Nodup) := by
  unfold stdSubsystem at h
  simp only [Option.bind_eq_bind, Option.bind_eq_some_iff, Option.pure_def, Option.some.injEq] at h
  obtain ⟨d0, h0, fx, _, fz, _, gx, hgx, gz, hgz, rfl⟩ := h
  obtain ⟨h1, h2, _⟩ := indexList_spec hgx
  exact ⟨d0, h0, rfl, rfl, rfl, rfl, h1, fun hn => h2 hn (pivots_nodup _ _ _)⟩

theorem subsystemLogicals_pair {M LX LZ : Rows F (n + n)}
    (h : subsystemLogicals M = some (LX, LZ)) :
    LX.length = subsystemDimension M ∧ LZ.length = subsystemDimension M ∧
      (∀ (i j : ℕ) (hi : i < LX.length) (hj : j < LZ.length),
        sform LX[i] LZ[j] = if i = j then 1 else 0) ∧
      (∀ p ∈ LZ, xPart p = 0) := by
  unfold subsystemLogicals at h
  simp only [Option.bind_eq_bind, Option.bind_eq_some_iff, Option.pure_def, Option.some.injEq,
    Prod.mk.injEq] at h
  obtain ⟨d, hd, sd, hsd, rfl, rfl⟩ := h
  obtain ⟨d0, h0, hl, hX, hZ, hLX, hsub, hnd⟩ := stdSubsystem_cols hd
  obtain ⟨e0, he0, hstd, _, _⟩ := stdStabilizer_spec (subsystemStabilizers M) (C23_independent M).2.1
  rw [h0] at he0
  cases he0
  have hLn : d0.colsLZ.Nodup := by rw [hstd.lz]; exact hstd.nodupL
  set cols := (d.colsGX ++ d.colsLX).insertionSort (· ≤ ·) with hcols
  have hperm : cols.Perm (d.colsGX ++ d.colsLX) := List.perm_insertionSort _ _
  have hcn : cols.Nodup := by
    rw [hperm.nodup_iff, List.nodup_append]
    refine ⟨hnd hLn, by rw [hLX]; exact hLn.filter _, ?_⟩
    rintro a ha b hb rfl
    rw [hLX, List.mem_filter] at hb
    simp [ha] at hb
  have hcm : ∀ c ∈ cols, c ∈ d0.colsLX := by
    intro c hc
    rw [← hstd.lz]
    rcases List.mem_append.1 (hperm.mem_iff.1 hc) with hc | hc
    · exact hsub c hc
    · rw [hLX] at hc; exact (List.mem_filter.1 hc).1
  obtain ⟨s1, s2, s3, _, _⟩ := gaugeSeeds_spec hcn hsd
  set k := subsystemDimension M
  refine ⟨by simp, by simp, ?_, ?_⟩
  · intro i j hi hj
    simp only [List.length_map, List.length_range] at hi hj
    simp only [List.getElem_map, List.getElem_range]
    unfold logicalPair
    simp only
    rw [sform_eq]
    simp only [xPart_append, zPart_append, dot_zero_right, sub_zero]
    rw [hl, dot_takeAt (argsort_perm d0.locs), ← s3 i j hi hj]
    unfold dot
    refine Finset.sum_congr rfl fun c _ => ?_
    by_cases hc : c ∈ d.colsSZ
    · have hc' : c ∈ d0.colsSZ := by rwa [← hZ]
      have hnX : c ∉ d.colsSX := by
        rw [hX]
        intro hx
        exact (List.nodup_append.1 hstd.nodup).2.2 c (by simp [hx]) c hc' rfl
      have hnc : c ∉ cols := by
        intro hx
        exact (List.nodup_append.1 hstd.nodup).2.2 c (by simp [hcm c hx]) c hc' rfl
      rw [assign_of_notMem hnX, s2 _ _ hnc, mul_zero, mul_zero]
    · by_cases hc2 : c ∈ d.colsSX
      · have hnc : c ∉ cols := by
          intro hx
          exact hstd.L_not_X (hcm c hx) (by rwa [← hX])
        rw [assign_of_notMem hc, s1 _ _ hnc, zero_mul, zero_mul]
      · rw [assign_of_notMem hc, assign_of_notMem hc2]
  · intro p hp
    simp only [List.mem_map] at hp
    obtain ⟨q, ⟨t, _, rfl⟩, rfl⟩ := hp
    simp [logicalPair, xPart_append]

end QLDPC
