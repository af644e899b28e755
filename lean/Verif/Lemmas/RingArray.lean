import Verif.Model.RingArray
import Verif.Props.Groups
import Verif.Lemmas.CssSubsystem

/-! # Lemmas on row reduction over a group algebra -/

namespace QLDPC

open Spec

set_option linter.unusedSectionVars false

variable {F G : Type} [Field F] [DecidableEq F] [Group G] [DecidableEq G] [Fintype G] {n : ℕ}

section Generic

variable {R : Type} [Ring R] [DecidableEq R] {inv : R → Option R}

/-- The left module generated by the rows. -/
def leftSpan (M : RingRows R n) : Submodule R (Fin n → R) := Submodule.span R {v | v ∈ M}

theorem subset_leftSpan {M : RingRows R n} {v} (h : v ∈ M) : v ∈ leftSpan M := Submodule.subset_span h

theorem leftSpan_le {M : RingRows R n} {S : Submodule R (Fin n → R)} : leftSpan M ≤ S ↔ ∀ v ∈ M, v ∈ S :=
  Submodule.span_le

theorem leftSpan_append (A B : RingRows R n) : leftSpan (A ++ B) = leftSpan A ⊔ leftSpan B := by
  unfold leftSpan
  rw [← Submodule.span_union]
  congr 1
  ext v
  simp

theorem findUnit_some {v : Fin n → R} {c : Fin n} {a : R} (h : findUnit inv v = some (c, a)) : inv (v c) = some a := by
  unfold findUnit at h
  obtain ⟨c', _, h⟩ := List.exists_of_findSome?_eq_some h
  obtain ⟨b, hb, he⟩ := Option.map_eq_some_iff.1 h
  rw [Prod.mk.injEq] at he
  rw [← he.1, hb, he.2]

theorem findUnit_none {v : Fin n → R} : findUnit inv v = none ↔ ∀ c, inv (v c) = none := by
  unfold findUnit
  rw [List.findSome?_eq_none_iff]
  simp

theorem length_reduceStep (M : RingRows R n) (row : ℕ) : (reduceStep inv M row).length = M.length := by
  unfold reduceStep
  split
  · rfl
  · split
    · rfl
    · simp

theorem leftSpan_reduceStep (hinv : ∀ x y, inv x = some y → x * y = 1 ∧ y * x = 1) (M : RingRows R n) (row : ℕ) :
    leftSpan (reduceStep inv M row) = leftSpan M := by
  unfold reduceStep
  cases hv : M[row]? with
  | none => rfl
  | some v =>
    dsimp only
    cases hf : findUnit inv v with
    | none => rfl
    | some ca =>
      obtain ⟨c, a⟩ := ca
      dsimp only
      obtain ⟨hrow, hvr⟩ := List.getElem?_eq_some_iff.1 hv
      have hvM : v ∈ M := hvr ▸ List.getElem_mem _
      have hva := hinv _ _ (findUnit_some hf)
      have hw : (fun j => a * v j) = a • v := rfl
      rw [hw]
      apply le_antisymm
      · rw [leftSpan_le]
        intro u hu
        obtain ⟨i, hi, rfl⟩ := List.mem_iff_getElem.1 hu
        rw [List.getElem_mapIdx]
        have hwM : a • v ∈ leftSpan M := Submodule.smul_mem _ _ (subset_leftSpan hvM)
        split
        · exact hwM
        · exact Submodule.sub_mem _ (subset_leftSpan (List.getElem_mem _)) (Submodule.smul_mem _ _ hwM)
      · rw [leftSpan_le]
        intro u hu
        obtain ⟨i, hi, rfl⟩ := List.mem_iff_getElem.1 hu
        set M' := M.mapIdx fun i u => if i = row then a • v else fun j => u j - u c * (a • v) j with hM'
        have hwM' : a • v ∈ leftSpan M' := by
          refine subset_leftSpan (List.mem_iff_getElem.2 ⟨row, by simpa [hM'] using hrow, ?_⟩)
          simp [hM']
        by_cases hir : i = row
        · subst hir
          rw [hvr]
          have : v = v c • (a • v) := by
            rw [smul_smul, hva.1, one_smul]
          have h2 := Submodule.smul_mem _ (v c) hwM'
          rwa [← this] at h2
        · have hmem : M'[i]'(by simpa [hM'] using hi) ∈ leftSpan M' := subset_leftSpan (List.getElem_mem _)
          have he : M'[i]'(by simpa [hM'] using hi) = M[i] - M[i] c • (a • v) := by
            simp only [hM', List.getElem_mapIdx, if_neg hir]
            rfl
          rw [he] at hmem
          have := Submodule.add_mem _ hmem (Submodule.smul_mem _ (M[i] c) hwM')
          rwa [sub_add_cancel] at this

theorem length_foldl_reduceStep (l : List ℕ) (M : RingRows R n) :
    (l.foldl (reduceStep inv) M).length = M.length := by
  induction l generalizing M with
  | nil => rfl
  | cons a l ih => rw [List.foldl_cons, ih, length_reduceStep]

theorem leftSpan_foldl_reduceStep (hinv : ∀ x y, inv x = some y → x * y = 1 ∧ y * x = 1) (l : List ℕ)
    (M : RingRows R n) : leftSpan (l.foldl (reduceStep inv) M) = leftSpan M := by
  induction l generalizing M with
  | nil => rfl
  | cons a l ih => rw [List.foldl_cons, ih, leftSpan_reduceStep hinv]

/-- Row `i` has a one at `c`, and all other rows have a zero there. -/
def PivotAt (M : RingRows R n) (i : ℕ) (c : Fin n) : Prop :=
  (∃ v, M[i]? = some v ∧ v c = 1) ∧ ∀ k u, k ≠ i → M[k]? = some u → u c = 0

theorem PivotAt.step (hinv : ∀ x y, inv x = some y → x * y = 1 ∧ y * x = 1) {M : RingRows R n} {i row : ℕ} {c : Fin n}
    (h : PivotAt M i c) (hne : row ≠ i) : PivotAt (reduceStep inv M row) i c := by
  unfold reduceStep
  cases hv : M[row]? with
  | none => exact h
  | some v =>
    dsimp only
    cases hf : findUnit inv v with
    | none => exact h
    | some ca =>
      obtain ⟨c', a⟩ := ca
      dsimp only
      have hvc : v c = 0 := h.2 row v hne hv
      obtain ⟨⟨p, hp, hpc⟩, hz⟩ := h
      refine ⟨⟨_, by rw [List.getElem?_mapIdx, hp]; rfl, ?_⟩, ?_⟩
      · simp [Ne.symm hne, hvc, hpc]
      · intro k u hk hu
        rw [List.getElem?_mapIdx] at hu
        obtain ⟨u', hu', rfl⟩ := Option.map_eq_some_iff.1 hu
        split
        · simp [hvc]
        · simp [hvc, hz k u' hk hu']

theorem pivotAt_new (hinv : ∀ x y, inv x = some y → x * y = 1 ∧ y * x = 1) {M : RingRows R n} {row : ℕ}
    {v : Fin n → R} (hv : M[row]? = some v) {c : Fin n} {a : R} (hf : findUnit inv v = some (c, a)) :
    PivotAt (reduceStep inv M row) row c := by
  have hva := hinv _ _ (findUnit_some hf)
  unfold reduceStep
  rw [hv]
  dsimp only
  rw [hf]
  dsimp only
  refine ⟨⟨_, by rw [List.getElem?_mapIdx, hv]; rfl, ?_⟩, ?_⟩
  · simp [hva.2]
  · intro k u hk hu
    rw [List.getElem?_mapIdx] at hu
    obtain ⟨u', hu', rfl⟩ := Option.map_eq_some_iff.1 hu
    simp [hk, hva.2]

theorem reduceRows_pivot (hinv : ∀ x y, inv x = some y → x * y = 1 ∧ y * x = 1) (M : RingRows R n) (i : ℕ)
    (hi : i < M.length) {v : Fin n → R} (hv : ((List.range i).foldl (reduceStep inv) M)[i]? = some v) {c : Fin n} {a : R}
    (hf : findUnit inv v = some (c, a)) : PivotAt (reduceRows inv M) i c := by
  unfold reduceRows
  obtain ⟨d, hd⟩ : ∃ d, M.length = i + 1 + d := ⟨M.length - (i + 1), by omega⟩
  rw [hd]
  clear hd
  induction d with
  | zero =>
    rw [add_zero, List.range_succ, List.foldl_append]
    exact pivotAt_new hinv hv hf
  | succ d ih =>
    rw [← add_assoc, List.range_succ, List.foldl_append]
    exact ih.step hinv (by omega)

theorem isPivotRow_iff (M : RingRows R n) (i : ℕ) : isPivotRow M i = true ↔
    ∃ c, ∀ k u, M[k]? = some u → (u c ≠ 0 ↔ k = i) := by
  unfold isPivotRow
  simp only [List.any_eq_true, List.mem_finRange, true_and, List.all_eq_true, List.mem_range, decide_eq_true_eq]
  refine exists_congr fun c => ⟨fun h k u hu => ?_, fun h k hk => ?_⟩
  · have hk : k < M.length := (List.getElem?_eq_some_iff.1 hu).1
    have := h k hk
    rw [hu] at this
    simpa using this
  · have := h k M[k] (List.getElem?_eq_getElem hk)
    rw [List.getElem?_eq_getElem hk]
    simpa using this

theorem mem_split_fst (M : RingRows R n) (v : Fin n → R) : v ∈ (splitByPivots M).1 ↔
    ∃ i, M[i]? = some v ∧ isPivotRow M i = true := by
  unfold splitByPivots
  simp only [List.mem_map, List.mem_filter, Prod.exists, List.mem_zipIdx_iff_getElem?]
  constructor
  · rintro ⟨u, i, ⟨h1, h2⟩, rfl⟩
    exact ⟨i, h1, h2⟩
  · rintro ⟨i, h1, h2⟩
    exact ⟨v, i, ⟨h1, h2⟩, rfl⟩

theorem mem_split_snd (M : RingRows R n) (v : Fin n → R) : v ∈ (splitByPivots M).2 ↔
    (∃ i, M[i]? = some v ∧ ¬ isPivotRow M i = true) ∧ ∃ c, v c ≠ 0 := by
  unfold splitByPivots
  simp only [List.mem_map, List.mem_filter, Prod.exists, List.mem_zipIdx_iff_getElem?, decide_eq_true_eq]
  constructor
  · rintro ⟨⟨u, i, ⟨h1, h2⟩, rfl⟩, h3⟩
    exact ⟨⟨i, h1, h2⟩, h3⟩
  · rintro ⟨⟨i, h1, h2⟩, h3⟩
    exact ⟨⟨v, i, ⟨h1, h2⟩, rfl⟩, h3⟩

theorem leftSpan_split (M : RingRows R n) :
    leftSpan (splitByPivots M).1 ⊔ leftSpan (splitByPivots M).2 = leftSpan M := by
  apply le_antisymm
  · refine sup_le (leftSpan_le.2 fun v hv => ?_) (leftSpan_le.2 fun v hv => ?_)
    · obtain ⟨i, hi, _⟩ := (mem_split_fst M v).1 hv
      exact subset_leftSpan (List.mem_of_getElem? hi)
    · obtain ⟨⟨i, hi, _⟩, _⟩ := (mem_split_snd M v).1 hv
      exact subset_leftSpan (List.mem_of_getElem? hi)
  · rw [leftSpan_le]
    intro v hv
    obtain ⟨i, hi⟩ := List.mem_iff_getElem?.1 hv
    by_cases hz : ∃ c, v c ≠ 0
    · by_cases hp : isPivotRow M i = true
      · exact Submodule.mem_sup_left (subset_leftSpan ((mem_split_fst M v).2 ⟨i, hi, hp⟩))
      · exact Submodule.mem_sup_right (subset_leftSpan ((mem_split_snd M v).2 ⟨⟨i, hi, hp⟩, hz⟩))
    · push Not at hz
      rw [show v = 0 from funext hz]
      exact Submodule.zero_mem _

theorem length_le_one_filter_zipIdx {α : Type} (M : List α) (p : ℕ → Bool) :
    ((M.zipIdx.filter fun e => p e.2).map Prod.snd).Nodup := by
  have h1 : (M.zipIdx.map Prod.snd).Nodup := by
    rw [List.zipIdx_map_snd]
    exact List.nodup_range'
  exact (List.filter_sublist.map Prod.snd).nodup h1

end Generic

section Algebra

variable {members : List G}

theorem get_eq_val (x : RMember F G) (g : G) : x.get g = x.val.coef g := rfl

theorem fromVector_val (hnd : members.Nodup) (hall : ∀ g, g ∈ members) (x : GAlg F G) :
    (RMember.fromVector members (members.map x.coef)).val = x := by
  funext g
  obtain ⟨i, hi, rfl⟩ := List.mem_iff_getElem.1 (hall g)
  have := (Props.C37_from_vector hnd (members.map x.coef) (by simp)).2 i hi
  rw [List.getElem_map] at this
  exact this

theorem fromVector_ok (x : GAlg F G) : (RMember.fromVector members (members.map x.coef)).Ok := RMember.ok_ofTerms _

theorem galgInverse_spec (hnd : members.Nodup) (hall : ∀ g, g ∈ members) (h1 : members.head? = some 1) :
    (∀ x y : GAlg F G, galgInverse members x = some y → x * y = 1 ∧ y * x = 1) ∧
      ∀ x : GAlg F G, galgInverse members x = none ↔ ¬ IsUnit x := by
  constructor
  · intro x y h
    obtain ⟨z, hz, rfl⟩ := Option.map_eq_some_iff.1 h
    have := (Props.C38_inverse hnd hall h1 (fromVector_ok x)).1 z hz
    rw [fromVector_val hnd hall] at this
    exact this.2
  · intro x
    unfold galgInverse
    rw [Option.map_eq_none_iff, (Props.C38_inverse hnd hall h1 (fromVector_ok x)).2, fromVector_val hnd hall]

theorem galgLift_apply (hnd : members.Nodup) (hall : ∀ g, g ∈ members) (x : GAlg F G) (i j : Fin members.length) :
    galgLift members x i j = x.coef (members.get i * (members.get j)⁻¹) := by
  unfold galgLift
  rw [Props.regLift_apply hnd hall (fromVector_ok x), get_eq_val, fromVector_val hnd hall]

theorem galgOfVec_coef (hnd : members.Nodup) (v : Fin members.length → F) (i : Fin members.length) :
    (galgOfVec members v).coef (members.get i) = v i := by
  have := (Props.C37_from_vector hnd (List.ofFn v) (by simp)).2 i.1 i.2
  rw [List.getElem_ofFn] at this
  exact this

theorem toFieldRow_apply (v : Fin n → GAlg F G) (j : Fin n) (l : Fin members.length) :
    toFieldRow members v (finProdFinEquiv (j, l)) = (v j).coef (members.get l) := by
  unfold toFieldRow
  have h : finProdFinEquiv.symm (finProdFinEquiv (j, l)) = (j, l) := Equiv.symm_apply_apply _ _
  have h1 : (finProdFinEquiv (j, l)).divNat = j := congrArg Prod.fst h
  have h2 : (finProdFinEquiv (j, l)).modNat = l := congrArg Prod.snd h
  rw [h1, h2]

theorem field_ext {m d : ℕ} {v w : Fin (m * d) → F} (h : ∀ j l, v (finProdFinEquiv (j, l)) = w (finProdFinEquiv (j, l))) :
    v = w := by
  funext b
  have := h (finProdFinEquiv.symm b).1 (finProdFinEquiv.symm b).2
  rwa [Prod.mk.eta, Equiv.apply_symm_apply] at this

theorem toFieldRow_fromFieldRow (hnd : members.Nodup) (v : Fin (n * members.length) → F) :
    toFieldRow members (fromFieldRow members v) = v :=
  field_ext fun j l => by
    rw [toFieldRow_apply]
    exact galgOfVec_coef hnd _ l

theorem toFieldRow_injective (hall : ∀ g, g ∈ members) {v w : Fin n → GAlg F G}
    (h : toFieldRow members v = toFieldRow members w) : v = w := by
  funext j
  refine Props.coef_ext hall fun l => ?_
  rw [← toFieldRow_apply, ← toFieldRow_apply, h]

theorem toFieldRow_add (v w : Fin n → GAlg F G) :
    toFieldRow members (v + w) = toFieldRow members v + toFieldRow members w := rfl

theorem toFieldRow_smul (c : F) (v : Fin n → GAlg F G) :
    toFieldRow members ((c • (1 : GAlg F G)) • v) = c • toFieldRow members v := by
  funext b
  show (c • (1 : GAlg F G) * v b.divNat).coef _ = c * (v b.divNat).coef _
  rw [GAlg.coef_mul, Finset.sum_eq_single 1]
  · simp
  · intro g _ hg
    simp [hg]
  · simp

theorem toFieldRow_zero : toFieldRow members (0 : Fin n → GAlg F G) = 0 := rfl

/-- Field combinations are ring combinations. -/
theorem rowSpan_toField {M : RingRows (GAlg F G) n} {y : Fin (n * members.length) → F}
    (hy : y ∈ rowSpan (M.map (toFieldRow members))) : ∃ s ∈ leftSpan M, toFieldRow members s = y := by
  induction hy using Submodule.span_induction with
  | mem y hy =>
    obtain ⟨v, hv, rfl⟩ := List.mem_map.1 hy
    exact ⟨v, subset_leftSpan hv, rfl⟩
  | zero => exact ⟨0, Submodule.zero_mem _, toFieldRow_zero⟩
  | add a b _ _ ha hb =>
    obtain ⟨s, hs, rfl⟩ := ha
    obtain ⟨t, ht, rfl⟩ := hb
    exact ⟨s + t, Submodule.add_mem _ hs ht, toFieldRow_add _ _⟩
  | smul c a _ ha =>
    obtain ⟨s, hs, rfl⟩ := ha
    exact ⟨_, Submodule.smul_mem _ (c • (1 : GAlg F G)) hs, toFieldRow_smul _ _⟩

theorem mem_of_toField (hall : ∀ g, g ∈ members) {M : RingRows (GAlg F G) n} {v : Fin n → GAlg F G}
    (hv : toFieldRow members v ∈ rowSpan (M.map (toFieldRow members))) : v ∈ leftSpan M := by
  obtain ⟨s, hs, he⟩ := rowSpan_toField hv
  rwa [← toFieldRow_injective hall he]

/-- The linear system has no solution iff the vector is outside of the row space. -/
theorem inconsistent_iff {m : ℕ} (A : Rows F m) (v : Fin m → F) : inconsistent A v = true ↔ v ∉ rowSpan A := by
  unfold inconsistent
  set S : Rows F (A.length + 1) := List.ofFn fun b : Fin m =>
    (Fin.snoc (α := fun _ => F) (fun l : Fin A.length => A[l] b) (v b) : Fin (A.length + 1) → F) with hS
  rw [List.any_eq_true]
  constructor
  · rintro ⟨r, hr, hdec⟩ hv
    rw [decide_eq_true_eq] at hdec
    obtain ⟨c, hcv⟩ := (mem_rowSpan_iff_exists A v).1 hv
    set y : Fin (A.length + 1) → F := Fin.snoc (α := fun _ => F) c (-1)
    have hker : y ∈ kernel S := by
      intro s hs
      obtain ⟨b, rfl⟩ := List.mem_ofFn.1 hs
      unfold dot
      rw [Fin.sum_univ_castSucc]
      simp only [y, Fin.snoc_castSucc, Fin.snoc_last]
      rw [hcv, Finset.sum_apply]
      simp [mul_comm]
    have hr' : r ∈ rowSpan S := by
      rw [← rowSpan_rowReduce]
      exact subset_rowSpan hr
    have hd := dot_eq_zero_of_mem_rowSpan hr' hker
    unfold dot at hd
    rw [Fin.sum_univ_castSucc] at hd
    simp only [y, Fin.snoc_castSucc, Fin.snoc_last, hdec.2, zero_mul, Finset.sum_const_zero, zero_add, mul_neg,
      mul_one, neg_eq_zero] at hd
    exact hdec.1 hd
  · intro hv
    rw [mem_rowSpan_iff] at hv
    push Not at hv
    obtain ⟨x, hx, hne⟩ := hv
    have hmem : (Fin.snoc (α := fun _ => F) (fun _ => (0 : F)) (dot x v) : Fin (A.length + 1) → F) ∈ rowSpan S := by
      have hsum : (Fin.snoc (α := fun _ => F) (fun _ => (0 : F)) (dot x v) : Fin (A.length + 1) → F) =
          ∑ b, x b • (Fin.snoc (α := fun _ => F) (fun l : Fin A.length => A[l] b) (v b) : Fin (A.length + 1) → F) := by
        funext l
        rw [Finset.sum_apply]
        refine Fin.lastCases ?_ (fun l => ?_) l
        · simp [dot]
        · simp only [Fin.snoc_castSucc, Pi.smul_apply, smul_eq_mul]
          have := hx A[l] (List.getElem_mem _)
          rw [dot_comm] at this
          exact this.symm
      rw [hsum]
      exact Submodule.sum_mem _ fun b _ => Submodule.smul_mem _ _ (subset_rowSpan (List.mem_ofFn.2 ⟨b, rfl⟩))
    rw [← rowSpan_rrefPairs] at hmem
    have hp := ((rrefPairs_isRREF S).mem_pivots_iff (Fin.last _)).2 ⟨_, hmem, by simpa [dot_comm x v] using hne, fun c hc => by
      obtain ⟨l, rfl⟩ := Fin.exists_castSucc_eq.2 (ne_of_lt hc)
      simp⟩
    obtain ⟨q, hq, hql⟩ := List.mem_map.1 hp
    refine ⟨q.2, List.mem_append_left _ (List.mem_map.2 ⟨q, hq, rfl⟩), ?_⟩
    rw [decide_eq_true_eq]
    have h1 := (rrefPairs_isRREF S).one q hq
    have h2 := (rrefPairs_isRREF S).left q hq
    rw [hql] at h1 h2
    exact ⟨by rw [h1]; exact one_ne_zero, fun l => h2 _ (Fin.castSucc_lt_last l)⟩

/-- The rows of the lift of the transposed entries are the right multiples of the row. -/
theorem mem_liftRow_transpose (hnd : members.Nodup) (hall : ∀ g, g ∈ members) (u : Fin n → GAlg F G)
    (y : Fin (n * members.length) → F) : y ∈ liftRow members (fun j => (u j).transpose) ↔
      ∃ g, y = toFieldRow members fun j => u j * GAlg.single g := by
  unfold liftRow
  rw [List.mem_map]
  have key : ∀ k : Fin members.length, (fun b : Fin (n * members.length) =>
      galgLift members ((u b.divNat).transpose) k b.modNat) =
      toFieldRow members fun j => u j * GAlg.single (members.get k) := by
    intro k
    funext b
    rw [galgLift_apply hnd hall, GAlg.coef_transpose]
    show _ = (u b.divNat * GAlg.single (members.get k)).coef _
    rw [GAlg.coef_mul, Finset.sum_eq_single (members.get b.modNat * (members.get k)⁻¹)]
    · simp
    · intro h _ hh
      rw [GAlg.coef_single, if_neg, mul_zero]
      intro he
      exact hh (by rw [← he]; group)
    · simp
  constructor
  · rintro ⟨k, _, rfl⟩
    exact ⟨_, key k⟩
  · rintro ⟨g, rfl⟩
    obtain ⟨i, hi, rfl⟩ := List.mem_iff_getElem.1 (hall g)
    exact ⟨⟨i, hi⟩, List.mem_finRange _, key ⟨i, hi⟩⟩

theorem single_mul_comm (hcomm : ∀ g h : G, g * h = h * g) (x : GAlg F G) (g : G) :
    x * GAlg.single g = GAlg.single g * x := by
  ext h
  rw [GAlg.coef_mul, GAlg.coef_mul, Finset.sum_eq_single (h * g⁻¹), Finset.sum_eq_single g]
  · simp [hcomm g⁻¹ h]
  · intro k _ hk
    simp [hk]
  · simp
  · intro k _ hk
    rw [GAlg.coef_single, if_neg, mul_zero]
    rintro rfl
    exact hk (by group)
  · simp

theorem removeLoop_le (before after : RingRows (GAlg F G) n) :
    ∀ v ∈ removeLoop members before after, v ∈ before ∨ v ∈ after := by
  induction before generalizing after with
  | nil => exact fun v hv => Or.inr hv
  | cons r before ih =>
    intro v hv
    unfold removeLoop at hv
    split at hv
    · rcases ih _ v hv with h | h
      · exact Or.inl (List.mem_cons_of_mem _ h)
      · rcases List.mem_cons.1 h with rfl | h
        · exact Or.inl List.mem_cons_self
        · exact Or.inr h
    · rcases ih _ v hv with h | h
      · exact Or.inl (List.mem_cons_of_mem _ h)
      · exact Or.inr h

theorem after_removeLoop (before after : RingRows (GAlg F G) n) :
    ∀ v ∈ after, v ∈ removeLoop members before after := by
  induction before generalizing after with
  | nil => exact fun v hv => hv
  | cons r before ih =>
    intro v hv
    unfold removeLoop
    split
    · exact ih _ v (List.mem_cons_of_mem _ hv)
    · exact ih _ v hv

theorem leftSpan_removeLoop (hnd : members.Nodup) (hall : ∀ g, g ∈ members) (hcomm : ∀ g h : G, g * h = h * g)
    (before after : RingRows (GAlg F G) n) :
    leftSpan (removeLoop members before after) = leftSpan before ⊔ leftSpan after := by
  induction before generalizing after with
  | nil =>
    unfold removeLoop
    rw [show leftSpan ([] : RingRows (GAlg F G) n) = ⊥ by simp [leftSpan], bot_sup_eq]
  | cons r before ih =>
    have hcons : leftSpan (r :: before) = leftSpan [r] ⊔ leftSpan before := leftSpan_append [r] before
    unfold removeLoop
    split
    · rw [ih, show leftSpan (r :: after) = leftSpan [r] ⊔ leftSpan after from leftSpan_append [r] after, hcons]
      ac_rfl
    · rename_i hinc
      rw [inconsistent_iff, not_not] at hinc
      rw [ih, hcons]
      have hr : r ∈ leftSpan before ⊔ leftSpan after := by
        have h1 : ∃ s ∈ leftSpan before ⊔ leftSpan after, toFieldRow members s = toFieldRow members r := by
          generalize toFieldRow members r = y at hinc
          induction hinc using Submodule.span_induction with
          | mem y hy =>
            obtain ⟨u, hu, hy⟩ := List.mem_flatMap.1 hy
            obtain ⟨g, rfl⟩ := (mem_liftRow_transpose hnd hall u y).1 hy
            refine ⟨GAlg.single g • u, Submodule.smul_mem _ _ ?_, ?_⟩
            · rcases List.mem_append.1 hu with hu | hu
              · exact Submodule.mem_sup_left (subset_leftSpan (List.mem_reverse.1 hu))
              · exact Submodule.mem_sup_right (subset_leftSpan hu)
            · congr 1
              funext j
              exact (single_mul_comm hcomm _ _).symm
          | zero => exact ⟨0, Submodule.zero_mem _, toFieldRow_zero⟩
          | add a b _ _ ha hb =>
            obtain ⟨s, hs, rfl⟩ := ha
            obtain ⟨t, ht, rfl⟩ := hb
            exact ⟨s + t, Submodule.add_mem _ hs ht, toFieldRow_add _ _⟩
          | smul c a _ ha =>
            obtain ⟨s, hs, rfl⟩ := ha
            exact ⟨_, Submodule.smul_mem _ (c • (1 : GAlg F G)) hs, toFieldRow_smul _ _⟩
        obtain ⟨s, hs, he⟩ := h1
        rwa [← toFieldRow_injective hall he]
      have h2 : leftSpan [r] ≤ leftSpan before ⊔ leftSpan after := by
        rw [leftSpan_le]
        intro v hv
        rw [List.mem_singleton] at hv
        rwa [hv]
      rw [sup_assoc]
      exact (sup_eq_right.2 h2).symm

/-- The rows handed to the loop generate the same module. -/
theorem leftSpan_fieldReduce (hnd : members.Nodup) (hall : ∀ g, g ∈ members) (M : RingRows (GAlg F G) n) :
    leftSpan ((dropZero (rowReduce (M.map (toFieldRow members)))).map (fromFieldRow members)) = leftSpan M := by
  have hs := rowSpan_dropZero_rowReduce (M.map (toFieldRow members))
  apply le_antisymm
  · rw [leftSpan_le]
    intro v hv
    obtain ⟨y, hy, rfl⟩ := List.mem_map.1 hv
    refine mem_of_toField hall ?_
    rw [toFieldRow_fromFieldRow hnd, ← hs]
    exact subset_rowSpan hy
  · rw [leftSpan_le]
    intro v hv
    refine mem_of_toField hall ?_
    rw [List.map_map, show toFieldRow members ∘ fromFieldRow members = id from
      funext fun y => toFieldRow_fromFieldRow hnd y, List.map_id, hs]
    exact subset_rowSpan (List.mem_map_of_mem hv)

theorem leftSpan_reverse (M : RingRows (GAlg F G) n) : leftSpan M.reverse = leftSpan M := by
  unfold leftSpan
  simp

theorem leftSpan_removeDependent_le (hnd : members.Nodup) (hall : ∀ g, g ∈ members) (M : RingRows (GAlg F G) n) :
    leftSpan (removeDependent members M) ≤ leftSpan M := by
  rw [leftSpan_le]
  intro v hv
  rw [← leftSpan_fieldReduce hnd hall M]
  rcases removeLoop_le _ _ v hv with h | h
  · exact subset_leftSpan (List.mem_reverse.1 h)
  · cases h

theorem leftSpan_removeDependent (hnd : members.Nodup) (hall : ∀ g, g ∈ members) (hcomm : ∀ g h : G, g * h = h * g)
    (M : RingRows (GAlg F G) n) : leftSpan (removeDependent members M) = leftSpan M := by
  unfold removeDependent
  rw [leftSpan_removeLoop hnd hall hcomm, leftSpan_reverse, leftSpan_fieldReduce hnd hall]
  simp [leftSpan]

theorem removeDependent_ne_zero (hnd : members.Nodup) (M : RingRows (GAlg F G) n) :
    ∀ v ∈ removeDependent members M, v ≠ 0 := by
  rintro v hv rfl
  rcases removeLoop_le _ _ _ hv with h | h
  · obtain ⟨y, hy, h0⟩ := List.mem_map.1 (List.mem_reverse.1 h)
    have hy0 : y = 0 := by rw [← toFieldRow_fromFieldRow hnd y, h0, toFieldRow_zero]
    unfold dropZero at hy
    have := (List.mem_filter.1 hy).2
    rw [hy0] at this
    simp at this
  · cases h

end Algebra

end QLDPC
