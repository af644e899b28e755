import Verif.Lemmas.RingArray
import Mathlib.GroupTheory.SpecificGroups.Dihedral

/-!
# C36 (arrays), C43, C44: arrays over a group algebra
-/

namespace QLDPC.Props

open QLDPC QLDPC.Spec Matrix

set_option linter.unusedSectionVars false

variable {F G : Type} [Field F] [DecidableEq F] [Group G] [DecidableEq G] [Fintype G] {n : ℕ}

/-! ### C36 for arrays -/

section C36

variable {d r m : ℕ} {R : Type} [Ring R] {Λ : R → Matrix (Fin d) (Fin d) F}

/-- **C36**: the lift of a product of arrays is the product of their lifts. -/
theorem C36_array_mul (hadd : ∀ x y, Λ (x + y) = Λ x + Λ y) (h0 : Λ 0 = 0) (hmul : ∀ x y, Λ (x * y) = Λ x * Λ y)
    (A : Matrix (Fin r) (Fin m) R) (B : Matrix (Fin m) (Fin n) R) :
    liftArray Λ (A * B) = liftArray Λ A * liftArray Λ B := by
  have hsum : ∀ {ι : Type} (s : Finset ι) (f : ι → R), Λ (∑ i ∈ s, f i) = ∑ i ∈ s, Λ (f i) := by
    intro ι s f
    classical
    induction s using Finset.induction_on with
    | empty => simpa using h0
    | insert a s ha ih => rw [Finset.sum_insert ha, Finset.sum_insert ha, hadd, ih]
  have happ : ∀ {p q : ℕ} (C : Matrix (Fin p) (Fin q) R) a b,
      liftArray Λ C a b = Λ (C a.divNat b.divNat) a.modNat b.modNat := fun _ _ _ => rfl
  ext a b
  rw [Matrix.mul_apply, happ, Matrix.mul_apply, hsum, Matrix.sum_apply]
  rw [Finset.sum_congr rfl fun k _ => by rw [hmul, Matrix.mul_apply]]
  simp only [happ]
  rw [← Fintype.sum_prod_type']
  refine Fintype.sum_equiv finProdFinEquiv _ _ fun e => ?_
  have h : finProdFinEquiv.symm (finProdFinEquiv e) = e := Equiv.symm_apply_apply _ _
  have h1 : (finProdFinEquiv e).divNat = e.1 := congrArg Prod.fst h
  have h2 : (finProdFinEquiv e).modNat = e.2 := congrArg Prod.snd h
  rw [h1, h2]

/-- C36: sums of arrays. -/
theorem C36_array_add (hadd : ∀ x y, Λ (x + y) = Λ x + Λ y) (A B : Matrix (Fin r) (Fin m) R) :
    liftArray Λ (A + B) = liftArray Λ A + liftArray Λ B := by
  ext a b
  simp [liftArray, hadd]

/-- C36: the lift of the transposed array is the transposed lift. -/
theorem C36_array_transpose {Λ : GAlg F G → Matrix (Fin d) (Fin d) F} (ht : ∀ x, Λ x.transpose = (Λ x)ᵀ)
    (A : Matrix (Fin r) (Fin m) (GAlg F G)) : liftArray Λ (arrayTranspose A) = (liftArray Λ A)ᵀ := by
  ext a b
  simp [liftArray, arrayTranspose, ht]

/-- C36: the transpose of a product of arrays is the product of the transposes in the other order. -/
theorem C36_array_transpose_mul (A : Matrix (Fin r) (Fin m) (GAlg F G)) (B : Matrix (Fin m) (Fin n) (GAlg F G)) :
    arrayTranspose (A * B) = arrayTranspose B * arrayTranspose A := by
  have hsum : ∀ {ι : Type} (s : Finset ι) (f : ι → GAlg F G), GAlg.transpose (∑ i ∈ s, f i) = ∑ i ∈ s, (f i).transpose := by
    intro ι s f
    classical
    induction s using Finset.induction_on with
    | empty => rfl
    | insert a s ha ih => rw [Finset.sum_insert ha, Finset.sum_insert ha, ← ih]; rfl
  have happ : ∀ {p q : ℕ} (C : Matrix (Fin p) (Fin q) (GAlg F G)) a b, arrayTranspose C a b = (C b a).transpose :=
    fun _ _ _ => rfl
  funext j i
  rw [happ, Matrix.mul_apply, Matrix.mul_apply, hsum]
  exact Finset.sum_congr rfl fun k _ => GAlg.transpose_mul _ _

/-- C36: the regular lift meets the assumptions of the theorems above. -/
theorem C36_array_regular {members : List G} (hnd : members.Nodup) (hall : ∀ g, g ∈ members) :
    (∀ x y : GAlg F G, galgLift members (x + y) = galgLift members x + galgLift members y) ∧
      galgLift members (0 : GAlg F G) = 0 ∧
      (∀ x y : GAlg F G, galgLift members (x * y) = galgLift members x * galgLift members y) ∧
      ∀ x : GAlg F G, galgLift members x.transpose = (galgLift members x)ᵀ := by
  refine ⟨fun x y => ?_, ?_, fun x y => ?_, fun x => ?_⟩
  · ext i j
    simp only [galgLift_apply hnd hall, Matrix.add_apply, GAlg.coef_add]
  · ext i j
    simp [galgLift_apply hnd hall]
  · ext i j
    rw [galgLift_apply hnd hall, Matrix.mul_apply, GAlg.coef_mul]
    refine (Fintype.sum_equiv ((memberEquiv hnd hall).trans ((Equiv.inv G).trans (Equiv.mulLeft (members.get i))))
      _ _ fun k => ?_).symm
    have he : ((memberEquiv hnd hall).trans ((Equiv.inv G).trans (Equiv.mulLeft (members.get i)))) k =
      members.get i * (members.get k)⁻¹ := rfl
    rw [he, galgLift_apply hnd hall, galgLift_apply hnd hall]
    congr 2
    group
  · ext i j
    rw [Matrix.transpose_apply, galgLift_apply hnd hall, galgLift_apply hnd hall, GAlg.coef_transpose]
    congr 1
    group

end C36

/-! ### C43 -/

section C43

variable {members : List G}

theorem ringRowReduce_some {M N : RingRows (GAlg F G) n} (h : ringRowReduce members M = some N) :
    N = (splitByPivots (reduceRows (galgInverse members) M)).1 ++
      if (splitByPivots (reduceRows (galgInverse members) M)).2 = [] then []
      else removeDependent members (splitByPivots (reduceRows (galgInverse members) M)).2 := by
  unfold ringRowReduce at h
  split at h
  · cases h
  · exact (Option.some.inj h).symm

/-- **C43**: with at least one column `row_reduce` returns, and no row leaves the left module generated by the rows of
the array. -/
theorem C43_module_le (hnd : members.Nodup) (hall : ∀ g, g ∈ members) (h1 : members.head? = some 1)
    (M : RingRows (GAlg F G) n) : (0 < n → (ringRowReduce members M).isSome) ∧
      ∀ N, ringRowReduce members M = some N → leftSpan N ≤ leftSpan M := by
  constructor
  · intro hn
    unfold ringRowReduce
    rw [if_neg (by omega)]
    rfl
  · intro N h
    rw [ringRowReduce_some h, leftSpan_append, ← leftSpan_foldl_reduceStep (galgInverse_spec hnd hall h1).1
      (List.range M.length) M]
    show _ ≤ leftSpan (reduceRows _ M)
    rw [← leftSpan_split (reduceRows _ M)]
    refine sup_le_sup_left ?_ _
    split
    · simp [leftSpan]
    · exact leftSpan_removeDependent_le hnd hall _

/-- **C43**: for abelian groups the left module is preserved. -/
theorem C43_module_eq (hnd : members.Nodup) (hall : ∀ g, g ∈ members) (h1 : members.head? = some 1)
    (hcomm : ∀ g h : G, g * h = h * g) (M N : RingRows (GAlg F G) n) (h : ringRowReduce members M = some N) :
    leftSpan N = leftSpan M := by
  rw [ringRowReduce_some h, leftSpan_append, ← leftSpan_foldl_reduceStep (galgInverse_spec hnd hall h1).1
    (List.range M.length) M]
  show _ = leftSpan (reduceRows _ M)
  rw [← leftSpan_split (reduceRows _ M)]
  split
  · rename_i he
    rw [he]
  · rw [leftSpan_removeDependent hnd hall hcomm]

/-- C43: all rows of the result are nonzero. -/
theorem C43_nonzero (hnd : members.Nodup) (M N : RingRows (GAlg F G) n) (h : ringRowReduce members M = some N) :
    ∀ v ∈ N, v ≠ 0 := by
  intro v hv
  rw [ringRowReduce_some h] at hv
  rcases List.mem_append.1 hv with hv | hv
  · obtain ⟨i, hi, hp⟩ := (mem_split_fst _ v).1 hv
    obtain ⟨c, hc⟩ := (isPivotRow_iff _ i).1 hp
    rintro rfl
    exact (hc i 0 hi).2 rfl rfl
  · split at hv
    · cases hv
    · exact removeDependent_ne_zero hnd _ v hv

/-- The row that `row_reduce` looks at in round `i`. -/
def rowAtTurn (members : List G) (M : RingRows (GAlg F G) n) (i : ℕ) : Option (Fin n → GAlg F G) :=
  ((List.range i).foldl (reduceStep (galgInverse members)) M)[i]?

theorem pivotAt_output (hnd : members.Nodup) (hall : ∀ g, g ∈ members) {A : RingRows (GAlg F G) n} {i : ℕ} {c : Fin n}
    (hp : PivotAt A i c) {k : ℕ} {v : Fin n → GAlg F G}
    (hk : (A.zipIdx.filter fun e => isPivotRow A e.2)[k]? = some (v, i)) :
    PivotAt ((splitByPivots A).1 ++ if (splitByPivots A).2 = [] then [] else removeDependent members (splitByPivots A).2) k c := by
  set L := A.zipIdx.filter fun e => isPivotRow A e.2 with hL
  have hfst : (splitByPivots A).1 = L.map Prod.fst := rfl
  have hkl : k < L.length := (List.getElem?_eq_some_iff.1 hk).1
  have hvi : A[i]? = some v := by
    have := (List.mem_filter.1 (List.mem_of_getElem? hk)).1
    rw [List.mem_zipIdx_iff_getElem?] at this
    exact this
  obtain ⟨⟨p, hpi, hpc⟩, hz⟩ := hp
  rw [hvi] at hpi
  rw [← Option.some.inj hpi] at hpc
  have hnd2 : (L.map Prod.snd).Nodup := length_le_one_filter_zipIdx A _
  refine ⟨⟨v, ?_, hpc⟩, ?_⟩
  · rw [List.getElem?_append_left (by rw [hfst]; simpa using hkl), hfst, List.getElem?_map, hk]
    rfl
  · intro k' u hne hu
    by_cases hk' : k' < L.length
    · rw [List.getElem?_append_left (by rw [hfst]; simpa using hk'), hfst, List.getElem?_map] at hu
      obtain ⟨⟨u', i'⟩, hu', rfl⟩ := Option.map_eq_some_iff.1 hu
      have hui : A[i']? = some u' := by
        have := (List.mem_filter.1 (List.mem_of_getElem? hu')).1
        rw [List.mem_zipIdx_iff_getElem?] at this
        exact this
      refine hz i' u' ?_ hui
      rintro rfl
      refine hne ((List.getElem?_inj (by simpa using hk') hnd2).1 ?_)
      rw [List.getElem?_map, List.getElem?_map, hu', hk]
      rfl
    · rw [List.getElem?_append_right (by rw [hfst]; simpa using hk')] at hu
      have hmem := List.mem_of_getElem? hu
      split at hmem
      · cases hmem
      have hspan := leftSpan_removeDependent_le hnd hall _ (subset_leftSpan hmem)
      clear hu hmem
      induction hspan using Submodule.span_induction with
      | mem y hy =>
        obtain ⟨⟨i', hi', hnp⟩, _⟩ := (mem_split_snd A y).1 hy
        refine hz i' y ?_ hi'
        rintro rfl
        refine hnp ((isPivotRow_iff A i').2 ⟨c, fun k u hu => ?_⟩)
        by_cases hki : k = i'
        · subst hki
          rw [hvi] at hu
          rw [← Option.some.inj hu, hpc]
          simp
          intro h01
          have := congrArg (fun a : GAlg F G => a.coef 1) h01
          simp at this
        · simp [hki, hz k u hki hu]
      | zero => rfl
      | add a b _ _ ha hb => rw [Pi.add_apply, ha, hb, add_zero]
      | smul s a _ ha => rw [Pi.smul_apply, ha, smul_zero]

theorem exists_position {A : RingRows (GAlg F G) n} {i : ℕ} {c : Fin n} (hp : PivotAt A i c) :
    ∃ (k : ℕ) (v : Fin n → GAlg F G), (A.zipIdx.filter fun e => isPivotRow A e.2)[k]? = some (v, i) := by
  obtain ⟨⟨v, hv, hvc⟩, hz⟩ := hp
  have hmem : (v, i) ∈ A.zipIdx.filter fun e => isPivotRow A e.2 := by
    rw [List.mem_filter]
    refine ⟨List.mem_zipIdx_iff_getElem?.2 hv, (isPivotRow_iff A i).2 ⟨c, fun k u hu => ?_⟩⟩
    by_cases hki : k = i
    · subst hki
      rw [hv] at hu
      rw [← Option.some.inj hu, hvc]
      simp only [ne_eq, iff_true]
      intro h01
      have := congrArg (fun a : GAlg F G => a.coef 1) h01
      simp at this
    · simp [hki, hz k u hki hu]
  obtain ⟨k, hk⟩ := List.mem_iff_getElem?.1 hmem
  exact ⟨k, v, hk⟩

/-- **C43**, partial: rows that contain an invertible entry when their turn comes end up, at different positions of the
result, with a one in a column where all other rows are zero. Missing is the second half of the claim, that all the
other rows contain no invertible entry; it does not hold (`C43_pivot_disagreement`). -/
theorem C43_pivots_partial (hnd : members.Nodup) (hall : ∀ g, g ∈ members) (h1 : members.head? = some 1)
    (M N : RingRows (GAlg F G) n) (h : ringRowReduce members M = some N) :
    ∃ f : ℕ → ℕ, ∀ i < M.length, (∃ v, rowAtTurn members M i = some v ∧ ∃ c, IsUnit (v c)) →
      (∃ c, PivotAt N (f i) c) ∧
      ∀ i' < M.length, (∃ v, rowAtTurn members M i' = some v ∧ ∃ c, IsUnit (v c)) → f i = f i' → i = i' := by
  classical
  have hinv := galgInverse_spec (F := F) hnd hall h1
  set A := reduceRows (galgInverse members) M with hA
  have hpiv : ∀ i < M.length, (∃ v, rowAtTurn members M i = some v ∧ ∃ c, IsUnit (v c)) → ∃ c, PivotAt A i c := by
    rintro i hi ⟨v, hv, c, hc⟩
    cases hf : findUnit (galgInverse members) v with
    | none => exact absurd hc ((hinv.2 _).1 (findUnit_none.1 hf c))
    | some ca =>
      obtain ⟨c', a⟩ := ca
      exact ⟨c', reduceRows_pivot hinv.1 M i hi hv hf⟩
  have hpos : ∀ i, ∃ k : ℕ, (∃ c, PivotAt A i c) → ∃ v : Fin n → GAlg F G, (A.zipIdx.filter fun e => isPivotRow A e.2)[k]? = some (v, i) := by
    intro i
    by_cases hc : ∃ c, PivotAt A i c
    · obtain ⟨c, hc⟩ := hc
      obtain ⟨k, v, hk⟩ := exists_position hc
      exact ⟨k, fun _ => ⟨v, hk⟩⟩
    · exact ⟨0, fun h => absurd h hc⟩
  choose f hf using hpos
  refine ⟨f, fun i hi hu => ?_⟩
  obtain ⟨c, hc⟩ := hpiv i hi hu
  obtain ⟨v, hv⟩ := hf i ⟨c, hc⟩
  refine ⟨⟨c, ?_⟩, fun i' hi' hu' he => ?_⟩
  · rw [ringRowReduce_some h]
    exact pivotAt_output hnd hall hc hv
  · obtain ⟨v', hv'⟩ := hf i' (hpiv i' hi' hu')
    rw [he, hv'] at hv
    exact (Prod.ext_iff.1 (Option.some.inj hv)).2.symm

/-- C43: if all nonzero members of the ring are invertible, as for the trivial group, the claim holds in full: every row
of the result has a one in a column where all other rows are zero. -/
theorem C43_field (hnd : members.Nodup) (hall : ∀ g, g ∈ members) (h1 : members.head? = some 1)
    (hfield : ∀ x : GAlg F G, x ≠ 0 → IsUnit x)
    (M N : RingRows (GAlg F G) n) (h : ringRowReduce members M = some N) : ∀ k < N.length, ∃ c, PivotAt N k c := by
  have hinv := galgInverse_spec (F := F) hnd hall h1
  set A := reduceRows (galgInverse members) M with hA
  have hlen : A.length = M.length := length_foldl_reduceStep _ _
  -- a row that is zero at its turn stays zero
  have hzero : ∀ i < M.length, ∀ v, rowAtTurn members M i = some v → (∀ c, v c = 0) → A[i]? = some v := by
    intro i hi v hv hv0
    have key : ∀ d, ((List.range (i + d)).foldl (reduceStep (galgInverse members)) M)[i]? = some v := by
      intro d
      induction d with
      | zero => exact hv
      | succ d ih =>
        rw [← add_assoc, List.range_succ, List.foldl_append]
        show (reduceStep _ _ (i + d))[i]? = some v
        generalize (List.range (i + d)).foldl (reduceStep (galgInverse members)) M = B at ih
        unfold reduceStep
        cases hw : B[i + d]? with
        | none => exact ih
        | some w =>
          dsimp only
          cases hf : findUnit (galgInverse members) w with
          | none => exact ih
          | some ca =>
            dsimp only
            rw [List.getElem?_mapIdx, ih, Option.map_some]
            split
            · rename_i he
              rw [← he, ih] at hw
              rw [← Option.some.inj hw]
              congr 1
              funext j
              rw [hv0, mul_zero]
            · congr 1
              funext j
              rw [hv0, hv0, zero_mul, sub_zero]
    have := key (M.length - i)
    rw [show i + (M.length - i) = M.length by omega] at this
    exact this
  have hrow : ∀ i < M.length, (∃ c, PivotAt A i c) ∨ ∃ v, A[i]? = some v ∧ ∀ c, v c = 0 := by
    intro i hi
    have hl : i < ((List.range i).foldl (reduceStep (galgInverse members)) M).length := by
      rw [length_foldl_reduceStep]
      exact hi
    have hv := List.getElem?_eq_getElem hl
    set v := ((List.range i).foldl (reduceStep (galgInverse members)) M)[i]
    by_cases hz : ∀ c, v c = 0
    · exact Or.inr ⟨v, hzero i hi v hv hz, hz⟩
    · push Not at hz
      obtain ⟨c, hc⟩ := hz
      cases hf : findUnit (galgInverse members) v with
      | none => exact absurd (hfield _ hc) ((hinv.2 _).1 (findUnit_none.1 hf c))
      | some ca =>
        obtain ⟨c', a⟩ := ca
        exact Or.inl ⟨c', reduceRows_pivot hinv.1 M i hi hv hf⟩
  have hsnd : (splitByPivots A).2 = [] := by
    rw [List.eq_nil_iff_forall_not_mem]
    intro v hv
    obtain ⟨⟨i, hi, hnp⟩, c, hc⟩ := (mem_split_snd A v).1 hv
    have hil : i < M.length := by
      rw [← hlen]
      exact (List.getElem?_eq_some_iff.1 hi).1
    rcases hrow i hil with ⟨c', hp⟩ | ⟨w, hw, hw0⟩
    · obtain ⟨k, w, hk⟩ := exists_position hp
      exact hnp (List.mem_filter.1 (List.mem_of_getElem? hk)).2
    · rw [hi] at hw
      rw [Option.some.inj hw] at hc
      exact hc (hw0 c)
  intro k hk
  rw [ringRowReduce_some h] at hk ⊢
  rw [← hA] at hk ⊢
  rw [hsnd] at hk
  have hkl : k < (A.zipIdx.filter fun e => isPivotRow A e.2).length := by
    simpa [splitByPivots] using hk
  have hkv := List.getElem?_eq_getElem hkl
  generalize (A.zipIdx.filter fun e => isPivotRow A e.2)[k] = vi at hkv
  obtain ⟨v, i⟩ := vi
  have hm := List.mem_filter.1 (List.mem_of_getElem? hkv)
  have hAi : A[i]? = some v := List.mem_zipIdx_iff_getElem?.1 hm.1
  have hil : i < M.length := by
    rw [← hlen]
    exact (List.getElem?_eq_some_iff.1 hAi).1
  rcases hrow i hil with ⟨c', hp⟩ | ⟨w, hw, hw0⟩
  · exact ⟨c', pivotAt_output hnd hall hp hkv⟩
  · obtain ⟨c, hc⟩ := (isPivotRow_iff A i).1 hm.2
    exact absurd (hw0 c) ((hc i w hw).2 rfl)

/-- `1 + g + g²`, `g + g²` in the algebra of `Z/3` over the field with two elements. -/
def ex43 : RingRows (GAlg (ZMod 2) Z3) 2 := [![fun _ => 1, fun g => if g = 1 then 0 else 1], ![1, 1]]

/-- C43, disagreement: the result contains a row with an invertible entry whose column is not zero elsewhere, and no
other column makes up for it. (Line 1007 reduces a copy.) -/
theorem C43_pivot_disagreement : ∃ N, ringRowReduce z3 ex43 = some N ∧
    N = [![1, 1], ![0, 1]] ∧ ¬ ∃ c, PivotAt N 1 c := by
  refine ⟨[![1, 1], ![0, 1]], by decide +kernel, rfl, ?_⟩
  rintro ⟨c, ⟨v, hv, hvc⟩, hz⟩
  have h0 := hz 0 ![1, 1] (by decide) rfl
  have hv' : v = ![0, 1] := (Option.some.inj hv).symm
  rw [hv'] at hvc
  revert h0 hvc
  fin_cases c <;> intro a b <;> first | exact absurd a (by decide +kernel) | exact absurd b (by decide +kernel)

/-- The dihedral group with six members. -/
abbrev D3 : Type := DihedralGroup 3

def d3 : List D3 := [.r 0, .r 1, .r 2, .sr 0, .sr 1, .sr 2]

/-- The column `(1 + s, (1 + s) r)`. -/
def ex43b : RingRows (GAlg (ZMod 2) D3) 1 :=
  [fun _ => 1 + GAlg.single (.sr 0), fun _ => (1 + GAlg.single (.sr 0)) * GAlg.single (.r 1)]

/-- C43, disagreement: for a group that is not abelian a row can get lost, because the test for linear dependence
(lines 1053-1069) is made with multiples from the right. -/
theorem C43_module_disagreement : d3.Nodup ∧ (∀ g, g ∈ d3) ∧ d3.head? = some 1 ∧
    ∃ N, ringRowReduce d3 ex43b = some N ∧ ∃ v ∈ ex43b, v ∉ leftSpan N := by
  refine ⟨by decide, by decide, rfl, [fun _ => 1 + GAlg.single (.sr 0)], by decide +kernel,
    fun _ => (1 + GAlg.single (.sr 0)) * GAlg.single (.r 1), by simp [ex43b], fun hv => ?_⟩
  have key : ∀ u ∈ leftSpan (n := 1) (R := GAlg (ZMod 2) D3) [fun _ => 1 + GAlg.single (.sr 0)],
      u 0 * (1 + GAlg.single (.sr 0)) = 0 := by
    intro u hu
    induction hu using Submodule.span_induction with
    | mem y hy =>
      rw [Set.mem_setOf_eq, List.mem_singleton] at hy
      rw [hy]
      decide +kernel
    | zero => exact zero_mul _
    | add a b _ _ ha hb => rw [Pi.add_apply, add_mul, ha, hb, add_zero]
    | smul s a _ ha => rw [Pi.smul_apply, smul_eq_mul, mul_assoc, ha, mul_zero]
  have := key _ hv
  revert this
  decide +kernel

/-- The array of `C43_pivot_disagreement` meets the assumptions of the theorems above, with a row that has an invertible
entry when its turn comes and one that has none. -/
example : z3.Nodup ∧ (∀ g, g ∈ z3) ∧ z3.head? = some 1 ∧ (∀ g h : Z3, g * h = h * g) ∧
    ((rowAtTurn z3 ex43 0).bind (findUnit (galgInverse z3))).isNone ∧
    ((rowAtTurn z3 ex43 1).bind (findUnit (galgInverse z3))).isSome := by decide +kernel

/-- For the trivial group every nonzero member is invertible. -/
example (x : GAlg (ZMod 3) (Multiplicative (ZMod 1))) (hx : x ≠ 0) : IsUnit x := by
  have h : x.coef 1 ≠ 0 := by
    intro h
    apply hx
    ext g
    rw [show g = 1 from Subsingleton.elim _ _, h]
    rfl
  refine ⟨⟨x, (x.coef 1)⁻¹ • 1, ?_, ?_⟩, rfl⟩ <;>
  · ext g
    rw [GAlg.coef_mul, show g = 1 from Subsingleton.elim _ _]
    rw [Fintype.sum_subsingleton _ 1]
    simp [h]

end C43

/-! ### C44 -/

section C44

variable {members : List G}

/-- The rows `v` with `M @ v.T = 0`. -/
def leftNull (M : RingRows (GAlg F G) n) : Submodule (GAlg F G) (Fin n → GAlg F G) where
  carrier := {v | ∀ a ∈ M, ∑ j, a j * (v j).transpose = 0}
  zero_mem' := fun a _ => Finset.sum_eq_zero fun j _ => by
    rw [Pi.zero_apply, GAlg.transpose_zero, mul_zero]
  add_mem' := fun {v w} hv hw a ha => by
    have : ∀ j, a j * ((v + w) j).transpose = a j * (v j).transpose + a j * (w j).transpose := fun j => by
      rw [Pi.add_apply, GAlg.transpose_add, mul_add]
    rw [Finset.sum_congr rfl fun j _ => this j, Finset.sum_add_distrib, hv a ha, hw a ha, add_zero]
  smul_mem' := fun s v hv a ha => by
    have : ∀ j, a j * ((s • v) j).transpose = a j * (v j).transpose * s.transpose := fun j => by
      rw [Pi.smul_apply, smul_eq_mul, GAlg.transpose_mul, mul_assoc]
    rw [Finset.sum_congr rfl fun j _ => this j, ← Finset.sum_mul, hv a ha, zero_mul]

theorem dot_liftRow (hnd : members.Nodup) (hall : ∀ g, g ∈ members) (a : Fin n → GAlg F G)
    (V : Fin n → GAlg F G) (k : Fin members.length) :
    dot (fun b => galgLift members (a b.divNat) k b.modNat) (toFieldRow members V) =
      (∑ j, a j * V j).coef (members.get k) := by
  rw [GAlg.coef_sum]
  unfold dot
  rw [← Equiv.sum_comp finProdFinEquiv, Fintype.sum_prod_type]
  refine Finset.sum_congr rfl fun j _ => ?_
  rw [GAlg.coef_mul]
  refine Fintype.sum_equiv ((memberEquiv hnd hall).trans ((Equiv.inv G).trans (Equiv.mulLeft (members.get k))))
    _ _ fun l => ?_
  have he : ((memberEquiv hnd hall).trans ((Equiv.inv G).trans (Equiv.mulLeft (members.get k)))) l =
    members.get k * (members.get l)⁻¹ := rfl
  have h : finProdFinEquiv.symm (finProdFinEquiv (j, l)) = (j, l) := Equiv.symm_apply_apply _ _
  have h1 : (finProdFinEquiv (j, l)).divNat = j := congrArg Prod.fst h
  have h2 : (finProdFinEquiv (j, l)).modNat = l := congrArg Prod.snd h
  show galgLift members (a (finProdFinEquiv (j, l)).divNat) k (finProdFinEquiv (j, l)).modNat * _ = _
  rw [he, toFieldRow_apply, h1, h2, galgLift_apply hnd hall]
  congr 2
  group

/-- The field-valued null vectors of the lift are the null vectors of the array. -/
theorem mem_kernel_lift (hnd : members.Nodup) (hall : ∀ g, g ∈ members) (M : RingRows (GAlg F G) n)
    (v : Fin n → GAlg F G) :
    toFieldRow members (fun j => (v j).transpose) ∈ kernel (M.flatMap (liftRow members)) ↔ v ∈ leftNull M := by
  constructor
  · intro h a ha
    refine coef_ext hall fun k => ?_
    rw [← dot_liftRow hnd hall]
    exact h _ (List.mem_flatMap.2 ⟨a, ha, List.mem_map.2 ⟨k, List.mem_finRange _, rfl⟩⟩)
  · intro h y hy
    obtain ⟨a, ha, hy⟩ := List.mem_flatMap.1 hy
    obtain ⟨k, _, rfl⟩ := List.mem_map.1 hy
    rw [dot_liftRow hnd hall, h a ha]
    rfl

theorem leftSpan_nullVectors (hnd : members.Nodup) (hall : ∀ g, g ∈ members) (M : RingRows (GAlg F G) n) :
    leftSpan (nullVectors members M) = leftNull M := by
  apply le_antisymm
  · rw [leftSpan_le]
    intro v hv
    obtain ⟨y, hy, rfl⟩ := List.mem_map.1 hv
    rw [← mem_kernel_lift hnd hall, ← rowSpan_nullSpace]
    simp only [GAlg.transpose_transpose]
    rw [toFieldRow_fromFieldRow hnd]
    exact subset_rowSpan hy
  · intro v hv
    rw [← mem_kernel_lift hnd hall, ← rowSpan_nullSpace] at hv
    have key : ∀ y ∈ rowSpan (nullSpace (M.flatMap (liftRow members))),
        (fun j => (fromFieldRow members y j).transpose) ∈ leftSpan (nullVectors members M) := by
      intro y hy
      have h1 : ∃ s ∈ leftSpan (nullVectors members M), toFieldRow members (fun j => (s j).transpose) = y := by
        induction hy using Submodule.span_induction with
        | mem y hy =>
          refine ⟨_, subset_leftSpan (List.mem_map.2 ⟨y, hy, rfl⟩), ?_⟩
          simp only [GAlg.transpose_transpose]
          exact toFieldRow_fromFieldRow hnd y
        | zero => exact ⟨0, Submodule.zero_mem _, rfl⟩
        | add a b _ _ ha hb =>
          obtain ⟨s, hs, rfl⟩ := ha
          obtain ⟨t, ht, rfl⟩ := hb
          exact ⟨s + t, Submodule.add_mem _ hs ht, rfl⟩
        | smul c a _ ha =>
          obtain ⟨s, hs, rfl⟩ := ha
          refine ⟨_, Submodule.smul_mem _ (c • (1 : GAlg F G)) hs, ?_⟩
          rw [← toFieldRow_smul]
          congr 1
          funext j
          ext g
          show ((c • (1 : GAlg F G)) * s j).coef g⁻¹ = ((c • (1 : GAlg F G)) * (s j).transpose).coef g
          rw [GAlg.coef_mul, GAlg.coef_mul, Finset.sum_eq_single 1, Finset.sum_eq_single 1]
          · simp
          · intro k _ hk
            simp [hk]
          · simp
          · intro k _ hk
            simp [hk]
          · simp
      obtain ⟨s, hs, he⟩ := h1
      have h2 : fromFieldRow members y = fun j => (s j).transpose := by
        refine toFieldRow_injective hall ?_
        rw [toFieldRow_fromFieldRow hnd, he]
      rw [h2]
      simpa only [GAlg.transpose_transpose] using hs
    have h3 := key _ hv
    have h4 : fromFieldRow members (toFieldRow members fun j => (v j).transpose) = fun j => (v j).transpose :=
      toFieldRow_injective hall (toFieldRow_fromFieldRow hnd _)
    rw [h4] at h3
    simpa only [GAlg.transpose_transpose] using h3

/-- **C44**: `self @ null_space.T = 0`. -/
theorem C44_annihilates (hnd : members.Nodup) (hall : ∀ g, g ∈ members) (h1 : members.head? = some 1)
    (M N : RingRows (GAlg F G) n) (h : ringNullSpace members M = some N) :
    ∀ a ∈ M, ∀ v ∈ N, ∑ j, a j * (v j).transpose = 0 := by
  unfold ringNullSpace at h
  split at h
  · cases h
  intro a ha v hv
  have h2 := (C43_module_le hnd hall h1 _).2 N h (subset_leftSpan hv)
  rw [leftSpan_nullVectors hnd hall] at h2
  exact h2 a ha

/-- C44: for abelian groups the null space is complete: its rows generate all rows that the array annihilates. -/
theorem C44_complete (hnd : members.Nodup) (hall : ∀ g, g ∈ members) (h1 : members.head? = some 1)
    (hcomm : ∀ g h : G, g * h = h * g) (M N : RingRows (GAlg F G) n) (h : ringNullSpace members M = some N)
    (v : Fin n → GAlg F G) : v ∈ leftSpan N ↔ ∀ a ∈ M, ∑ j, a j * (v j).transpose = 0 := by
  unfold ringNullSpace at h
  split at h
  · cases h
  rw [C43_module_eq hnd hall h1 hcomm _ N h, leftSpan_nullVectors hnd hall]
  exact Iff.rfl

/-- C44: for an array with rows and columns, `null_space` raises exactly if there is no nonzero null vector. -/
theorem C44_raises (hnd : members.Nodup) (hall : ∀ g, g ∈ members) (M : RingRows (GAlg F G) n) (hn : 0 < n)
    (hM : M ≠ []) : ringNullSpace members M = none ↔
      ∀ v : Fin n → GAlg F G, (∀ a ∈ M, ∑ j, a j * (v j).transpose = 0) → v = 0 := by
  have hnull : nullVectors members M = [] ↔ ∀ v : Fin n → GAlg F G, v ∈ leftNull M → v = 0 := by
    constructor
    · intro he v hv
      rw [← leftSpan_nullVectors hnd hall, he] at hv
      simpa [leftSpan] using hv
    · intro hz
      rw [List.eq_nil_iff_forall_not_mem]
      intro v hv
      have hv0 := hz v (by rw [← leftSpan_nullVectors hnd hall]; exact subset_leftSpan hv)
      obtain ⟨y, hy, he⟩ := List.mem_map.1 hv
      have hy0 : y = 0 := by
        rw [← toFieldRow_fromFieldRow hnd y]
        have h3 : ∀ j, fromFieldRow members y j = (0 : GAlg F G) := fun j => by
          have h4 := congrFun (he.trans hv0) j
          rw [← GAlg.transpose_transpose (fromFieldRow members y j)]
          rw [show (fromFieldRow members y j).transpose = (0 : GAlg F G) from h4]
          rfl
        rw [show fromFieldRow members y = 0 from funext h3]
        rfl
      unfold nullSpace at hy
      obtain ⟨q, hq, hqy⟩ := List.mem_map.1 hy
      obtain ⟨c, hc⟩ := (rrefPairs_isRREF _).ne_zero hq
      rw [hqy, hy0] at hc
      exact hc rfl
  unfold ringNullSpace
  constructor
  · intro h
    split at h
    · rename_i hc
      rcases hc with hc | hc | hc
      · omega
      · exact absurd hc hM
      · exact hnull.1 hc
    · unfold ringRowReduce at h
      rw [if_neg (by omega)] at h
      cases h
  · intro h
    rw [if_pos (Or.inr (Or.inr (hnull.2 h)))]

/-- The null space of `[1 + g]` and of `[1 + g, 1]` over the field with two elements. -/
def ex44 : RingRows (GAlg (ZMod 2) Z3) 1 := [fun _ => 1 + GAlg.single (Multiplicative.ofAdd 1)]
def ex44n : RingRows (GAlg (ZMod 2) Z3) 1 := [fun _ _ => 1]
def ex44' : RingRows (GAlg (ZMod 2) Z3) 2 := [![1 + GAlg.single (Multiplicative.ofAdd 1), 1]]
def ex44n' : RingRows (GAlg (ZMod 2) Z3) 2 := [![1, 1 + GAlg.single (Multiplicative.ofAdd 2)]]

example : ringNullSpace z3 ex44 = some ex44n ∧ ringNullSpace z3 ex44' = some ex44n' := by decide +kernel

/-- C44, disagreement: the null space of an invertible array is not an empty array; the call raises. -/
theorem C44_disagreement : ringNullSpace z3 ([fun _ => 1] : RingRows (GAlg (ZMod 2) Z3) 1) = none := by decide +kernel

end C44

#print axioms C36_array_mul
#print axioms C36_array_add
#print axioms C36_array_transpose
#print axioms C36_array_transpose_mul
#print axioms C36_array_regular
#print axioms C43_module_le
#print axioms C43_module_eq
#print axioms C43_nonzero
#print axioms C43_pivots_partial
#print axioms C43_field
#print axioms C43_pivot_disagreement
#print axioms C43_module_disagreement
#print axioms C44_annihilates
#print axioms C44_complete
#print axioms C44_raises
#print axioms C44_disagreement

/-! ### Instances of the theorems: concrete cases meet the hypotheses -/

example := C36_array_add (Λ := fun x : ZMod 3 => !![x, 0; 0, 2 * x]) (by decide) !![1, 2] !![0, 1]
example := C36_array_mul (Λ := fun x : ZMod 3 => !![x, 0; 0, x]) (by decide) (by decide) (by decide) !![1, 2] !![0, 1; 2, 2]
example := C43_module_le (F := ZMod 2) (members := z3) (by decide) (by decide) rfl [![1, 1]]
example := C44_raises (F := ZMod 2) (members := z3) (by decide) (by decide) [![1, 1]] (by decide) (by simp)

example : True := by
  obtain ⟨N, hN⟩ := Option.isSome_iff_exists.1 (show (ringRowReduce (F := ZMod 2) z3 [![1, 1]]).isSome = true by decide +kernel)
  have h1 := C43_module_eq (members := z3) (by decide) (by decide) rfl mul_comm _ N hN
  have h2 := C43_nonzero (members := z3) (by decide) _ N hN
  have h3 := C43_pivots_partial (members := z3) (by decide) (by decide) rfl _ N hN
  trivial
example : True := by
  obtain ⟨N, hN⟩ := Option.isSome_iff_exists.1 (show (ringNullSpace (F := ZMod 2) z3 [![1, 1]]).isSome = true by decide +kernel)
  have h1 := C44_annihilates (members := z3) (by decide) (by decide) rfl _ N hN
  have h2 := C44_complete (members := z3) (by decide) (by decide) rfl mul_comm _ N hN
  trivial
example := C36_array_transpose (F := ZMod 2) (G := Multiplicative (ZMod 3)) (Λ := galgLift z3) (C36_array_regular (by decide) (by decide)).2.2.2 (![![1, 0]] : Matrix (Fin 1) (Fin 2) _)

example : True := by
  obtain ⟨N, hN⟩ := Option.isSome_iff_exists.1 (show (ringRowReduce (F := ZMod 3) [(1 : Multiplicative (ZMod 1))] [![1, 1], ![1, 0]]).isSome = true by decide +kernel)
  have hf : ∀ x : GAlg (ZMod 3) (Multiplicative (ZMod 1)), x ≠ 0 → IsUnit x := by
    intro x hx
    have key : ∀ x : Multiplicative (ZMod 1) → ZMod 3, (∃ g, x g ≠ 0) → ∃ y : Multiplicative (ZMod 1) → ZMod 3,
        (∀ g, ∑ h, x h * y (h⁻¹ * g) = if g = 1 then 1 else 0) ∧ ∀ g, ∑ h, y h * x (h⁻¹ * g) = if g = 1 then 1 else 0 := by decide +kernel
    obtain ⟨y, h1, h2⟩ := key x (by by_contra hc; push Not at hc; exact hx (funext hc))
    exact ⟨⟨x, y, funext h1, funext h2⟩, rfl⟩
  have h3 := C43_field (members := [(1 : Multiplicative (ZMod 1))]) (by decide) (by decide) rfl hf _ N hN
  trivial

end QLDPC.Props
