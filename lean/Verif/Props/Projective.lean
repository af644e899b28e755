import Verif.Lemmas.Projective
import Verif.Props.SpecialLinear
import Mathlib.LinearAlgebra.Matrix.ProjectiveSpecialLinearGroup

/-!
# C85: projective special linear groups
-/

namespace QLDPC.Props

open QLDPC QLDPC.SLin Matrix

section PSL

variable {F : Type} [Field F] [DecidableEq F] [Fintype F] {a : F} {els : List F} {d : ℕ}

/-- Specification: `gens` generate, by the product of sympy, the permutations `φ M` of the matrices of determinant one;
two matrices have the same permutation if and only if one is the other times a `d`-th root of unity; the product of the
permutations of `M` and `N` is that of `N @ M`. -/
structure RepresentsPSL (d : ℕ) (F : Type) [Field F] (gens : List (List ℕ)) (φ : Matrix (Fin d) (Fin d) F → List ℕ) :
    Prop where
  generated : ∀ p, PermGenerated gens p ↔ ∃ M : Matrix (Fin d) (Fin d) F, M.det = 1 ∧ φ M = p
  eq_iff : ∀ M N : Matrix (Fin d) (Fin d) F, M.det = 1 → N.det = 1 → (φ M = φ N ↔ ∃ r : F, r ^ d = 1 ∧ M = r • N)
  mul : ∀ M N : Matrix (Fin d) (Fin d) F, M.det = 1 → N.det = 1 → φ (N * M) = arrayMulList (φ M) (φ N)

/-- Permutations generated by those of two matrices. -/
theorem generated_iff {M : Type} [Mul M] {x w : M} {P : M → Prop} (hcl : ∀ y, y ∈ Subsemigroup.closure {x, w} ↔ P y)
    {φ : M → List ℕ} (hmul : ∀ y z, P y → P z → φ (z * y) = arrayMulList (φ y) (φ z)) (p : List ℕ) :
    PermGenerated [φ x, φ w] p ↔ ∃ y, P y ∧ φ y = p := by
  have hx : P x := (hcl x).1 (Subsemigroup.subset_closure (Or.inl rfl))
  have hw : P w := (hcl w).1 (Subsemigroup.subset_closure (Or.inr rfl))
  constructor
  · intro hp
    induction hp with
    | base hp =>
      rcases List.mem_cons.1 hp with rfl | hp
      · exact ⟨x, hx, rfl⟩
      · rw [List.mem_singleton.1 hp]; exact ⟨w, hw, rfl⟩
    | mul _ _ ih1 ih2 =>
      obtain ⟨y, hy, rfl⟩ := ih1
      obtain ⟨z, hz, rfl⟩ := ih2
      exact ⟨z * y, (hcl _).1 (Subsemigroup.mul_mem _ ((hcl z).2 hz) ((hcl y).2 hy)), hmul y z hy hz⟩
  · rintro ⟨y, hy, rfl⟩
    have hy' := (hcl y).2 hy
    clear hy
    induction hy' using Subsemigroup.closure_induction with
    | mem y hy =>
      rcases hy with rfl | rfl
      · exact .base (by simp)
      · exact .base (by simp)
    | mul y z hy hz ihy ihz =>
      rw [hmul z y ((hcl z).1 hz) ((hcl y).1 hy)]
      exact .mul ihz ihy

omit [Fintype F] in
theorem psl_orbits (hels : IsElements els) (roots : List F) (o : Finset (Fin d → F)) :
    o ∈ ((vecProduct els d).map (rootOrbit roots)).tail.dedup ↔ ∃ v, v ≠ 0 ∧ o = rootOrbit roots v := by
  rw [List.mem_dedup, ← List.map_tail, List.mem_map]
  constructor
  · rintro ⟨v, hv, rfl⟩
    exact ⟨v, (mem_targetSpace hels v).1 hv, rfl⟩
  · rintro ⟨v, hv, rfl⟩
    exact ⟨v, (mem_targetSpace hels v).2 hv, rfl⟩

/-- The target space has one vector of every orbit. -/
theorem psl_isReps (hd : 0 < d) (hels : IsElements els) {roots : List F} (hr : ∀ x, x ∈ roots ↔ x ^ d = 1)
    {order : List (Finset (Fin d → F)) → List (Finset (Fin d → F))} (ho : ∀ l, (order l).Perm l)
    {pick : Finset (Fin d → F) → Fin d → F} (hp : ∀ o : Finset (Fin d → F), o.Nonempty → pick o ∈ o) :
    IsReps F d (· ≠ 0) (pslTargetSpace els roots order pick) :=
  isReps_pick hd hr (fun _ _ h hv => smul_ne_zero (root_ne_zero hd h) hv) (ho _) (List.nodup_dedup _)
    (psl_orbits hels roots) hp

/-- C85: `ProjectiveSpecialLinearGroup(d, q)` in its linear representation is the group of matrices of determinant one
modulo `d`-th roots of unity, in whichever order python iterates over sets. -/
theorem C85_linear (hd : 2 ≤ d) (ha : IsPrimitiveElement a) (hels : IsElements els) (hq : Fintype.card F ≤ 256)
    {order : List (Finset (Fin d → F)) → List (Finset (Fin d → F))} (ho : ∀ l, (order l).Perm l)
    {pick : Finset (Fin d → F) → Fin d → F} (hp : ∀ o : Finset (Fin d → F), o.Nonempty → pick o ∈ o) :
    ∃ gens φ, pslLinear els (Fintype.card F) a order pick = some gens ∧ RepresentsPSL d F gens φ ∧
      ∀ M : Matrix (Fin d) (Fin d) F, M.det = 1 →
        (pslPerm (pslRoots d (Fintype.card F) a (Nat.gcd d (Fintype.card F - 1)))
          (pslTargetSpace els (pslRoots d (Fintype.card F) a (Nat.gcd d (Fintype.card F - 1))) order pick) M).bind
            groupMember = some (φ M) := by
  obtain ⟨x, w, hxw, hcl⟩ := C84_generators hd ha
  have hd0 : 0 < d := by omega
  have hx : x.det = 1 := (hcl x).1 (Subsemigroup.subset_closure (Or.inl rfl))
  have hw : w.det = 1 := (hcl w).1 (Subsemigroup.subset_closure (Or.inr rfl))
  set roots := pslRoots d (Fintype.card F) a (Nat.gcd d (Fintype.card F - 1)) with hroots
  have hr : ∀ x, x ∈ roots ↔ x ^ d = 1 := mem_pslRoots ha hd0 le_rfl
  set ts := pslTargetSpace els roots order pick with hts
  have h : IsReps F d (· ≠ 0) ts := psl_isReps hd0 hels hr ho hp
  have hmul : ∀ M N : Matrix (Fin d) (Fin d) F, M.det = 1 → N.det = 1 → _ :=
    fun M N hM hN => permOf_repOf_mul hd0 hr h hM hN
  refine ⟨_, fun M => permOf ts fun v => repOf roots ts (M.mulVec v), ?_, ⟨generated_iff hcl hmul, ?_, hmul⟩,
    fun M hM => pslPerm_eq hd0 hr h hM⟩
  · rw [pslLinear, if_neg (by omega), hxw]
    simp only [Option.bind_eq_bind, Option.bind_some, List.mapM_cons, List.mapM_nil, ← hroots, ← hts,
      pslPerm_eq hd0 hr h hx, pslPerm_eq hd0 hr h hw]
    rfl
  · exact fun M N hM hN => permOf_repOf_eq_iff hd0 hr h hM hN

omit [Fintype F] in
theorem center_iff (M N : SpecialLinearGroup (Fin d) F) :
    (M : ProjectiveSpecialLinearGroup (Fin d) F) = N ↔ ∃ r : F, r ^ d = 1 ∧ M.1 = r • N.1 := by
  rw [QuotientGroup.eq, SpecialLinearGroup.mem_center_iff, Fintype.card_fin]
  have hN : M.1 * (M⁻¹ * N).1 = N.1 := by
    rw [← SpecialLinearGroup.coe_mul, mul_inv_cancel_left]
  constructor
  · rintro ⟨r, h1, e⟩
    have hr0 : r ≠ 0 ∨ d = 0 := by
      rcases Nat.eq_zero_or_pos d with h | h
      · exact Or.inr h
      · exact Or.inl (by rintro rfl; rw [zero_pow h.ne'] at h1; exact zero_ne_one h1)
    refine ⟨r⁻¹, by rw [inv_pow, h1, inv_one], ?_⟩
    rcases hr0 with hr0 | hr0
    · rw [← hN, ← e, scalar_apply, ← smul_one_eq_diagonal, mul_smul_comm, mul_one, smul_smul, inv_mul_cancel₀ hr0, one_smul]
    · subst hr0; exact Subsingleton.elim _ _
  · rintro ⟨r, h1, e⟩
    have hr0 : r ≠ 0 ∨ d = 0 := by
      rcases Nat.eq_zero_or_pos d with h | h
      · exact Or.inr h
      · exact Or.inl (by rintro rfl; rw [zero_pow h.ne'] at h1; exact zero_ne_one h1)
    refine ⟨r⁻¹, by rw [inv_pow, h1, inv_one], ?_⟩
    rcases hr0 with hr0 | hr0
    · have e2 : N.1 = r⁻¹ • M.1 := by rw [e, smul_smul, inv_mul_cancel₀ hr0, one_smul]
      rw [SpecialLinearGroup.coe_mul, e2, mul_smul_comm, ← SpecialLinearGroup.coe_mul, inv_mul_cancel,
        SpecialLinearGroup.coe_one, scalar_apply, smul_one_eq_diagonal]
    · subst hr0; exact Subsingleton.elim _ _

/-- C85: the group is isomorphic to the special linear group modulo its center. -/
theorem C85_isomorphic {gens : List (List ℕ)} {φ : Matrix (Fin d) (Fin d) F → List ℕ} (h : RepresentsPSL d F gens φ) :
    ∃ ψ : ProjectiveSpecialLinearGroup (Fin d) F → List ℕ, Function.Injective ψ ∧
      (∀ p, PermGenerated gens p ↔ ∃ M, ψ M = p) ∧ ∀ M N, ψ (M * N) = arrayMulList (ψ M) (ψ N) := by
  have key : ∀ M N : SpecialLinearGroup (Fin d) F,
      (M : ProjectiveSpecialLinearGroup (Fin d) F) = N ↔ φ (M⁻¹).1 = φ (N⁻¹).1 := by
    intro M N
    rw [h.eq_iff _ _ (M⁻¹).2 (N⁻¹).2, ← center_iff, QuotientGroup.mk_inv, QuotientGroup.mk_inv, _root_.inv_inj]
  have hout : ∀ M : SpecialLinearGroup (Fin d) F,
      φ (((M : ProjectiveSpecialLinearGroup (Fin d) F).out)⁻¹).1 = φ (M⁻¹).1 := fun M =>
    (key _ M).1 (QuotientGroup.out_eq' _)
  refine ⟨fun x => φ ((Quotient.out x)⁻¹).1, fun x y e => ?_, fun p => ?_, fun x y => ?_⟩
  · have := (key _ _).2 e
    rwa [QuotientGroup.out_eq', QuotientGroup.out_eq'] at this
  · rw [h.generated]
    constructor
    · rintro ⟨M, hM, rfl⟩
      obtain ⟨N, rfl⟩ : ∃ N : SpecialLinearGroup (Fin d) F, N.1 = M := ⟨⟨M, hM⟩, rfl⟩
      refine ⟨(N⁻¹ : SpecialLinearGroup (Fin d) F), (hout _).trans ?_⟩
      exact congrArg (fun K : SpecialLinearGroup (Fin d) F => φ K.1) (_root_.inv_inv N)
    · rintro ⟨x, rfl⟩
      exact ⟨_, ((Quotient.out x : SpecialLinearGroup (Fin d) F)⁻¹).2, rfl⟩
  · induction x using QuotientGroup.induction_on with | _ M => ?_
    induction y using QuotientGroup.induction_on with | _ N => ?_
    simp only [← QuotientGroup.mk_mul]
    rw [hout, hout, hout, ← h.mul _ _ (M⁻¹).2 (N⁻¹).2, _root_.mul_inv_rev]
    rfl

/-- The number of roots of unity. -/
theorem card_roots (hd : 0 < d) (ha : IsPrimitiveElement a) :
    {r : F | r ^ d = 1}.ncard = Nat.gcd d (Fintype.card F - 1) := by
  have hq : 0 < Fintype.card F - 1 := by have : 1 < Fintype.card F := Fintype.one_lt_card; omega
  set g := Nat.gcd d (Fintype.card F - 1) with hg
  have hdiv : (Fintype.card F - 1) / g * g = Fintype.card F - 1 := Nat.div_mul_cancel (Nat.gcd_dvd_right _ _)
  have hprim : IsPrimitiveRoot (a ^ ((Fintype.card F - 1) / g)) g := by
    have := IsPrimitiveRoot.orderOf a
    rw [orderOf_primitive ha] at this
    exact this.pow hq hdiv.symm
  have e : {r : F | r ^ d = 1} = ((pslRoots d (Fintype.card F) a g).toFinset : Set F) := by
    ext r
    simp only [Set.mem_setOf_eq, List.coe_toFinset]
    rw [mem_pslRoots ha hd le_rfl]
  rw [e, Set.ncard_coe_finset, List.toFinset_card_of_nodup]
  · rw [pslRoots, List.length_map, List.length_range]
  · rw [pslRoots]
    refine List.nodup_range.map_on fun i hi j hj h => ?_
    rw [List.mem_range] at hi hj
    exact hprim.pow_inj hi hj h

/-- C85: the lift maps the permutation of a matrix to that matrix if one is the only `d`-th root of unity. -/
theorem C85_lift_partial (hd : 0 < d) (ha : IsPrimitiveElement a) (hels : IsElements els)
    (hg : Nat.gcd d (Fintype.card F - 1) = 1)
    {order : List (Finset (Fin d → F)) → List (Finset (Fin d → F))} (ho : ∀ l, (order l).Perm l)
    {pick : Finset (Fin d → F) → Fin d → F} (hp : ∀ o : Finset (Fin d → F), o.Nonempty → pick o ∈ o)
    {roots : List F} (hroots : roots = pslRoots d (Fintype.card F) a (Nat.gcd d (Fintype.card F - 1)))
    {ts : List (Fin d → F)} (hts : ts = pslTargetSpace els roots order pick)
    {M : Matrix (Fin d) (Fin d) F} (hM : M.det = 1) {p : List ℕ} (h : (pslPerm roots ts M).bind groupMember = some p) :
    slLift ts p = some M := by
  have hr : ∀ x, x ∈ roots ↔ x ^ d = 1 := by rw [hroots]; exact mem_pslRoots ha hd le_rfl
  have h1 : ∀ x, x ∈ roots → x = 1 := by
    intro x hx
    rw [hroots, hg] at hx
    simpa [pslRoots] using hx
  have hreps : IsReps F d (· ≠ 0) ts := by rw [hts]; exact psl_isReps hd hels hr ho hp
  have hall : ∀ v : Fin d → F, v ≠ 0 → v ∈ ts := by
    intro v hv
    obtain ⟨r, h2, h3⟩ := hreps.exists_rep v hv
    rwa [h1 r ((hr r).2 h2), one_smul] at h3
  rw [pslPerm_eq hd hr hreps hM] at h
  obtain rfl := Option.some.inj h
  have hne : ∀ v ∈ ts, M.mulVec v ≠ 0 := fun v hv h0 => hreps.sound v hv (mulVec_eq_zero hM h0)
  refine slLift_eq_of fun j => ?_
  rw [slLiftColumn_eq fun v hv => (repOf_spec hr hreps (hne v hv)).2.1]
  · have hj : M.mulVec (Pi.single j 1) ∈ ts := hall _ (hne _ (hall _ (by simp)))
    rw [repOf_mem hd hr hreps hj, mulVec_single_one]
    rfl
  · exact hall _ (by simp)

/-- Disagreement: whenever there are several `d`-th roots of unity, there is an order of iteration over sets for which
the lift raises for all members of the group. -/
theorem C85_lift_raises_disagreement (hd : 0 < d) (ha : IsPrimitiveElement a)
    (hg : Nat.gcd d (Fintype.card F - 1) ≠ 1) {roots : List F}
    (hroots : roots = pslRoots d (Fintype.card F) a (Nat.gcd d (Fintype.card F - 1))) :
    ∃ pick : Finset (Fin d → F) → Fin d → F, (∀ o : Finset (Fin d → F), o.Nonempty → pick o ∈ o) ∧
      ∀ (order : List (Finset (Fin d → F)) → List (Finset (Fin d → F))), (∀ l, (order l).Perm l) →
        ∀ p, slLift (pslTargetSpace els roots order pick) p = none := by
  classical
  have hr : ∀ x, x ∈ roots ↔ x ^ d = 1 := by rw [hroots]; exact mem_pslRoots ha hd le_rfl
  obtain ⟨r, hr1, hr2⟩ : ∃ r : F, r ^ d = 1 ∧ r ≠ 1 := by
    have h1 := card_roots hd ha
    by_contra hne
    push Not at hne
    apply hg
    rw [← h1, Set.ncard_eq_one]
    exact ⟨1, by ext x; exact ⟨hne x, fun h => by rw [Set.mem_singleton_iff.1 h]; exact one_pow d⟩⟩
  set e : Fin d → F := Pi.single ⟨0, hd⟩ 1 with he
  have hne : r • e ≠ e := by
    intro h
    have := congrFun h ⟨0, hd⟩
    simp [he] at this
    exact hr2 this
  refine ⟨fun o => if r • e ∈ o then r • e else if h : o.Nonempty then h.choose else 0, fun o ho => ?_, fun order ho p => ?_⟩
  · dsimp only
    split_ifs with h1
    · exact h1
    · exact ho.choose_spec
  · rw [slLift, dif_neg]
    intro hs
    have h0 := hs ⟨0, hd⟩
    rw [slLiftColumn, unit_eq, idxOf?_none] at h0
    · simp at h0
    · intro hmem
      obtain ⟨o, h1, h2⟩ := List.mem_map.1 hmem
      have h3 := List.mem_of_mem_tail (List.mem_dedup.1 ((ho _).mem_iff.1 h1))
      obtain ⟨v, -, rfl⟩ := List.mem_map.1 h3
      rw [← he] at h2
      split_ifs at h2 with h4 h5
      · exact hne h2
      · apply h4
        have h6 := h5.choose_spec
        rw [h2, mem_rootOrbit hr] at h6
        obtain ⟨s, hs1, hs2⟩ := h6
        rw [mem_rootOrbit hr]
        exact ⟨r * s, by rw [mul_pow, hr1, hs1, one_mul], by rw [hs2, smul_smul]⟩
      · exact h5 ⟨v, (mem_rootOrbit hr v v).2 ⟨1, one_pow d, by rw [one_smul]⟩⟩

omit [DecidableEq F] in
theorem card_center (hd : 0 < d) :
    Nat.card (Subgroup.center (SpecialLinearGroup (Fin d) F)) = {r : F | r ^ d = 1}.ncard := by
  have i0 : Fin d := ⟨0, hd⟩
  rw [← Nat.card_coe_set_eq]
  have hmem : ∀ A : Subgroup.center (SpecialLinearGroup (Fin d) F), ∃ r : F, r ^ d = 1 ∧ scalar (Fin d) r = A.1.1 := by
    intro A
    have := SpecialLinearGroup.mem_center_iff.1 A.2
    rwa [Fintype.card_fin] at this
  have hentry : ∀ A : Subgroup.center (SpecialLinearGroup (Fin d) F), scalar (Fin d) (A.1.1 i0 i0) = A.1.1 := by
    intro A
    obtain ⟨r, -, e⟩ := hmem A
    rw [← e]; simp
  refine Nat.card_congr (Equiv.ofBijective (fun A => ⟨A.1.1 i0 i0, ?_⟩) ⟨?_, ?_⟩)
  · obtain ⟨r, h1, e⟩ := hmem A
    rw [Set.mem_setOf_eq, ← e]; simpa using h1
  · intro A B e
    have e' : A.1.1 i0 i0 = B.1.1 i0 i0 := congrArg Subtype.val e
    apply Subtype.ext
    apply Subtype.ext
    rw [← hentry A, ← hentry B, e']
  · rintro ⟨r, h1⟩
    rw [Set.mem_setOf_eq] at h1
    have hdet : (scalar (Fin d) r).det = 1 := by rw [scalar_apply, det_diagonal]; simpa using h1
    obtain ⟨A, hA⟩ : ∃ A : SpecialLinearGroup (Fin d) F, A.1 = scalar (Fin d) r := ⟨⟨_, hdet⟩, rfl⟩
    refine ⟨⟨A, ?_⟩, ?_⟩
    · rw [SpecialLinearGroup.mem_center_iff, Fintype.card_fin]; exact ⟨r, h1, hA.symm⟩
    · apply Subtype.ext
      change A.1 i0 i0 = r
      rw [hA]; simp

/-- C85: the order of the group: `|PSL(d, q)| gcd(d, q - 1) (q - 1) = ∏ (q ^ d - q ^ j)` for `j < d`. -/
theorem C85_order (hd : 0 < d) (ha : IsPrimitiveElement a) {gens : List (List ℕ)} {φ : Matrix (Fin d) (Fin d) F → List ℕ}
    (h : RepresentsPSL d F gens φ) :
    {p | PermGenerated gens p}.ncard * Nat.gcd d (Fintype.card F - 1) * (Fintype.card F - 1) =
      ∏ j : Fin d, (Fintype.card F ^ d - Fintype.card F ^ (j : ℕ)) := by
  obtain ⟨ψ, h1, h2, -⟩ := C85_isomorphic h
  have e : {p | PermGenerated gens p} = Set.range ψ := by ext p; simp [h2]
  rw [e, ← card_roots hd ha, ← card_center hd, ← Nat.card_coe_set_eq, Nat.card_range_of_injective h1]
  obtain ⟨n, rfl⟩ : ∃ n, d = n + 1 := ⟨d - 1, by omega⟩
  rw [← card_SL]
  congr 1
  exact (Subgroup.card_eq_card_quotient_mul_card_subgroup _).symm

/-- C85: `iter_mats` yields, as flat arrays, exactly one matrix of every class of matrices of determinant one modulo
roots of unity. -/
theorem C85_iter (hd : 0 < d) (ha : IsPrimitiveElement a) (hels : IsElements els)
    {order : List (Finset (Fin d × Fin d → F)) → List (Finset (Fin d × Fin d → F))} (ho : ∀ l, (order l).Perm l)
    {pick : Finset (Fin d × Fin d → F) → Fin d × Fin d → F}
    (hp : ∀ o : Finset (Fin d × Fin d → F), o.Nonempty → pick o ∈ o) :
    (pslIterMats els (Fintype.card F) a order pick).Nodup ∧
      (∀ v ∈ pslIterMats els (Fintype.card F) a order pick, (reshapeSquare v).det = 1) ∧
      ∀ M : Matrix (Fin d) (Fin d) F, M.det = 1 →
        ∃! v, v ∈ pslIterMats els (Fintype.card F) a order pick ∧ ∃ r : F, r ^ d = 1 ∧ reshapeSquare v = r • M := by
  have hr : ∀ x, x ∈ pslRoots d (Fintype.card F) a d ↔ x ^ d = 1 := mem_pslRoots ha hd (Nat.gcd_le_left _ hd)
  obtain ⟨-, hmem⟩ := C84_iter (d := d) hels
  set roots := pslRoots d (Fintype.card F) a d with hroots
  set Q : (Fin d × Fin d → F) → Prop := fun v => (Matrix.of fun i j => v (i, j)).det = 1 with hQ
  have hQs : ∀ v (r : F), r ^ d = 1 → Q v → Q (r • v) := by
    intro v r h1 hv
    have e : (Matrix.of fun i j => (r • v) (i, j)) = r • (Matrix.of fun i j => v (i, j)) := by ext i j; rfl
    simp only [hQ] at hv ⊢
    rw [e, det_smul, Fintype.card_fin, h1, hv, one_mul]
  have hflat : ∀ M : Matrix (Fin d) (Fin d) F, (Matrix.of fun i j => (fun e : Fin d × Fin d => M e.1 e.2) (i, j)) = M :=
    fun M => by ext i j; rfl
  have h := isReps_pick (ι := Fin d × Fin d) (Q := Q) hd hr hQs (ho ((slIterMats els d).map fun M =>
    rootOrbit roots fun e : Fin d × Fin d => M e.1 e.2).dedup) (List.nodup_dedup _) (by
      intro o
      rw [List.mem_dedup, List.mem_map]
      constructor
      · rintro ⟨M, hM, rfl⟩
        exact ⟨_, by simp only [hQ]; rw [hflat]; exact (hmem M).1 hM, rfl⟩
      · rintro ⟨v, hv, rfl⟩
        exact ⟨Matrix.of fun i j => v (i, j), (hmem _).2 hv, rfl⟩) hp
  have hlist : pslIterMats els (Fintype.card F) a order pick =
      ((order ((slIterMats els d).map fun M => rootOrbit roots fun e : Fin d × Fin d => M e.1 e.2).dedup).map pick).map
        fun u k => u (finProdFinEquiv.symm k) := by
    rw [pslIterMats, List.map_map]; rfl
  set L := (order ((slIterMats els d).map fun M => rootOrbit roots fun e : Fin d × Fin d => M e.1 e.2).dedup).map pick
  have hresh : ∀ u : Fin d × Fin d → F,
      reshapeSquare (fun k => u (finProdFinEquiv.symm k)) = Matrix.of fun i j => u (i, j) := by
    intro u; ext i j; simp [reshapeSquare]
  have hinj : Function.Injective fun (u : Fin d × Fin d → F) (k : Fin (d * d)) => u (finProdFinEquiv.symm k) := by
    intro u v e
    funext k
    have := congrFun e (finProdFinEquiv k)
    simpa using this
  rw [hlist]
  refine ⟨h.nodup.map hinj, ?_, ?_⟩
  · intro v hv
    obtain ⟨u, hu, rfl⟩ := List.mem_map.1 hv
    rw [hresh]
    exact h.sound u hu
  · intro M hM
    obtain ⟨r, h1, h2⟩ := h.exists_rep (fun e : Fin d × Fin d => M e.1 e.2) (by simp only [hQ]; rw [hflat]; exact hM)
    refine ⟨_, ⟨List.mem_map_of_mem h2, r, h1, ?_⟩, ?_⟩
    · rw [hresh]; ext i j; rfl
    · rintro v ⟨hv, s, hs, e⟩
      obtain ⟨u, hu, rfl⟩ := List.mem_map.1 hv
      rw [hresh] at e
      have hue : u = s • fun e : Fin d × Fin d => M e.1 e.2 := by
        funext k
        exact congrFun (congrFun e k.1) k.2
      have hrel : u = (s * r⁻¹) • (r • fun e : Fin d × Fin d => M e.1 e.2) := by
        rw [hue, smul_smul, mul_assoc, inv_mul_cancel₀ (root_ne_zero hd h1), mul_one]
      have := h.unique _ h2 (s * r⁻¹) (by rw [mul_pow, hs, root_inv h1, one_mul]) (by rw [← hrel]; exact hu)
      rw [hrel, this]

end PSL

/-! ### Examples and disagreements -/

private instance : Fact (Nat.Prime 3) := ⟨by norm_num⟩

private instance : Fact (Nat.Prime 5) := ⟨by norm_num⟩

theorem elements3 : IsElements ([0, 1, 2] : List (ZMod 3)) := ⟨by decide, by decide, ⟨_, rfl⟩⟩

theorem primitive3 : IsPrimitiveElement (2 : ZMod 3) := by
  refine ⟨by decide, fun x hx => ?_⟩
  have : ∀ x : ZMod 3, x ≠ 0 → ∃ k : Fin 2, x = 2 ^ k.1 := by decide
  obtain ⟨k, hk⟩ := this x hx
  exact ⟨k.1, hk⟩

theorem psl23_columns {roots : List (ZMod 3)} (hr : ∀ x, x ∈ roots ↔ x ^ 2 = 1) {ts : List (Fin 2 → ZMod 3)}
    (h : IsReps (ZMod 3) 2 (· ≠ 0) ts) {M L : Matrix (Fin 2) (Fin 2) (ZMod 3)} (hM : M.det = 1) {p : List ℕ}
    (hp : (pslPerm roots ts M).bind groupMember = some p) (hl : slLift ts p = some L) (j : Fin 2) :
    (Pi.single j 1 : Fin 2 → ZMod 3) ∈ ts ∧ ∀ i, L i j = repOf roots ts (fun k => M k j) i := by
  rw [pslPerm_eq (by decide) hr h hM] at hp
  obtain rfl := Option.some.inj hp
  have hne : ∀ v ∈ ts, M.mulVec v ≠ 0 := fun v hv h0 => h.sound v hv (mulVec_eq_zero hM h0)
  rw [slLift] at hl
  split_ifs at hl with hs
  have hj : (Pi.single j 1 : Fin 2 → ZMod 3) ∈ ts := by
    by_contra hj
    have := hs j
    rw [slLiftColumn, unit_eq, idxOf?_none hj] at this
    simp at this
  refine ⟨hj, fun i => ?_⟩
  rw [← Option.some.inj hl, Matrix.of_apply]
  have e := slLiftColumn_eq (f := fun v => repOf roots ts (M.mulVec v))
    (fun v hv => (repOf_spec hr h (hne v hv)).2.1) hj
  rw [Option.get_of_eq_some (hs j) e, mulVec_single_one]
  rfl

theorem psl23_table : ∀ s t r r' : ZMod 3, s ^ 2 = 1 → t ^ 2 = 1 →
    ¬ ((!![1, t * 2; 0, t] : Matrix (Fin 2) (Fin 2) (ZMod 3)) = r • (!![1, s; 0, s] * !![1, s; 0, s]) ∧
      (!![0, t * 2; 1, t] : Matrix (Fin 2) (Fin 2) (ZMod 3)) = r' • (!![0, 1; 1, 0] * !![1, s; 0, s])) ∧
    ¬ ((!![1, t * 2; 0, t] : Matrix (Fin 2) (Fin 2) (ZMod 3)) = r • (!![1, s; 0, s] * !![1, s; 0, s]) ∧
      (!![s, 1; s, 0] : Matrix (Fin 2) (Fin 2) (ZMod 3)) = r' • (!![0, 1; 1, 0] * !![1, s; 0, s])) := by
  decide +kernel

/-- Disagreement: for `PSL(2, 3)`, for all orders of iteration over sets, the lift raises for some member of the group, or
it respects products in neither order, not even up to multiples. -/
theorem C85_lift_disagreement
    {order : List (Finset (Fin 2 → ZMod 3)) → List (Finset (Fin 2 → ZMod 3))} (ho : ∀ l, (order l).Perm l)
    {pick : Finset (Fin 2 → ZMod 3) → Fin 2 → ZMod 3} (hp : ∀ o : Finset (Fin 2 → ZMod 3), o.Nonempty → pick o ∈ o)
    {roots : List (ZMod 3)} (hroots : roots = pslRoots 2 3 2 (Nat.gcd 2 (3 - 1)))
    {ts : List (Fin 2 → ZMod 3)} (hts : ts = pslTargetSpace [0, 1, 2] roots order pick)
    {φ : Matrix (Fin 2) (Fin 2) (ZMod 3) → List ℕ}
    (hφ : ∀ M : Matrix (Fin 2) (Fin 2) (ZMod 3), M.det = 1 → (pslPerm roots ts M).bind groupMember = some (φ M))
    {L : Matrix (Fin 2) (Fin 2) (ZMod 3) → Matrix (Fin 2) (Fin 2) (ZMod 3)}
    (hL : ∀ M : Matrix (Fin 2) (Fin 2) (ZMod 3), M.det = 1 → slLift ts (φ M) = some (L M)) :
    (¬ ∀ M N : Matrix (Fin 2) (Fin 2) (ZMod 3), M.det = 1 → N.det = 1 → ∃ r : ZMod 3, L (N * M) = r • (L N * L M)) ∧
      ¬ ∀ M N : Matrix (Fin 2) (Fin 2) (ZMod 3), M.det = 1 → N.det = 1 → ∃ r : ZMod 3, L (N * M) = r • (L M * L N) := by
  have hr : ∀ x, x ∈ roots ↔ x ^ 2 = 1 := by
    have := mem_pslRoots (d := 2) primitive3 (by decide) (le_refl _)
    rw [ZMod.card] at this
    rw [hroots]
    exact this
  have hreps : IsReps (ZMod 3) 2 (· ≠ 0) ts := by rw [hts]; exact psl_isReps (by decide) elements3 hr ho hp
  have hc := fun M hM => psl23_columns hr hreps (M := M) hM (hφ M hM) (hL M hM)
  have h1 : (1 : Matrix (Fin 2) (Fin 2) (ZMod 3)).det = 1 := det_one
  have e0 := repOf_mem (by decide) hr hreps (hc 1 h1 0).1
  have e1 := repOf_mem (by decide) hr hreps (hc 1 h1 1).1
  have e0' : repOf roots ts ![1, 0] = ![1, 0] := by
    rwa [show (Pi.single 0 1 : Fin 2 → ZMod 3) = ![1, 0] by decide] at e0
  have e1' : repOf roots ts ![0, 1] = ![0, 1] := by
    rwa [show (Pi.single 1 1 : Fin 2 → ZMod 3) = ![0, 1] by decide] at e1
  have en : repOf roots ts ![0, 2] = ![0, 1] := by
    rw [show (![0, 2] : Fin 2 → ZMod 3) = (2 : ZMod 3) • ![0, 1] by decide,
      repOf_smul (by decide) hr hreps (by decide) (by decide), e1']
  obtain ⟨-, -, s, hs, es⟩ := repOf_spec hr hreps (v := ![1, 1]) (by decide)
  obtain ⟨-, -, t, ht, et⟩ := repOf_spec hr hreps (v := ![2, 1]) (by decide)
  have es' : repOf roots ts ![2, 2] = s • ![1, 1] := by
    rw [show (![2, 2] : Fin 2 → ZMod 3) = (2 : ZMod 3) • ![1, 1] by decide,
      repOf_smul (by decide) hr hreps (by decide) (by decide), es]
  have et' : repOf roots ts ![1, 2] = t • ![2, 1] := by
    rw [show (![1, 2] : Fin 2 → ZMod 3) = (2 : ZMod 3) • ![2, 1] by decide,
      repOf_smul (by decide) hr hreps (by decide) (by decide), et]
  have key : ∀ (M : Matrix (Fin 2) (Fin 2) (ZMod 3)) (u v u' v' : Fin 2 → ZMod 3), M.det = 1 →
      (fun k => M k 0) = u → (fun k => M k 1) = v → repOf roots ts u = u' → repOf roots ts v = v' →
      L M = !![u' 0, v' 0; u' 1, v' 1] := by
    rintro M u v u' v' hM rfl rfl rfl rfl
    have c0 := (hc M hM 0).2
    have c1 := (hc M hM 1).2
    ext i j
    fin_cases i <;> fin_cases j
    exacts [c0 0, c1 0, c0 1, c1 1]
  have kx : L !![1, 1; 0, 1] = !![1, s; 0, s] := by
    rw [key _ ![1, 0] ![1, 1] _ _ (by decide) (by decide) (by decide) e0' es]; simp
  have kxx : L (!![1, 1; 0, 1] * !![1, 1; 0, 1]) = !![1, t * 2; 0, t] := by
    rw [key _ ![1, 0] ![2, 1] _ _ (by decide) (by decide) (by decide) e0' et]; simp
  have kw : L !![0, 1; 2, 0] = !![0, 1; 1, 0] := by
    rw [key _ ![0, 2] ![1, 0] _ _ (by decide) (by decide) (by decide) en e0']; simp
  have kwx : L (!![0, 1; 2, 0] * !![1, 1; 0, 1]) = !![0, t * 2; 1, t] := by
    rw [key _ ![0, 2] ![1, 2] _ _ (by decide) (by decide) (by decide) en et']; simp
  have kxw : L (!![1, 1; 0, 1] * !![0, 1; 2, 0]) = !![s, 1; s, 0] := by
    rw [key _ ![2, 2] ![1, 0] _ _ (by decide) (by decide) (by decide) es' e0']; simp
  constructor
  · intro h
    obtain ⟨r, hr1⟩ := h !![1, 1; 0, 1] !![1, 1; 0, 1] (by decide) (by decide)
    obtain ⟨r', hr2⟩ := h !![1, 1; 0, 1] !![0, 1; 2, 0] (by decide) (by decide)
    rw [kxx, kx] at hr1
    rw [kwx, kw, kx] at hr2
    exact (psl23_table s t r r' hs ht).1 ⟨hr1, hr2⟩
  · intro h
    obtain ⟨r, hr1⟩ := h !![1, 1; 0, 1] !![1, 1; 0, 1] (by decide) (by decide)
    obtain ⟨r', hr2⟩ := h !![0, 1; 2, 0] !![1, 1; 0, 1] (by decide) (by decide)
    rw [kxx, kx] at hr1
    rw [kxw, kw, kx] at hr2
    exact (psl23_table s t r r' hs ht).2 ⟨hr1, hr2⟩

/-- `PSL(2, 5)` has 60 members, in whichever order python iterates over sets. -/
example {order : List (Finset (Fin 2 → ZMod 5)) → List (Finset (Fin 2 → ZMod 5))} (ho : ∀ l, (order l).Perm l)
    {pick : Finset (Fin 2 → ZMod 5) → Fin 2 → ZMod 5} (hp : ∀ o : Finset (Fin 2 → ZMod 5), o.Nonempty → pick o ∈ o) :
    ∃ gens φ, pslLinear [0, 1, 2, 3, 4] 5 (2 : ZMod 5) order pick = some gens ∧ RepresentsPSL 2 (ZMod 5) gens φ ∧ {p | PermGenerated gens p}.ncard = 60 := by
  obtain ⟨gens, φ, h1, h2, -⟩ := C85_linear (F := ZMod 5) (d := 2) (els := [0, 1, 2, 3, 4]) (by decide) primitive5
    elements5 (by rw [ZMod.card]; decide) ho hp
  rw [ZMod.card] at h1
  refine ⟨gens, φ, h1, h2, ?_⟩
  have h3 := C85_order (by decide) primitive5 h2
  rw [ZMod.card] at h3
  simp [Fin.prod_univ_succ] at h3
  omega

/-- In `PSL(3, 3)`, one is the only root of unity. -/
example : Nat.gcd 3 (3 - 1) = 1 := by decide

#print axioms C85_linear
#print axioms C85_isomorphic
#print axioms C85_order
#print axioms C85_iter
#print axioms C85_lift_partial
#print axioms C85_lift_raises_disagreement
#print axioms C85_lift_disagreement

/-! ### Instances of the theorems: concrete cases meet the hypotheses -/

example : True := by
  have hp : ∀ o : Finset (Fin 2 → ZMod 5), o.Nonempty → (fun o : Finset (Fin 2 → ZMod 5) => if h : o.Nonempty then h.choose else 0) o ∈ o := by
    intro o ho
    simp only [ho, dif_pos]
    exact ho.choose_spec
  obtain ⟨gens, φ, h1, h2, -⟩ := C85_linear (F := ZMod 5) (d := 2) (els := [0, 1, 2, 3, 4]) (by decide) primitive5
    elements5 (by rw [ZMod.card]; decide) (order := id) (fun l => .refl l) hp
  have h3 := C85_isomorphic h2
  trivial
example {pick : Finset (Fin 3 × Fin 3 → ZMod 3) → Fin 3 × Fin 3 → ZMod 3}
    (hp : ∀ o : Finset (Fin 3 × Fin 3 → ZMod 3), o.Nonempty → pick o ∈ o) :=
  C85_iter (d := 3) (by decide) primitive3 elements3 (order := id) (fun l => .refl l) hp

end QLDPC.Props
