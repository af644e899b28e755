import Verif.Lemmas.LinearPerm
import Verif.Props.GroupBuild
import Mathlib.Algebra.Field.ZMod
import Mathlib.Tactic.NormNum.Prime

/-!
# C84: special linear groups
-/

namespace QLDPC.Props

open QLDPC QLDPC.SLin Matrix

section SL

variable {F : Type} [Field F] [DecidableEq F] [Fintype F] {a : F} {els : List F} {d : ℕ}

theorem primitive_sq_ne_one (ha : IsPrimitiveElement a) (hq : ¬ Fintype.card F ≤ 3) : a ^ 2 ≠ 1 := by
  intro h
  apply hq
  have hsub : (Finset.univ : Finset F) ⊆ {0, 1, a} := by
    intro x _
    by_cases hx : x = 0
    · simp [hx]
    · obtain ⟨k, rfl⟩ := ha.power x hx
      rcases Nat.even_or_odd' k with ⟨m, rfl | rfl⟩
      · rw [pow_mul, h, one_pow]; simp
      · rw [pow_succ, pow_mul, h, one_pow, one_mul]; simp
  calc Fintype.card F = (Finset.univ : Finset F).card := rfl
    _ ≤ ({0, 1, a} : Finset F).card := Finset.card_le_card hsub
    _ ≤ 3 := Finset.card_le_three

/-- The generating matrices as members of the special linear group. -/
theorem sl_generating (hd : 2 ≤ d) (ha : IsPrimitiveElement a) :
    ∃ X W : SpecialLinearGroup (Fin d) F, slGeneratingMats d (Fintype.card F) a = some (X.1, W.1) ∧
      Subgroup.closure {X, W} = ⊤ ∧ X.1 ≠ W.1 := by
  obtain ⟨n, rfl⟩ : ∃ n, d = n + 2 := ⟨d - 2, by omega⟩
  have hX : ∀ X W : SpecialLinearGroup (Fin (n + 2)) F, X ∈ Subgroup.closure {X, W} :=
    fun X W => Subgroup.subset_closure (Or.inl rfl)
  have hW : ∀ X W : SpecialLinearGroup (Fin (n + 2)) F, W ∈ Subgroup.closure {X, W} :=
    fun X W => Subgroup.subset_closure (Or.inr rfl)
  by_cases hq : Fintype.card F ≤ 3
  · refine ⟨SpecialLinearGroup.transvection fin01 1, shiftSL F n, slMats_small hq a,
      eq_top_of_small hq (hW _ _) fin01 (hX _ _), fun e => ?_⟩
    have := congrFun (congrFun e 1) 0
    rw [transvection_apply] at this
    change _ = shiftMat F n 1 0 at this
    rw [shiftMat_apply] at this
    simp at this
  · refine ⟨diagSL (genD a) (prod_genD ha.ne_zero), SpecialLinearGroup.transvection fin01 1 * shiftSL F n,
      slMats_large hq ha.ne_zero, ?_, fun e => ?_⟩
    · exact eq_top_of_large a ha.power (primitive_sq_ne_one ha hq) (prod_genD ha.ne_zero) (by simp [genD]) (by simp [genD])
        (fun i h0 h1 => by simp [genD, h0, h1]) (hX _ _) fin01 (hW _ _)
    · have := congrFun (congrFun e 1) 0
      rw [mulTransShift, shiftMat_apply] at this
      change diagonal (genD a) 1 0 = _ at this
      simp at this

/-- C84: for every dimension above one and every finite field, `get_generating_mats` returns two matrices that generate
exactly the matrices of determinant one. -/
theorem C84_generators (hd : 2 ≤ d) (ha : IsPrimitiveElement a) :
    ∃ x w, slGeneratingMats d (Fintype.card F) a = some (x, w) ∧
      ∀ M, M ∈ Subsemigroup.closure {x, w} ↔ M.det = 1 := by
  obtain ⟨X, W, h, hcl, -⟩ := sl_generating hd ha
  exact ⟨X.1, W.1, h, semigroup_closure_SL hcl⟩

omit [Fintype F] in
/-- C84: `get_generating_mats` raises in dimensions zero and one. -/
theorem C84_raises (hd : d < 2) (q : ℕ) : slGeneratingMats d q a = none := by
  interval_cases d
  · simp [slGeneratingMats]
  · simp only [slGeneratingMats, setMatEntry]
    by_cases hq : q ≤ 3 <;> simp [hq]

/-- Specification: `gens` generate, by the product of sympy, the permutations `φ M` of the matrices of determinant one;
different matrices have different permutations; the product of the permutations of `M` and `N` is that of `N @ M`. -/
structure RepresentsSL (d : ℕ) (F : Type) [Field F] (gens : List (List ℕ)) (φ : Matrix (Fin d) (Fin d) F → List ℕ) : Prop where
  generated : ∀ p, PermGenerated gens p ↔ ∃ M : Matrix (Fin d) (Fin d) F, M.det = 1 ∧ φ M = p
  injective : ∀ M N : Matrix (Fin d) (Fin d) F, M.det = 1 → N.det = 1 → φ M = φ N → M = N
  mul : ∀ M N : Matrix (Fin d) (Fin d) F, M.det = 1 → N.det = 1 → φ (N * M) = arrayMulList (φ M) (φ N)

/-- C84: `SpecialLinearGroup(d, q)` in its linear representation is the group of matrices of determinant one, and its
lift maps the permutation of a matrix to that matrix. -/
theorem C84_linear (hd : 2 ≤ d) (ha : IsPrimitiveElement a) (hels : IsElements els) (hq : Fintype.card F ≤ 256) :
    ∃ x w gens φ, slGeneratingMats d (Fintype.card F) a = some (x, w) ∧
      slLinear els d (Fintype.card F) a = some gens ∧ gens = [φ x, φ w] ∧ RepresentsSL d F gens φ ∧
      ∀ M, M.det = 1 → slLift (slTargetSpace els d) (φ M) = some M := by
  obtain ⟨x, w, hxw, hcl⟩ := C84_generators hd ha
  have hx : x.det = 1 := (hcl x).1 (Subsemigroup.subset_closure (Or.inl rfl))
  have hw : w.det = 1 := (hcl w).1 (Subsemigroup.subset_closure (Or.inr rfl))
  have hmul : ∀ M N : Matrix (Fin d) (Fin d) F, M.det = 1 → N.det = 1 →
      permOf (slTargetSpace els d) (N * M).mulVec =
        arrayMulList (permOf (slTargetSpace els d) M.mulVec) (permOf (slTargetSpace els d) N.mulVec) := by
    intro M N hM hN
    rw [permOf_mul (mulVec_mem hels hM)]
    congr 1
    funext v
    rw [mulVec_mulVec]
  refine ⟨x, w, _, fun M => permOf (slTargetSpace els d) M.mulVec, hxw, ?_, rfl, ⟨?_, ?_, ?_⟩, ?_⟩
  · rw [slLinear, if_neg (by omega), hxw]
    simp only [Option.bind_eq_bind, Option.bind_some, List.mapM_cons, List.mapM_nil, slPerm_groupMember hels hx,
      slPerm_groupMember hels hw]
    rfl
  · intro p
    constructor
    · intro hp
      induction hp with
      | base hp =>
        rcases List.mem_cons.1 hp with rfl | hp
        · exact ⟨x, hx, rfl⟩
        · rw [List.mem_singleton.1 hp]; exact ⟨w, hw, rfl⟩
      | mul _ _ ih1 ih2 =>
        obtain ⟨M, hM, rfl⟩ := ih1
        obtain ⟨N, hN, rfl⟩ := ih2
        exact ⟨N * M, by rw [det_mul, hM, hN, one_mul], hmul M N hM hN⟩
    · rintro ⟨M, hM, rfl⟩
      have hM' := (hcl M).2 hM
      clear hM
      induction hM' using Subsemigroup.closure_induction with
      | mem y hy =>
        rcases hy with rfl | rfl
        · exact .base (by simp)
        · exact .base (by simp)
      | mul y z hy hz ihy ihz =>
        simp only
        rw [hmul z y ((hcl z).1 hz) ((hcl y).1 hy)]
        exact .mul ihz ihy
  · exact fun M N hM hN e => permOf_mulVec_inj hels hM hN e
  · exact hmul
  · exact fun M hM => slLift_eq hels hM

/-- C84: with `linear_rep=False` too: the loop ends, and the group that is built is the group of matrices of determinant
one. -/
theorem C84_regular (hd : 2 ≤ d) (ha : IsPrimitiveElement a) :
    ∃ fuel g rows φ, slRegular fuel d (Fintype.card F) a = some (some (.ok (g, rows))) ∧ RepresentsSL d F rows φ ∧
      (∀ M, M ∈ g.mats ↔ M.det = 1) ∧ ∀ M, M.det = 1 → g.lift (φ M) = some M := by
  obtain ⟨X, W, hxw, hcl', hne⟩ := sl_generating hd ha
  have hcl := semigroup_closure_SL hcl'
  have hset : {M | M ∈ [X.1, W.1]} = ({X.1, W.1} : Set (Matrix (Fin d) (Fin d) F)) := by ext M; simp
  have hnd : [X.1, W.1].Nodup := by simp [hne]
  have hu : ∀ M ∈ [X.1, W.1], IsUnit M := by
    intro M hM
    rw [Matrix.isUnit_iff_isUnit_det]
    have : M.det = 1 := (hcl M).1 (Subsemigroup.subset_closure (by simpa using hM))
    rw [this]; exact isUnit_one
  obtain ⟨r, hr⟩ := C40_mats_terminates hnd (Set.toFinite _)
  generalize (Subsemigroup.closure {x | x ∈ [X.1, W.1]} : Set (Matrix (Fin d) (Fin d) F)).ncard + 2 = fuel at hr
  obtain ⟨g, rows, φ, rfl, hg⟩ := C40_mats hnd hu hr
  have hmem : ∀ M, M ∈ g.mats ↔ M.det = 1 := by
    intro M
    rw [hg.mem, hset, hcl]
  refine ⟨fuel, g, rows, φ, ?_, ⟨?_, ?_, ?_⟩, hmem, ?_⟩
  · rw [slRegular, hxw, Option.map_some, hr]
  · intro p
    rw [C40_mats_generated hg]
    simp only [hmem]
  · exact fun M N hM hN => hg.inj M ((hmem M).2 hM) N ((hmem N).2 hN)
  · exact fun M N hM hN => hg.mul M ((hmem M).2 hM) N ((hmem N).2 hN)
  · exact fun M hM => hg.lift M ((hmem M).2 hM)

/-- C84: the order of the group: `|SL(d, q)| (q - 1) = ∏ (q ^ d - q ^ j)` for `j < d`. -/
theorem C84_order (hd : 0 < d) {gens : List (List ℕ)} {φ : Matrix (Fin d) (Fin d) F → List ℕ}
    (h : RepresentsSL d F gens φ) :
    {p | PermGenerated gens p}.ncard * (Fintype.card F - 1) =
      ∏ j : Fin d, (Fintype.card F ^ d - Fintype.card F ^ (j : ℕ)) := by
  obtain ⟨n, rfl⟩ : ∃ n, d = n + 1 := ⟨d - 1, by omega⟩
  rw [← card_SL]
  congr 1
  have e : {p | PermGenerated gens p} = φ '' {M | M.det = 1} := by
    ext p
    simp only [Set.mem_setOf_eq, h.generated, Set.mem_image]
  rw [e, Set.ncard_image_of_injOn (show Set.InjOn φ {M | M.det = 1} from fun M hM N hN => h.injective M N hM hN)]
  exact (Nat.card_coe_set_eq _).symm

/-- C84: the group is isomorphic to the special linear group, by mapping a matrix to the permutation of its inverse. -/
theorem C84_isomorphic {gens : List (List ℕ)} {φ : Matrix (Fin d) (Fin d) F → List ℕ} (h : RepresentsSL d F gens φ) :
    ∃ ψ : SpecialLinearGroup (Fin d) F → List ℕ, Function.Injective ψ ∧
      (∀ p, PermGenerated gens p ↔ ∃ M, ψ M = p) ∧ ∀ M N, ψ (M * N) = arrayMulList (ψ M) (ψ N) := by
  refine ⟨fun M => φ (M⁻¹).1, fun M N e => ?_, fun p => ?_, fun M N => ?_⟩
  · have := h.injective _ _ (M⁻¹).2 (N⁻¹).2 e
    exact inv_injective (Subtype.ext this)
  · rw [h.generated]
    constructor
    · rintro ⟨M, hM, rfl⟩
      obtain ⟨N, rfl⟩ : ∃ N : SpecialLinearGroup (Fin d) F, N.1 = M := ⟨⟨M, hM⟩, rfl⟩
      exact ⟨N⁻¹, congrArg (fun K : SpecialLinearGroup (Fin d) F => φ K.1) (_root_.inv_inv N)⟩
    · rintro ⟨M, rfl⟩
      exact ⟨_, (M⁻¹).2, rfl⟩
  · simp only
    rw [← h.mul _ _ (M⁻¹).2 (N⁻¹).2, _root_.mul_inv_rev]
    rfl

omit [Fintype F] in
/-- C84: `iter_mats` yields every matrix of determinant one, each once. -/
theorem C84_iter (hels : IsElements els) : (slIterMats els d).Nodup ∧ ∀ M, M ∈ slIterMats els d ↔ M.det = 1 := by
  constructor
  · refine ((nodup_vecProduct hels.nodup _).map fun u v e => ?_).filter _
    funext k
    have := congrFun (congrFun e (finProdFinEquiv.symm k).1) (finProdFinEquiv.symm k).2
    simp only [reshapeSquare, Matrix.of_apply, Prod.mk.eta, Equiv.apply_symm_apply] at this
    exact this
  · intro M
    rw [slIterMats, List.mem_filter, List.mem_map]
    simp only [decide_eq_true_eq, and_iff_right_iff_imp]
    intro _
    refine ⟨fun k => M (finProdFinEquiv.symm k).1 (finProdFinEquiv.symm k).2, mem_vecProduct hels.mem _, ?_⟩
    ext i j
    simp [reshapeSquare]

/-- C84: the lift reverses products: `lift(p * q) = lift(q) @ lift(p)`. -/
theorem C84_lift_reverses {gens : List (List ℕ)} {φ : Matrix (Fin d) (Fin d) F → List ℕ}
    (h : RepresentsSL d F gens φ) {lift : List ℕ → Option (Matrix (Fin d) (Fin d) F)}
    (hl : ∀ M, M.det = 1 → lift (φ M) = some M) {p q : List ℕ} (hp : PermGenerated gens p) (hq : PermGenerated gens q) :
    ∃ M N, lift p = some M ∧ lift q = some N ∧ lift (arrayMulList p q) = some (N * M) := by
  obtain ⟨M, hM, rfl⟩ := (h.generated p).1 hp
  obtain ⟨N, hN, rfl⟩ := (h.generated q).1 hq
  refine ⟨M, N, hl M hM, hl N hN, ?_⟩
  rw [← h.mul M N hM hN]
  exact hl _ (by rw [det_mul, hM, hN, one_mul])

/-- Disagreement: the lift is a representation for no dimension above one and no field. -/
theorem C84_lift_disagreement (hd : 2 ≤ d) {gens : List (List ℕ)} {φ : Matrix (Fin d) (Fin d) F → List ℕ}
    (h : RepresentsSL d F gens φ) {lift : List ℕ → Option (Matrix (Fin d) (Fin d) F)}
    (hl : ∀ M, M.det = 1 → lift (φ M) = some M) :
    ¬ ∀ p q M N, PermGenerated gens p → PermGenerated gens q → lift p = some M → lift q = some N →
      lift (arrayMulList p q) = some (M * N) := by
  obtain ⟨n, rfl⟩ : ∃ n, d = n + 2 := ⟨d - 2, by omega⟩
  intro hc
  set M := SpecialLinearGroup.transvection (fin01 (n := n)) (1 : F) with hM
  set N := SpecialLinearGroup.transvection (fin01 (n := n)).symm (1 : F) with hN
  have h1 := hc (φ M.1) (φ N.1) M.1 N.1 ((h.generated _).2 ⟨M.1, M.2, rfl⟩) ((h.generated _).2 ⟨N.1, N.2, rfl⟩)
    (hl _ M.2) (hl _ N.2)
  rw [← h.mul _ _ M.2 N.2, hl _ (by rw [det_mul, M.2, N.2, one_mul])] at h1
  have h2 := congrFun (congrFun (Option.some.inj h1) 0) 0
  rw [hM, hN, SpecialLinearGroup.transvection_coe, SpecialLinearGroup.transvection_coe, mul_add, add_mul, add_mul, mul_add,
    mul_one, one_mul] at h2
  simp at h2

end SL

/-! ### Examples -/

private instance : Fact (Nat.Prime 5) := ⟨by norm_num⟩

/-- The field of five elements. -/
theorem elements5 : IsElements ([0, 1, 2, 3, 4] : List (ZMod 5)) := ⟨by decide, by decide, ⟨_, rfl⟩⟩

theorem primitive5 : IsPrimitiveElement (2 : ZMod 5) := by
  refine ⟨by decide, fun x hx => ?_⟩
  have : ∀ x : ZMod 5, x ≠ 0 → ∃ k : Fin 4, x = 2 ^ k.1 := by decide
  obtain ⟨k, hk⟩ := this x hx
  exact ⟨k.1, hk⟩

/-- The hypotheses hold for all dimensions over the field of five elements; the group `SL(2, 5)` has order 120. -/
example (d : ℕ) (hd : 2 ≤ d) : ∃ x w, slGeneratingMats d 5 (2 : ZMod 5) = some (x, w) ∧
    ∀ M, M ∈ Subsemigroup.closure {x, w} ↔ M.det = 1 := C84_generators hd primitive5

example : ∃ gens φ, slLinear [0, 1, 2, 3, 4] 2 5 (2 : ZMod 5) = some gens ∧ RepresentsSL 2 (ZMod 5) gens φ ∧
    {p | PermGenerated gens p}.ncard = 120 := by
  obtain ⟨x, w, gens, φ, -, h, -, hr, -⟩ := C84_linear (d := 2) le_rfl primitive5 elements5 (by decide)
  refine ⟨gens, φ, h, hr, ?_⟩
  have := C84_order (by decide) hr
  rw [ZMod.card, Fin.prod_univ_two] at this
  norm_num at this
  omega

example : slGeneratingMats 2 5 (2 : ZMod 5) = some (!![2, 0; 0, 3], !![-1, 1; -1, 0]) := by decide +kernel

example : slGeneratingMats 3 2 (1 : ZMod 2) = some (!![1, 1, 0; 0, 1, 0; 0, 0, 1], !![0, 0, 1; -1, 0, 0; 0, -1, 0]) := by
  decide +kernel

/-! ### Instances of the theorems: concrete cases meet the hypotheses -/

example := C84_raises (a := (2 : ZMod 3)) (d := 1) (by decide) 3

example := C84_regular (d := 2) le_rfl primitive5
example := C84_iter (d := 2) elements5
example : True := by
  obtain ⟨x, w, gens, φ, -, h, -, hr, hl⟩ := C84_linear (d := 2) le_rfl primitive5 elements5 (by decide)
  have h1 := C84_isomorphic hr
  have h2 := C84_lift_reverses hr hl ((hr.generated _).2 ⟨1, by simp, rfl⟩) ((hr.generated _).2 ⟨1, by simp, rfl⟩)
  trivial

end QLDPC.Props

#print axioms QLDPC.Props.C84_generators
#print axioms QLDPC.Props.C84_raises
#print axioms QLDPC.Props.C84_linear
#print axioms QLDPC.Props.C84_regular
#print axioms QLDPC.Props.C84_order
#print axioms QLDPC.Props.C84_isomorphic
#print axioms QLDPC.Props.C84_iter
#print axioms QLDPC.Props.C84_lift_reverses
#print axioms QLDPC.Props.C84_lift_disagreement
