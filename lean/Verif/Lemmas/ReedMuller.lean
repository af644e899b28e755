import Verif.Model.Families
import Verif.Lemmas.Stack
import Verif.Lemmas.Binary
import Verif.Lemmas.CssSubsystem
import Mathlib.Data.Nat.Choose.Sum

/-! Reed-Muller codes. -/

set_option linter.unusedSectionVars false

namespace QLDPC

open Spec

variable {F : Type} [Field F] [DecidableEq F] {n m : ℕ}

theorem pow2_eq (m : ℕ) : pow2 m = 2 ^ m := by
  induction m with
  | zero => rfl
  | succ m ih => rw [pow2, ih, pow_succ]; omega

/-- number of monomials of degree at most `r` in `m` variables -/
def binomSum (r m : ℕ) : ℕ := ∑ i ∈ Finset.range (r + 1), m.choose i

theorem binomSum_succ (r m : ℕ) : binomSum (r + 1) (m + 1) = binomSum (r + 1) m + binomSum r m := by
  unfold binomSum
  rw [Finset.sum_range_succ' _ (r + 1), Finset.sum_range_succ' _ (r + 1)]
  simp only [Nat.choose_succ_succ, Finset.sum_add_distrib, Nat.choose_zero_right,
    Nat.succ_eq_add_one]
  omega

theorem binomSum_self (m : ℕ) : binomSum m m = 2 ^ m := Nat.sum_range_choose m

/-- the code spanned by the generator -/
def rmSpace (F : Type) [Field F] [DecidableEq F] (r m : ℕ) : Submodule F (Fin (pow2 m) → F) :=
  rowSpan ((rmGenerator F r m).getD [])

theorem rmGenerator_isSome {r m : ℕ} (h : r ≤ m) : (rmGenerator F r m).isSome := by
  induction m generalizing r with
  | zero => obtain rfl : r = 0 := by omega
            simp [rmGenerator]
  | succ m ih =>
    cases r with
    | zero => simp [rmGenerator]
    | succ r =>
      unfold rmGenerator
      split
      · rfl
      · rename_i hne
        obtain ⟨a, ha⟩ := Option.isSome_iff_exists.1 (ih (r := r + 1) (by omega))
        obtain ⟨b, hb⟩ := Option.isSome_iff_exists.1 (ih (r := r) (by omega))
        simp [ha, hb]

theorem rmGenerator_none {r m : ℕ} (h : m < r) : rmGenerator F r m = none := by
  induction m generalizing r with
  | zero => cases r with
    | zero => omega
    | succ r => simp [rmGenerator]
  | succ m ih =>
    cases r with
    | zero => omega
    | succ r =>
      unfold rmGenerator
      rw [if_neg (by omega), ih (by omega)]

theorem mem_rm_zero (m : ℕ) (w : Fin (pow2 m) → F) : w ∈ rmSpace F 0 m ↔ ∃ x : F, w = fun _ => x := by
  have : (rmGenerator F 0 m).getD [] = [1] := by cases m <;> rfl
  unfold rmSpace
  rw [this]
  unfold rowSpan
  simp only [List.mem_singleton, Set.setOf_eq_eq_singleton]
  rw [Submodule.mem_span_singleton]
  constructor
  · rintro ⟨x, rfl⟩; exact ⟨x, by funext i; simp⟩
  · rintro ⟨x, rfl⟩; exact ⟨x, by funext i; simp⟩

theorem rm_self (m : ℕ) : rmSpace F m m = ⊤ := by
  cases m with
  | zero =>
    rw [eq_top_iff]
    intro w _
    exact (mem_rm_zero 0 w).2 ⟨w ⟨0, by simp [pow2]⟩, funext fun i => by
      congr 1; have := i.isLt; simp only [pow2] at this; exact Fin.ext (by simp; omega)⟩
  | succ m =>
    unfold rmSpace rmGenerator
    rw [if_pos rfl, Option.getD_some, eq_top_iff]
    intro w _
    have : w = ∑ i, w i • (Pi.single i 1 : Fin (pow2 (m + 1)) → F) := by
      funext j
      simp [Finset.sum_apply, Pi.single_apply]
    rw [this]
    exact Submodule.sum_mem _ fun i _ => Submodule.smul_mem _ _
      (subset_rowSpan (List.mem_map.2 ⟨i, List.mem_finRange i, rfl⟩))

theorem mem_uuv {a b : Rows F n} (w : Fin (n + n) → F) :
    w ∈ rowSpan (a.map (fun r => Fin.append r r) ++ b.map fun r => Fin.append 0 r) ↔
      ∃ u ∈ rowSpan a, ∃ v ∈ rowSpan b, w = Fin.append u (u + v) := by
  let f : (Fin n → F) →ₗ[F] (Fin (n + n) → F) :=
    { toFun := fun r => Fin.append r r
      map_add' := by
        intro x y; funext i
        refine Fin.addCases (fun j => ?_) (fun j => ?_) i <;>
          simp [Fin.append_left, Fin.append_right, -Fin.natAdd_eq_addNat]
      map_smul' := by
        intro x y; funext i
        refine Fin.addCases (fun j => ?_) (fun j => ?_) i <;>
          simp [Fin.append_left, Fin.append_right, -Fin.natAdd_eq_addNat] }
  let g : (Fin n → F) →ₗ[F] (Fin (n + n) → F) :=
    { toFun := fun r => Fin.append 0 r
      map_add' := by
        intro x y; funext i
        refine Fin.addCases (fun j => ?_) (fun j => ?_) i <;>
          simp [Fin.append_left, Fin.append_right, -Fin.natAdd_eq_addNat]
      map_smul' := by
        intro x y; funext i
        refine Fin.addCases (fun j => ?_) (fun j => ?_) i <;>
          simp [Fin.append_left, Fin.append_right, -Fin.natAdd_eq_addNat] }
  have hfg : ∀ u v, f u + g v = Fin.append u (u + v) := by
    intro u v; funext i
    refine Fin.addCases (fun j => ?_) (fun j => ?_) i <;>
      simp [f, g, Fin.append_left, Fin.append_right, -Fin.natAdd_eq_addNat]
  have e1 : rowSpan (a.map fun r => Fin.append r r) = (rowSpan a).map f := rowSpan_map f a
  have e2 : rowSpan (b.map fun r => Fin.append 0 r) = (rowSpan b).map g := rowSpan_map g b
  rw [rowSpan_append', e1, e2, Submodule.mem_sup]
  constructor
  · rintro ⟨x, ⟨u, hu, rfl⟩, y, ⟨v, hv, rfl⟩, rfl⟩
    exact ⟨u, hu, v, hv, hfg u v⟩
  · rintro ⟨u, hu, v, hv, rfl⟩
    exact ⟨f u, ⟨u, hu, rfl⟩, g v, ⟨v, hv, rfl⟩, hfg u v⟩

theorem mem_rm_succ {r m : ℕ} (h : r + 1 ≤ m) (w : Fin (pow2 (m + 1)) → F) :
    w ∈ rmSpace F (r + 1) (m + 1) ↔
      ∃ u ∈ rmSpace F (r + 1) m, ∃ v ∈ rmSpace F r m, w = Fin.append u (u + v) := by
  obtain ⟨a, ha⟩ := Option.isSome_iff_exists.1 (rmGenerator_isSome (F := F) h)
  obtain ⟨b, hb⟩ := Option.isSome_iff_exists.1 (rmGenerator_isSome (F := F) (r := r) (m := m) (by omega))
  have : rmGenerator F (r + 1) (m + 1)
      = some (a.map (fun r => Fin.append r r) ++ b.map fun r => Fin.append 0 r) := by
    rw [rmGenerator, if_neg (by omega), ha, hb]
  unfold rmSpace
  rw [this, ha, hb]
  exact mem_uuv w

theorem length_uuv (a b : Rows F n) :
    (a.map (fun r => Fin.append r r) ++ b.map fun r => Fin.append 0 r).length = a.length + b.length := by
  simp

theorem length_rm {r m : ℕ} {G : Rows F (pow2 m)} (h : rmGenerator F r m = some G) :
    G.length = binomSum r m := by
  induction m generalizing r with
  | zero =>
    cases r with
    | zero => simp [rmGenerator] at h; subst h; simp [binomSum]
    | succ r => simp [rmGenerator] at h
  | succ m ih =>
    cases r with
    | zero => simp [rmGenerator] at h; subst h; simp [binomSum]
    | succ r =>
      rw [rmGenerator] at h
      split at h
      · rename_i he
        obtain rfl : r = m := by omega
        simp only [Option.some.injEq] at h
        subst h
        rw [binomSum_self, ← pow2_eq]
        simp
      · split at h
        · rename_i a b ha hb
          simp only [Option.some.injEq] at h
          subst h
          rw [binomSum_succ, ← ih ha, ← ih hb]
          exact length_uuv a b
        · exact absurd h (by simp)

/-- the map `(u, v) ↦ (u | u + v)` -/
def uuvₗ (F : Type) [Field F] (n : ℕ) : ((Fin n → F) × (Fin n → F)) →ₗ[F] (Fin (n + n) → F) where
  toFun p := Fin.append p.1 (p.1 + p.2)
  map_add' := by
    intro x y; funext i
    refine Fin.addCases (fun j => ?_) (fun j => ?_) i
    · simp [Fin.append_left]
    · simp [Fin.append_right, -Fin.natAdd_eq_addNat]; ring
  map_smul' := by
    intro x y; funext i
    refine Fin.addCases (fun j => ?_) (fun j => ?_) i
    · simp [Fin.append_left]
    · simp [Fin.append_right, -Fin.natAdd_eq_addNat]; ring

theorem append_inj' {u u' v v' : Fin n → F} (h : Fin.append u v = Fin.append u' v') : u = u' ∧ v = v' :=
  ⟨funext fun i => by simpa [Fin.append_left] using congrFun h (Fin.castAdd n i),
   funext fun i => by
    simpa [Fin.append_right, -Fin.natAdd_eq_addNat] using congrFun h (Fin.natAdd n i)⟩

theorem append_zero_zero (n : ℕ) : Fin.append (0 : Fin n → F) (0 + 0 : Fin n → F) = 0 := by
  funext i
  refine Fin.addCases (fun j => ?_) (fun j => ?_) i <;>
    simp [Fin.append_left, Fin.append_right, -Fin.natAdd_eq_addNat]

theorem append_const (n : ℕ) (x : F) :
    (fun _ => x : Fin (n + n) → F) = Fin.append (fun _ => x : Fin n → F) ((fun _ => x) + 0) := by
  funext i
  refine Fin.addCases (fun j => ?_) (fun j => ?_) i <;>
    simp [Fin.append_left, Fin.append_right, -Fin.natAdd_eq_addNat]

theorem uuv_injective : Function.Injective (uuvₗ F n) := by
  rintro ⟨u, v⟩ ⟨u', v'⟩ h
  obtain ⟨h1, h2⟩ := append_inj' h
  dsimp only at h1 h2
  subst h1
  rw [add_right_inj] at h2
  rw [h2]

theorem rmSpace_succ {r m : ℕ} (h : r + 1 ≤ m) : rmSpace F (r + 1) (m + 1)
    = ((rmSpace F (r + 1) m).prod (rmSpace F r m)).map (uuvₗ F (pow2 m)) := by
  ext w
  refine (mem_rm_succ h w).trans ?_
  constructor
  · rintro ⟨u, hu, v, hv, rfl⟩; exact ⟨(u, v), ⟨hu, hv⟩, rfl⟩
  · rintro ⟨⟨u, v⟩, ⟨hu, hv⟩, rfl⟩; exact ⟨u, hu, v, hv, rfl⟩

theorem finrank_prod_sub {n m : ℕ} (p : Submodule F (Fin n → F)) (q : Submodule F (Fin m → F)) :
    Module.finrank F (p.prod q) = Module.finrank F p + Module.finrank F q := by
  rw [← Module.finrank_prod]
  exact LinearEquiv.finrank_eq
    { toFun := fun x => (⟨x.1.1, x.2.1⟩, ⟨x.1.2, x.2.2⟩)
      invFun := fun y => ⟨(y.1.1, y.2.1), y.1.2, y.2.2⟩
      left_inv := fun _ => rfl
      right_inv := fun _ => rfl
      map_add' := fun _ _ => rfl
      map_smul' := fun _ _ => rfl }

theorem finrank_constants (m : ℕ) : Module.finrank F (rmSpace F 0 m) = 1 := by
  have : rmSpace F 0 m = Submodule.span F {(1 : Fin (pow2 m) → F)} := by
    ext w
    rw [mem_rm_zero, Submodule.mem_span_singleton]
    constructor
    · rintro ⟨x, rfl⟩; exact ⟨x, by funext i; simp⟩
    · rintro ⟨x, rfl⟩; exact ⟨x, by funext i; simp⟩
  rw [this]
  apply finrank_span_singleton
  intro h
  have hp : 0 < pow2 m := by rw [pow2_eq]; positivity
  exact one_ne_zero (congrFun h ⟨0, hp⟩)

theorem finrank_rm {r m : ℕ} (h : r ≤ m) : Module.finrank F (rmSpace F r m) = binomSum r m := by
  induction m generalizing r with
  | zero => obtain rfl : r = 0 := by omega
            rw [finrank_constants]; simp [binomSum]
  | succ m ih =>
    cases r with
    | zero => rw [finrank_constants]; simp [binomSum]
    | succ r =>
      by_cases he : r = m
      · subst he
        rw [rm_self, finrank_top, Module.finrank_fin_fun, binomSum_self, pow2_eq]
      · rw [binomSum_succ, rmSpace_succ (by omega), ← ih (r := r + 1) (by omega), ← ih (r := r) (by omega)]
        exact (Submodule.equivMapOfInjective _ uuv_injective _).symm.finrank_eq.trans
          (finrank_prod_sub _ _)

theorem weight_uuv (u v : Fin n → F) : hammingNorm v ≤ hammingNorm u + hammingNorm (u + v) := by
  have := hammingDist_triangle (u + v) (0 : Fin n → F) u
  have e : hammingDist (u + v) u = hammingNorm v := by
    rw [hammingDist_eq_hammingNorm]; simp [hammingNorm]
  rw [hammingDist_zero_right, hammingDist_zero_left, e] at this
  omega

theorem rm_distance {r m : ℕ} (h : r ≤ m) :
    (∀ w ∈ rmSpace F r m, w ≠ 0 → 2 ^ (m - r) ≤ hammingNorm w) ∧
    (∃ w ∈ rmSpace F r m, w ≠ 0 ∧ hammingNorm w = 2 ^ (m - r)) := by
  have hpos : ∀ m, 0 < pow2 m := fun m => by rw [pow2_eq]; positivity
  have hconst : ∀ m (x : F), x ≠ 0 → hammingNorm (fun _ : Fin (pow2 m) => x) = 2 ^ m := by
    intro m x hx; simp [hammingNorm, hx, pow2_eq]
  have zero : ∀ m, (∀ w ∈ rmSpace F 0 m, w ≠ 0 → 2 ^ (m - 0) ≤ hammingNorm w) ∧
      (∃ w ∈ rmSpace F 0 m, w ≠ 0 ∧ hammingNorm w = 2 ^ (m - 0)) := by
    intro m
    constructor
    · intro w hw hne
      obtain ⟨x, rfl⟩ := (mem_rm_zero m w).1 hw
      rw [hconst m x (by rintro rfl; exact hne rfl), Nat.sub_zero]
    · refine ⟨fun _ => 1, (mem_rm_zero m _).2 ⟨1, rfl⟩, ?_, hconst m 1 one_ne_zero⟩
      intro h0
      exact one_ne_zero (congrFun h0 ⟨0, hpos m⟩)
  induction m generalizing r with
  | zero => obtain rfl : r = 0 := by omega
            exact zero 0
  | succ m ih =>
    cases r with
    | zero => exact zero (m + 1)
    | succ r =>
      by_cases he : r = m
      · subst he
        rw [rm_self, Nat.sub_self, pow_zero]
        refine ⟨fun w _ hw => ?_, Pi.single ⟨0, hpos _⟩ 1, trivial, ?_, ?_⟩
        · rw [Nat.one_le_iff_ne_zero, Ne, hammingNorm_eq_zero]; exact hw
        · intro h0
          have := congrFun h0 ⟨0, hpos _⟩
          simp at this
        · have : (Finset.univ.filter fun i => (Pi.single (⟨0, hpos _⟩ : Fin (pow2 (r + 1))) (1 : F) :
              Fin (pow2 (r + 1)) → F) i ≠ 0) = {⟨0, hpos _⟩} := by
            ext i; simp [Pi.single_apply]
          unfold hammingNorm
          rw [this, Finset.card_singleton]
      · have h1 := ih (r := r + 1) (by omega)
        have h2 := ih (r := r) (by omega)
        constructor
        · intro w hw hne
          obtain ⟨u, hu, v, hv, rfl⟩ := (mem_rm_succ (by omega) w).1 hw
          have hn : hammingNorm (Fin.append u (u + v)) = hammingNorm u + hammingNorm (u + v) :=
            hammingNorm_append _ _
          refine le_of_le_of_eq ?_ hn.symm
          by_cases hv0 : v = 0
          · subst hv0
            have hu0 : u ≠ 0 := by
              rintro rfl
              exact hne (append_zero_zero _)
            have := h1.1 u hu hu0
            rw [add_zero, show m + 1 - (r + 1) = (m - (r + 1)) + 1 by omega, pow_succ]
            omega
          · have := h2.1 v hv hv0
            rw [show m + 1 - (r + 1) = m - r by omega]
            exact this.trans (weight_uuv u v)
        · obtain ⟨u, hu, hu0, hw⟩ := h1.2
          refine ⟨Fin.append u (u + 0), (mem_rm_succ (by omega) _).2 ⟨u, hu, 0, zero_mem _, rfl⟩, ?_, ?_⟩
          · intro h0
            apply hu0
            funext i
            have := congrFun h0 (Fin.castAdd _ i)
            rwa [Fin.append_left] at this
          · refine (hammingNorm_append u (u + 0)).trans ?_
            rw [add_zero, hw, show m + 1 - (r + 1) = (m - (r + 1)) + 1 by omega, pow_succ]
            omega

theorem rm_nested {r m : ℕ} (h : r + 1 ≤ m) : rmSpace F r m ≤ rmSpace F (r + 1) m := by
  induction m generalizing r with
  | zero => omega
  | succ m ih =>
    by_cases he : r = m
    · subst he; rw [rm_self]; exact le_top
    · intro w hw
      rw [mem_rm_succ (by omega)]
      cases r with
      | zero =>
        obtain ⟨x, rfl⟩ := (mem_rm_zero (m + 1) w).1 hw
        refine ⟨fun _ => x, ih (r := 0) (by omega) ((mem_rm_zero _ _).2 ⟨x, rfl⟩), 0, zero_mem _,
          append_const _ x⟩
      | succ r =>
        obtain ⟨u, hu, v, hv, rfl⟩ := (mem_rm_succ (by omega) w).1 hw
        exact ⟨u, ih (by omega) hu, v, ih (by omega) hv, rfl⟩

/-- orthogonal complement -/
def orth (V : Submodule F (Fin n → F)) : Submodule F (Fin n → F) where
  carrier := {w | ∀ v ∈ V, ∑ i, v i * w i = 0}
  zero_mem' := by intro r _; simp
  add_mem' := by
    intro a b ha hb r hr
    simp only [Pi.add_apply, mul_add, Finset.sum_add_distrib, ha r hr, hb r hr, add_zero]
  smul_mem' := by
    intro c a ha r hr
    simp only [Pi.smul_apply, smul_eq_mul, mul_left_comm, ← Finset.mul_sum, ha r hr, mul_zero]

theorem orth_rowSpan (M : Rows F n) : orth (rowSpan M) = kernel M := by
  ext w
  rw [← codeSpace_eq]
  constructor
  · intro h r hr; exact h r (subset_rowSpan hr)
  · intro h v hv
    obtain ⟨c, rfl⟩ := (isCombination_iff M v).2 hv
    simp only [Finset.sum_apply, Finset.sum_mul, Pi.smul_apply, smul_eq_mul, mul_assoc]
    rw [Finset.sum_comm]
    refine Finset.sum_eq_zero fun i _ => ?_
    rw [← Finset.mul_sum, h M[i] (List.getElem_mem _), mul_zero]

theorem orth_orth (M : Rows F n) : orth (orth (rowSpan M)) = rowSpan M := by
  rw [orth_rowSpan, ← rowSpan_nullSpace, orth_rowSpan, kernel_nullSpace]

theorem sum_append_mul (a b c d : Fin n → F) :
    ∑ i, Fin.append a b i * Fin.append c d i = ∑ i, a i * c i + ∑ i, b i * d i := by
  rw [Fin.sum_univ_add]
  simp [Fin.append_left, Fin.append_right, -Fin.natAdd_eq_addNat]

theorem exists_append (w : Fin (n + n) → F) : ∃ a b, w = Fin.append a b :=
  ⟨fun i => w (Fin.castAdd n i), fun i => w (Fin.natAdd n i), by
    funext i
    refine Fin.addCases (fun j => ?_) (fun j => ?_) i <;>
      simp [Fin.append_left, Fin.append_right, -Fin.natAdd_eq_addNat]⟩

theorem mem_orth_succ {r m : ℕ} (h : r + 1 ≤ m) (a b : Fin (pow2 m) → F) :
    Fin.append a b ∈ orth (rmSpace F (r + 1) (m + 1)) ↔
      a + b ∈ orth (rmSpace F (r + 1) m) ∧ b ∈ orth (rmSpace F r m) := by
  constructor
  · intro hw
    constructor
    · intro u hu
      have := hw _ ((mem_rm_succ h _).2 ⟨u, hu, 0, zero_mem _, rfl⟩)
      have := (sum_append_mul _ _ _ _).symm.trans this
      rw [add_zero, ← Finset.sum_add_distrib] at this
      simpa [mul_add] using this
    · intro v hv
      have := hw _ ((mem_rm_succ h _).2 ⟨0, zero_mem _, v, hv, rfl⟩)
      have := (sum_append_mul _ _ _ _).symm.trans this
      simpa using this
  · rintro ⟨h1, h2⟩ w hw
    obtain ⟨u, hu, v, hv, rfl⟩ := (mem_rm_succ h w).1 hw
    refine (sum_append_mul _ _ _ _).trans ?_
    have e1 := h1 u hu
    have e2 := h2 v hv
    simp only [Pi.add_apply, mul_add, add_mul, Finset.sum_add_distrib] at e1 e2 ⊢
    rw [e2, add_zero, e1]

theorem orth_constants (hb : IsBinary F) (m : ℕ) : orth (rmSpace F 0 (m + 1)) = rmSpace F m (m + 1) := by
  have hconst : ∀ m (w : Fin (pow2 m) → F), w ∈ orth (rmSpace F 0 m) ↔ ∑ i, w i = 0 := by
    intro m w
    constructor
    · intro h
      simpa using h (fun _ => 1) ((mem_rm_zero m _).2 ⟨1, rfl⟩)
    · intro h v hv
      obtain ⟨x, rfl⟩ := (mem_rm_zero m v).1 hv
      rw [← Finset.mul_sum, h, mul_zero]
  have hneg : ∀ x : F, -x = x := by
    intro x
    have : x + x = 0 := by rw [← two_mul, ← one_add_one_eq_two, hb.one_add_one, zero_mul]
    exact neg_eq_of_add_eq_zero_left this
  induction m with
  | zero =>
    ext w
    rw [hconst, mem_rm_zero]
    obtain ⟨a, b, rfl⟩ := exists_append (n := pow2 0) w
    have : ∀ a b : Fin (pow2 0) → F, ∑ i, Fin.append a b i = a ⟨0, by decide⟩ + b ⟨0, by decide⟩ := by
      intro a b
      rw [Fin.sum_univ_add]
      simp only [Fin.append_left, Fin.append_right]
      exact congrArg₂ (· + ·) (Fin.sum_univ_one (fun i : Fin 1 => a i)) (Fin.sum_univ_one (fun i : Fin 1 => b i))
    refine (Eq.congr_left (this a b)).trans ?_
    constructor
    · intro h
      have hab := eq_neg_of_add_eq_zero_left h
      rw [hneg] at hab
      refine ⟨a ⟨0, by decide⟩, funext fun i => ?_⟩
      refine Fin.addCases (fun j => ?_) (fun j => ?_) i
      · rw [Fin.append_left]; congr 1; apply Subsingleton.elim (h := inferInstanceAs (Subsingleton (Fin 1)))
      · rw [Fin.append_right, hab]; congr 1
        apply Subsingleton.elim (h := inferInstanceAs (Subsingleton (Fin 1)))
    · rintro ⟨x, hx⟩
      have h1 := congrFun hx (Fin.castAdd _ ⟨0, by decide⟩)
      have h2 := congrFun hx (Fin.natAdd _ ⟨0, by decide⟩)
      rw [Fin.append_left] at h1
      rw [Fin.append_right] at h2
      rw [h1, h2]
      have := hneg x
      rw [neg_eq_iff_add_eq_zero] at this
      exact this
  | succ m ih =>
    ext w
    rw [hconst, mem_rm_succ le_rfl]
    obtain ⟨a, b, rfl⟩ := exists_append (n := pow2 (m + 1)) w
    have e : ∑ i, Fin.append a b i = ∑ i, (a + b) i := by
      rw [Fin.sum_univ_add]
      simp [Fin.append_left, Fin.append_right, -Fin.natAdd_eq_addNat, Finset.sum_add_distrib]
    refine (Eq.congr_left e).trans ?_
    rw [← hconst, ih]
    have hsw : ∀ v : Fin (pow2 (m + 1)) → F, b = a + v → v = a + b := by
      rintro v rfl
      funext i
      have := hneg (a i)
      rw [neg_eq_iff_add_eq_zero] at this
      simp [← add_assoc, this]
    constructor
    · intro h
      refine ⟨a, by rw [rm_self]; trivial, a + b, h, ?_⟩
      congr 1
      funext i
      have := hneg (a i)
      rw [neg_eq_iff_add_eq_zero] at this
      simp [← add_assoc, this]
    · rintro ⟨u, _, v, hv, he⟩
      obtain ⟨rfl, h2⟩ := append_inj' he
      rwa [← hsw v h2]

theorem rm_dual (hb : IsBinary F) {r m : ℕ} (h : r < m) :
    orth (rmSpace F r m) = rmSpace F (m - r - 1) m := by
  have hneg : ∀ x : F, -x = x := by
    intro x
    have : x + x = 0 := by rw [← two_mul, ← one_add_one_eq_two, hb.one_add_one, zero_mul]
    exact neg_eq_of_add_eq_zero_left this
  induction m generalizing r with
  | zero => omega
  | succ m ih =>
    cases r with
    | zero =>
      rw [show m + 1 - 0 - 1 = m by omega]
      exact orth_constants hb m
    | succ r =>
      by_cases he : r + 1 = m
      · subst he
        rw [show r + 1 + 1 - (r + 1) - 1 = 0 by omega, ← orth_constants hb]
        exact orth_orth _
      · ext w
        obtain ⟨k, hk⟩ : ∃ k, m - (r + 1) = k + 1 := ⟨m - (r + 1) - 1, by omega⟩
        obtain ⟨a, b, rfl⟩ := exists_append (n := pow2 m) w
        rw [show m + 1 - (r + 1) - 1 = k + 1 by omega]
        refine (mem_orth_succ (by omega) a b).trans (Iff.trans ?_ (mem_rm_succ (by omega) _).symm)
        rw [ih (r := r + 1) (by omega), ih (r := r) (by omega), show m - (r + 1) - 1 = k by omega,
          show m - r - 1 = k + 1 by omega]
        have hself : ∀ x : Fin (pow2 m) → F, x + x = 0 := by
          intro x
          funext i
          have := hneg (x i)
          rwa [neg_eq_iff_add_eq_zero] at this
        constructor
        · rintro ⟨h1, h2⟩
          refine ⟨a, ?_, a + b, h1, ?_⟩
          · have := add_mem (rm_nested (by omega) h1) h2
            rwa [add_assoc, hself, add_zero] at this
          · congr 1
            rw [← add_assoc, hself, zero_add]
        · rintro ⟨u, hu, v, hv, he'⟩
          obtain ⟨rfl, h2⟩ := append_inj' he'
          subst h2
          refine ⟨?_, add_mem hu (rm_nested (by omega) hv)⟩
          rw [← add_assoc, hself, zero_add]
          exact hv

end QLDPC
