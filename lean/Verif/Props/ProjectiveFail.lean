import Verif.Props.ProjectiveRegular
import Mathlib.FieldTheory.Finite.GaloisField

/-!
# C85: Kronecker products that do not generate projective special linear groups
-/

namespace QLDPC.Props

open QLDPC QLDPC.SLin Matrix
open scoped Kronecker

section Fail

variable {F : Type} [Field F] [DecidableEq F] [Fintype F] {a : F} {d : ℕ}

/-- The Kronecker product of two matrices of determinant one. -/
def pairKron (p : SpecialLinearGroup (Fin d) F × SpecialLinearGroup (Fin d) F) :
    Matrix (Fin d × Fin d) (Fin d × Fin d) F := p.1.1 ⊗ₖ p.2.1

omit [DecidableEq F] [Fintype F] in
theorem pairKron_mul (p r : SpecialLinearGroup (Fin d) F × SpecialLinearGroup (Fin d) F) :
    pairKron (p * r) = pairKron p * pairKron r := by
  rw [pairKron, pairKron, pairKron, ← mul_kronecker_mul]
  rfl

omit [DecidableEq F] [Fintype F] in
theorem pairKron_one : pairKron (1 : SpecialLinearGroup (Fin d) F × SpecialLinearGroup (Fin d) F) = 1 := by
  rw [pairKron]
  exact one_kronecker_one

omit [DecidableEq F] [Fintype F] in
theorem pairKron_pow (p : SpecialLinearGroup (Fin d) F × SpecialLinearGroup (Fin d) F) (k : ℕ) :
    pairKron (p ^ k) = pairKron p ^ k := by
  induction k with
  | zero => rw [pow_zero, pow_zero, pairKron_one]
  | succ k ih => rw [pow_succ, pow_succ, pairKron_mul, ih]

omit [DecidableEq F] [Fintype F] in
theorem pairKron_eq {p r : SpecialLinearGroup (Fin d) F × SpecialLinearGroup (Fin d) F} (hd : 0 < d)
    (e : pairKron p = pairKron r) : ∃ s : F, s ^ d = 1 ∧ p.2.1 = s • r.2.1 := by
  have hne : p.1.1 ≠ 0 := by
    intro h0
    have h1 := p.1.2
    have : Nonempty (Fin d) := ⟨⟨0, hd⟩⟩
    rw [h0, det_zero] at h1
    exact zero_ne_one h1
  obtain ⟨i, j, hij⟩ : ∃ i j, p.1.1 i j ≠ 0 := by
    by_contra hc
    push Not at hc
    exact hne (by ext i j; exact hc i j)
  have key : p.2.1 = ((p.1.1 i j)⁻¹ * r.1.1 i j) • r.2.1 := by
    ext k l
    have h1 := congrFun (congrFun e (i, k)) (j, l)
    rw [pairKron, pairKron, kronecker_apply, kronecker_apply] at h1
    rw [Matrix.smul_apply, smul_eq_mul, mul_assoc, ← h1, inv_mul_cancel_left₀ hij]
  refine ⟨_, ?_, key⟩
  have h2 := congrArg Matrix.det key
  rw [det_smul, p.2.2, r.2.2, mul_one, Fintype.card_fin] at h2
  exact h2.symm

/-- If two words in the generators are the same matrix up to a scalar, but their Kronecker products with the words in the
inverse generators are different, the Kronecker products generate more than the projective special linear group. -/
theorem psl_regular_fails (hd : 0 < d) {X W : SpecialLinearGroup (Fin d) F}
    (hxw : slGeneratingMats d (Fintype.card F) a = some (X.1, W.1)) (hcl : Subgroup.closure {X, W} = ⊤)
    (hne : ∀ r : F, X.1 ≠ r • W.1)
    {p r : SpecialLinearGroup (Fin d) F × SpecialLinearGroup (Fin d) F}
    (hp : p ∈ Subgroup.closure {(X⁻¹, X), (W⁻¹, W)}) (hr : r ∈ Subgroup.closure {(X⁻¹, X), (W⁻¹, W)})
    (hpr : ∃ s : F, s ^ d = 1 ∧ p.2.1 = s • r.2.1) (hk : pairKron p ≠ pairKron r) :
    ∃ fuel g rows, pslRegular fuel d (Fintype.card F) a = some (some (.ok (g, rows))) ∧
      ∀ φ, ¬ RepresentsPSL d F rows φ := by
  classical
  set K := Subgroup.closure {(X⁻¹, X), (W⁻¹, W)} with hK
  have hXi : X.1⁻¹ = (X⁻¹).1 := by
    refine Matrix.inv_eq_right_inv ?_
    rw [← SpecialLinearGroup.coe_mul, mul_inv_cancel, SpecialLinearGroup.coe_one]
  have hWi : W.1⁻¹ = (W⁻¹).1 := by
    refine Matrix.inv_eq_right_inv ?_
    rw [← SpecialLinearGroup.coe_mul, mul_inv_cancel, SpecialLinearGroup.coe_one]
  have hmats : pslKronMats d (Fintype.card F) a = some (pairKron (X⁻¹, X), pairKron (W⁻¹, W)) := by
    rw [pslKronMats, hxw, Option.map_some, hXi, hWi]
    rfl
  have hunit : ∀ t : SpecialLinearGroup (Fin d) F × SpecialLinearGroup (Fin d) F, IsUnit (pairKron t) := fun t =>
    IsUnit.of_mul_eq_one (pairKron t⁻¹) (by rw [← pairKron_mul, mul_inv_cancel, pairKron_one])
  obtain ⟨fuel, g, rows, φ, hreg, hg⟩ := pslRegular_ok hmats (fun e => by
    obtain ⟨s, -, h1⟩ := pairKron_eq hd e
    exact hne s h1) (hunit _) (hunit _)
  refine ⟨fuel, g, rows, hreg, fun φ' hrep => hk ?_⟩
  set C := Subsemigroup.closure {x | x ∈ [pairKron (X⁻¹, X), pairKron (W⁻¹, W)]} with hC
  have hKC : ∀ t ∈ K, pairKron t ∈ C := by
    intro t ht
    have hpos : ∀ t : SpecialLinearGroup (Fin d) F × SpecialLinearGroup (Fin d) F, 0 < orderOf t := fun t => orderOf_pos t
    have hX : pairKron (X⁻¹, X) ∈ C := Subsemigroup.subset_closure (by simp)
    have hW : pairKron (W⁻¹, W) ∈ C := Subsemigroup.subset_closure (by simp)
    induction ht using Subgroup.closure_induction with
    | mem t ht => rcases ht with rfl | rfl; exacts [hX, hW]
    | one =>
      have := subsemigroup_pow hX (hpos (X⁻¹, X))
      rwa [← pairKron_pow, pow_orderOf_eq_one] at this
    | mul s t _ _ h1 h2 => rw [pairKron_mul]; exact C.mul_mem h1 h2
    | inv t _ h1 =>
      have e : t⁻¹ = t ^ (2 * orderOf t - 1) := by
        have := hpos t
        rw [inv_eq_iff_mul_eq_one, ← pow_succ', show 2 * orderOf t - 1 + 1 = orderOf t * 2 by omega, pow_mul,
          pow_orderOf_eq_one, one_pow]
      have := hpos t
      rw [e, pairKron_pow]
      exact subsemigroup_pow h1 (by omega)
  have hCK : ∀ c ∈ C, ∃ t ∈ K, pairKron t = c := by
    intro c hc
    induction hc using Subsemigroup.closure_induction with
    | mem c hc =>
      have hc' : c = pairKron (X⁻¹, X) ∨ c = pairKron (W⁻¹, W) := by simpa using hc
      rcases hc' with rfl | rfl
      · exact ⟨_, Subgroup.subset_closure (Or.inl rfl), rfl⟩
      · exact ⟨_, Subgroup.subset_closure (Or.inr rfl), rfl⟩
    | mul b c _ _ h1 h2 =>
      obtain ⟨s, hs, rfl⟩ := h1
      obtain ⟨t, ht, rfl⟩ := h2
      exact ⟨s * t, K.mul_mem hs ht, pairKron_mul s t⟩
  have hsnd : ∀ M : SpecialLinearGroup (Fin d) F, ∃ t ∈ K, t.2 = M := by
    intro M
    have h1 : Subgroup.map (MonoidHom.snd _ _) K = (⊤ : Subgroup (SpecialLinearGroup (Fin d) F)) := by
      rw [hK, MonoidHom.map_closure, Set.image_pair]
      exact hcl
    have h2 : M ∈ Subgroup.map (MonoidHom.snd _ _) K := by rw [h1]; trivial
    obtain ⟨t, ht, e⟩ := h2
    exact ⟨t, ht, e⟩
  obtain ⟨ψ, hψ, hgen, -⟩ := C85_isomorphic hrep
  have hcard : Nat.card C = Nat.card (ProjectiveSpecialLinearGroup (Fin d) F) := by
    have hCg : ∀ p, (∃ x ∈ C, φ x = p) ↔ ∃ M, ψ M = p := by
      intro p
      rw [← hgen p, C40_mats_generated hg p]
      simp only [hg.mem, hC]
    choose h1 h2 using fun c : C => (hCg (φ c.1)).1 ⟨c.1, c.2, rfl⟩
    refine Nat.card_congr (Equiv.ofBijective h1 ⟨fun b c e => ?_, fun M => ?_⟩)
    · have := h2 b
      rw [e, h2 c] at this
      exact Subtype.ext (hg.inj _ ((hg.mem _).2 b.2) _ ((hg.mem _).2 c.2) this.symm)
    · obtain ⟨c, hc, e⟩ := (hCg (ψ M)).2 ⟨M, rfl⟩
      exact ⟨⟨c, hc⟩, hψ (by rw [h2 ⟨c, hc⟩, e])⟩
  choose t htK hte using hCK
  let τ : C → ProjectiveSpecialLinearGroup (Fin d) F := fun c => ((t c.1 c.2).2 : SpecialLinearGroup (Fin d) F)
  have hτ : ∀ s, (hs : s ∈ K) → τ ⟨pairKron s, hKC s hs⟩ = (s.2 : SpecialLinearGroup (Fin d) F) := by
    intro s hs
    exact (center_iff _ _).2 (pairKron_eq hd (hte _ (hKC s hs)))
  have hsurj : Function.Surjective τ := by
    intro M
    induction M using QuotientGroup.induction_on with
    | H M =>
      obtain ⟨s, hs, rfl⟩ := hsnd M
      exact ⟨_, hτ s hs⟩
  have hbij : Function.Bijective τ := hsurj.bijective_of_nat_card_le hcard.le
  have h1 : τ ⟨pairKron p, hKC p hp⟩ = τ ⟨pairKron r, hKC r hr⟩ := by
    rw [hτ p hp, hτ r hr]
    exact (center_iff _ _).2 hpr
  exact congrArg Subtype.val (hbij.1 h1)

end Fail

section Action

variable {F : Type} [Field F] [DecidableEq F] {a : F} {n : ℕ}

/-- How the matrix `x` acts on vectors. -/
def actX (a : F) (v : Fin (n + 3) → F) (i : Fin (n + 3)) : F :=
  if i.1 = 0 then a * v i else if i.1 = 1 then a⁻¹ * v i else v i

/-- How the matrix `w` acts on vectors. -/
def actW (v : Fin (n + 3) → F) (i : Fin (n + 3)) : F :=
  if i.1 = 0 then v ⟨n + 2, by omega⟩ - v i else -v ⟨i.1 - 1, by omega⟩

/-- How the inverse of `w` acts on vectors. -/
def actWi (v : Fin (n + 3) → F) (i : Fin (n + 3)) : F :=
  if h : i.1 = n + 2 then v ⟨0, by omega⟩ - v ⟨1, by omega⟩ else -v ⟨i.1 + 1, by omega⟩

theorem actX_actX (ha : a ≠ 0) (v : Fin (n + 3) → F) : actX a (actX a⁻¹ v) = v := by
  funext i
  simp only [actX]
  split_ifs <;> simp [ha]

theorem actW_actWi (v : Fin (n + 3) → F) : actW (actWi v) = v := by
  funext i
  have hi := i.2
  simp only [actW, actWi]
  split_ifs with h1 h2 h3 h4
  · omega
  · obtain rfl : i = ⟨0, Nat.succ_pos _⟩ := Fin.ext h1
    simp
  · simp at h3; omega
  · rw [neg_neg]
    congr 1
    exact Fin.ext (by simp; omega)

variable (a n) in
/-- The matrix `x`. -/
def genX (ha : a ≠ 0) : SpecialLinearGroup (Fin (n + 3)) F := diagSL (n := n + 1) (genD a) (prod_genD ha)

variable (F n) in
/-- The matrix `w`. -/
def genW : SpecialLinearGroup (Fin (n + 3)) F := SpecialLinearGroup.transvection (fin01 (n := n + 1)) (1 : F) * shiftSL F (n + 1)

/-- The action of a matrix of determinant one. -/
def actSL (g : SpecialLinearGroup (Fin (n + 3)) F) (v : Fin (n + 3) → F) : Fin (n + 3) → F := g.1 *ᵥ v

theorem actSL_mul (g h : SpecialLinearGroup (Fin (n + 3)) F) (v : Fin (n + 3) → F) :
    actSL (g * h) v = actSL g (actSL h v) := by
  rw [actSL, actSL, actSL, mulVec_mulVec]
  rfl

theorem actSL_one (v : Fin (n + 3) → F) : actSL 1 v = v := by
  rw [actSL, SpecialLinearGroup.coe_one, one_mulVec]

theorem actSL_inj {g h : SpecialLinearGroup (Fin (n + 3)) F} (e : ∀ v, actSL g v = actSL h v) : g = h :=
  Subtype.ext (Matrix.ext_iff_mulVec.2 e)

theorem actSL_inv {g : SpecialLinearGroup (Fin (n + 3)) F} {f : (Fin (n + 3) → F) → Fin (n + 3) → F}
    (h : ∀ v, actSL g (f v) = v) (v : Fin (n + 3) → F) : actSL g⁻¹ v = f v := by
  conv_lhs => rw [← h v]
  rw [← actSL_mul, inv_mul_cancel, actSL_one]

theorem actSL_genX (ha : a ≠ 0) (v : Fin (n + 3) → F) : actSL (genX a n ha) v = actX a v := by
  funext i
  change (diagonal (genD (n := n + 1) a) *ᵥ v) i = _
  rw [mulVec_diagonal, actX, genD]
  simp only [← val_eq_zero_iff, ← val_eq_one_iff]
  split_ifs <;> simp

theorem actSL_genW (v : Fin (n + 3) → F) : actSL (genW F n) v = actW v := by
  funext i
  have hi := i.2
  change ∑ j, (genW F n).1 i j * v j = _
  have hw : ∀ j, (genW F n).1 i j = if i.1 = 0 ∧ j.1 = 0 then -1 else shiftMat F (n + 1) i j := mulTransShift i
  simp only [hw, shiftMat_apply, actW]
  by_cases h : i.1 = 0
  · obtain rfl : i = ⟨0, Nat.succ_pos _⟩ := Fin.ext h
    have e : ∀ j : Fin (n + 3), (if (0 : ℕ) = 0 ∧ j.1 = 0 then -1 else if (0 : ℕ) = 0 ∧ j.1 = n + 1 + 1 then 1
        else if 0 = j.1 + 1 then -1 else (0 : F)) * v j =
        (if j = ⟨n + 2, by omega⟩ then v j else 0) - if j = ⟨0, by omega⟩ then v j else 0 := by
      intro j
      simp only [Fin.ext_iff]
      by_cases h0 : j.1 = 0
      · have h1 : ¬ j.1 = n + 2 := by omega
        simp [h0]
      · by_cases h1 : j.1 = n + 2
        · simp [h1]
        · simp [h0, h1]
    rw [Finset.sum_congr rfl fun j _ => e j, Finset.sum_sub_distrib, Finset.sum_ite_eq', Finset.sum_ite_eq']
    simp
  · rw [if_neg h, Finset.sum_eq_single ⟨i.1 - 1, by omega⟩]
    · rw [if_neg (by omega), if_neg (by omega), if_pos (by simp; omega), neg_one_mul]
    · intro j _ hj
      have : ¬ i.1 = j.1 + 1 := fun e => hj (Fin.ext (by simp; omega))
      rw [if_neg (by omega), if_neg (by omega), if_neg this, zero_mul]
    · simp

theorem actSL_genX_inv (ha : a ≠ 0) (v : Fin (n + 3) → F) : actSL (genX a n ha)⁻¹ v = actX a⁻¹ v :=
  actSL_inv (fun v => by rw [actSL_genX, actX_actX ha]) v

theorem actSL_genW_inv (v : Fin (n + 3) → F) : actSL (genW F n)⁻¹ v = actWi v :=
  actSL_inv (fun v => by rw [actSL_genW, actW_actWi]) v

/-- `w x w⁻¹` acting on vectors. -/
def actY (a : F) (v : Fin (n + 3) → F) (i : Fin (n + 3)) : F :=
  if i.1 = 0 then v i + (a - 1) * v ⟨1, by omega⟩ else if i.1 = 1 then a * v i else if i.1 = 2 then a⁻¹ * v i else v i

/-- `w⁻¹ x⁻¹ w` acting on vectors. -/
def actZ (a : F) (v : Fin (n + 3) → F) (i : Fin (n + 3)) : F :=
  if i.1 = 0 then a * v i else if i.1 = n + 2 then a⁻¹ * v i + (a - a⁻¹) * v ⟨0, by omega⟩ else v i

theorem actY_eq (v : Fin (n + 3) → F) : actW (actX a (actWi v)) = actY a v := by
  funext i
  have hi := i.2
  rcases i with ⟨i, hi'⟩
  simp only [actW, actX, actWi, actY]
  rcases i with - | - | - | i
  · simp; ring
  · simp
  · simp
  · have : i + 1 + 1 ≠ n + 2 := by simp at hi; omega
    simp at hi ⊢
    rw [dif_neg (by omega), neg_neg]

theorem actZ_eq (v : Fin (n + 3) → F) : actWi (actX a⁻¹ (actW v)) = actZ a v := by
  funext i
  rcases i with ⟨i, hi⟩
  simp only [actW, actX, actWi, actZ]
  by_cases h : i = n + 2
  · subst h; simp; ring
  · rcases i with - | i
    · simp
    · simp at h ⊢
      rw [dif_neg h, if_neg h]

/-- A commutator, from what it does to products. -/
theorem actSL_comm {x y : SpecialLinearGroup (Fin (n + 3)) F} {f : (Fin (n + 3) → F) → Fin (n + 3) → F}
    (h : ∀ v, actSL x (actSL y v) = f (actSL y (actSL x v))) (v : Fin (n + 3) → F) :
    actSL (x * y * (y * x)⁻¹) v = f v := by
  have e : actSL y (actSL x (actSL (y * x)⁻¹ v)) = v := by
    rw [← actSL_mul, ← actSL_mul, mul_inv_cancel, actSL_one]
  rw [actSL_mul, actSL_mul, h, e]

/-- The commutator of `x` and `w x w⁻¹` acting on vectors. -/
def actT (a : F) (v : Fin (n + 3) → F) (i : Fin (n + 3)) : F :=
  if i.1 = 0 then v i + (a - 1) * (a - a⁻¹) * v ⟨1, by omega⟩ else v i

/-- The commutator of `x⁻¹` and `w⁻¹ x⁻¹ w` acting on vectors. -/
def actT' (a : F) (v : Fin (n + 3) → F) (i : Fin (n + 3)) : F :=
  if i.1 = n + 2 then v i + (a - a⁻¹) * (1 - a⁻¹) * v ⟨0, by omega⟩ else v i

theorem actT_eq (ha : a ≠ 0) (v : Fin (n + 3) → F) : actX a (actY a v) = actT a (actY a (actX a v)) := by
  funext i
  rcases i with ⟨i, hi⟩
  simp only [actX, actY, actT]
  rcases i with - | - | - | i
  · simp; field_simp; ring
  · simp; field_simp
  · simp
  · simp

theorem actT'_eq (ha : a ≠ 0) (v : Fin (n + 3) → F) : actX a⁻¹ (actZ a v) = actT' a (actZ a (actX a⁻¹ v)) := by
  funext i
  rcases i with ⟨i, hi⟩
  simp only [actX, actZ, actT']
  by_cases h : i = n + 2
  · subst h; simp; field_simp; ring
  · rcases i with - | - | i
    · simp; field_simp
    · simp at h
      simp [h]
    · simp at h
      simp [h]

variable (a n) in
/-- The generator `x` with its inverse. -/
def wordX (ha : a ≠ 0) : SpecialLinearGroup (Fin (n + 3)) F × SpecialLinearGroup (Fin (n + 3)) F :=
  ((genX a n ha)⁻¹, genX a n ha)

variable (F n) in
/-- The generator `w` with its inverse. -/
def wordW : SpecialLinearGroup (Fin (n + 3)) F × SpecialLinearGroup (Fin (n + 3)) F := ((genW F n)⁻¹, genW F n)

variable (a n) in
/-- The word `w x w⁻¹`. -/
def wordY (ha : a ≠ 0) : SpecialLinearGroup (Fin (n + 3)) F × SpecialLinearGroup (Fin (n + 3)) F :=
  wordW F n * wordX a n ha * (wordW F n)⁻¹

variable (a n) in
/-- The commutator of `x` and `w x w⁻¹`. -/
def wordT (ha : a ≠ 0) : SpecialLinearGroup (Fin (n + 3)) F × SpecialLinearGroup (Fin (n + 3)) F :=
  wordX a n ha * wordY a n ha * (wordY a n ha * wordX a n ha)⁻¹

theorem wordY_snd (ha : a ≠ 0) (v : Fin (n + 3) → F) : actSL (wordY a n ha).2 v = actY a v := by
  change actSL (genW F n * genX a n ha * (genW F n)⁻¹) v = _
  rw [actSL_mul, actSL_mul, actSL_genW_inv, actSL_genX, actSL_genW, actY_eq]

theorem wordY_fst (ha : a ≠ 0) (v : Fin (n + 3) → F) : actSL (wordY a n ha).1 v = actZ a v := by
  change actSL ((genW F n)⁻¹ * (genX a n ha)⁻¹ * ((genW F n)⁻¹)⁻¹) v = _
  rw [actSL_mul, actSL_mul, inv_inv, actSL_genW_inv, actSL_genX_inv, actSL_genW, actZ_eq]

theorem wordT_snd (ha : a ≠ 0) (v : Fin (n + 3) → F) : actSL (wordT a n ha).2 v = actT a v := by
  change actSL (genX a n ha * (wordY a n ha).2 * ((wordY a n ha).2 * genX a n ha)⁻¹) v = _
  exact actSL_comm (fun v => by rw [wordY_snd, actSL_genX, actSL_genX, wordY_snd, actT_eq ha]) v

theorem wordT_fst (ha : a ≠ 0) (v : Fin (n + 3) → F) : actSL (wordT a n ha).1 v = actT' a v := by
  change actSL ((genX a n ha)⁻¹ * (wordY a n ha).1 * ((wordY a n ha).1 * (genX a n ha)⁻¹)⁻¹) v = _
  exact actSL_comm (fun v => by rw [wordY_fst, actSL_genX_inv, actSL_genX_inv, wordY_fst, actT'_eq ha]) v

/-! ### Elements whose cube is not one -/

theorem large_comm (ha : a ≠ 0) : (wordX a n ha * wordY a n ha * wordY a n ha * wordT a n ha).2 =
    (wordT a n ha * (wordX a n ha * wordY a n ha * wordY a n ha)).2 := by
  refine actSL_inj fun v => ?_
  simp only [Prod.snd_mul, actSL_mul, wordT_snd, wordY_snd]
  change actSL (genX a n ha) _ = actT a (actSL (genX a n ha) _)
  rw [actSL_genX, actSL_genX]
  funext i
  rcases i with ⟨i, hi⟩
  simp only [actX, actY, actT]
  rcases i with - | - | - | i
  · simp; field_simp; ring
  · simp
  · simp
  · simp

theorem large_ne (ha : a ≠ 0) (h2 : a ^ 2 ≠ 1) (h3 : a ^ 3 ≠ 1) :
    (wordX a n ha * wordY a n ha * wordY a n ha * wordT a n ha).1 ≠
    (wordT a n ha * (wordX a n ha * wordY a n ha * wordY a n ha)).1 := by
  intro e
  have e1 := congrFun (congrArg (fun g => actSL g fun i => if i.1 = 0 then 1 else 0) e) ⟨n + 2, by omega⟩
  simp only [Prod.fst_mul, actSL_mul, wordT_fst, wordY_fst] at e1
  change actSL (genX a n ha)⁻¹ _ _ = actT' a (actSL (genX a n ha)⁻¹ _) _ at e1
  rw [actSL_genX_inv, actSL_genX_inv] at e1
  simp [actX, actZ, actT'] at e1
  field_simp at e1
  have h1 : a ≠ 1 := by rintro rfl; simp at h2
  have e2 : (a - 1) * (a ^ 3 - 1) = 0 := by linear_combination (-1 : F) * e1
  simp [sub_eq_zero, h1, h3] at e2

/-! ### Elements whose cube is one, dimensions above three -/

/-- The conjugate of the commutator by `w` acting on vectors. -/
def actS (a : F) (v : Fin (n + 3) → F) (i : Fin (n + 3)) : F :=
  if i.1 ≤ 1 then v i + (a - 1) * (a - a⁻¹) * v ⟨2, by omega⟩ else v i

/-- The conjugate of the other commutator by `w⁻¹` acting on vectors. -/
def actS' (a : F) (v : Fin (n + 3) → F) (i : Fin (n + 3)) : F :=
  if i.1 = n + 1 then v i - (a - a⁻¹) * (1 - a⁻¹) * (v ⟨n + 2, by omega⟩ - v ⟨0, by omega⟩) else v i

theorem actS_eq (v : Fin (n + 3) → F) : actW (actT a (actWi v)) = actS a v := by
  funext i
  rcases i with ⟨i, hi⟩
  simp only [actW, actT, actWi, actS]
  rcases i with - | - | i
  · simp; ring
  · simp; ring
  · simp at hi ⊢
    rw [dif_neg (by omega), neg_neg]

theorem actS'_eq (v : Fin (n + 3) → F) : actWi (actT' a (actW v)) = actS' a v := by
  funext i
  rcases i with ⟨i, hi⟩
  simp only [actW, actT', actWi, actS']
  by_cases h : i = n + 2
  · subst h; simp
  · by_cases h1 : i = n + 1
    · subst h1; simp; ring
    · simp [h, h1]

variable (a n) in
/-- The conjugate of the commutator by `w`. -/
def wordS (ha : a ≠ 0) : SpecialLinearGroup (Fin (n + 3)) F × SpecialLinearGroup (Fin (n + 3)) F :=
  wordW F n * wordT a n ha * (wordW F n)⁻¹ * wordX a n ha

theorem wordS_snd (ha : a ≠ 0) (v : Fin (n + 3) → F) : actSL (wordS a n ha).2 v = actS a (actX a v) := by
  change actSL (genW F n * (wordT a n ha).2 * (genW F n)⁻¹ * genX a n ha) v = _
  rw [actSL_mul, actSL_mul, actSL_mul, actSL_genW_inv, wordT_snd, actSL_genW, actSL_genX, actS_eq]

theorem wordS_fst (ha : a ≠ 0) (v : Fin (n + 3) → F) : actSL (wordS a n ha).1 v = actS' a (actX a⁻¹ v) := by
  change actSL ((genW F n)⁻¹ * (wordT a n ha).1 * ((genW F n)⁻¹)⁻¹ * (genX a n ha)⁻¹) v = _
  rw [actSL_mul, actSL_mul, actSL_mul, inv_inv, actSL_genW_inv, wordT_fst, actSL_genW, actSL_genX_inv, actS'_eq]

theorem four_one (h1 : a ≠ 1) (h3 : a ^ 3 = 1) : (wordS a n (by rintro rfl; simp at h3)).2 ^ 3 = 1 := by
  have ha : a ≠ 0 := by rintro rfl; simp at h3
  have hq : a ^ 2 + a + 1 = 0 := by
    have : (a - 1) * (a ^ 2 + a + 1) = 0 := by linear_combination h3
    rcases mul_eq_zero.1 this with h | h
    · exact absurd (sub_eq_zero.1 h) h1
    · exact h
  have hi : a⁻¹ = a ^ 2 := by
    rw [inv_eq_iff_eq_inv]; exact eq_inv_of_mul_eq_one_left (by linear_combination h3)
  refine actSL_inj fun v => ?_
  rw [pow_succ, pow_two, actSL_mul, actSL_mul, actSL_one, wordS_snd, wordS_snd, wordS_snd]
  funext i
  rcases i with ⟨i, hi'⟩
  simp only [actX, actS, hi]
  rcases i with - | - | i
  · simp
    linear_combination v 0 * h3 + (a - 1) * (a - a ^ 2) * v ⟨2, by omega⟩ * hq
  · simp
    linear_combination v 1 * (a ^ 3 + 1) * h3 + (a - 1) * (a - a ^ 2) * v ⟨2, by omega⟩ * (a ^ 2 - a + 1) * hq
  · simp

theorem four_ne (hn : 0 < n) (h1 : a ≠ 1) (h3 : a ^ 3 = 1) : (wordS a n (by rintro rfl; simp at h3)).1 ^ 3 ≠ 1 := by
  have ha : a ≠ 0 := by rintro rfl; simp at h3
  intro e
  have e1 := congrFun (congrArg (fun g => actSL g fun i => if i.1 = n + 2 then 1 else 0) e) ⟨n + 1, by omega⟩
  simp only [pow_succ, pow_zero, one_mul, actSL_mul, actSL_one, wordS_fst] at e1
  simp [actX, actS', hn.ne'] at e1
  field_simp at e1
  have h2 : a ^ 2 ≠ 1 := fun h => h1 (by linear_combination h3 - a * h)
  have h30 : (3 : F) ≠ 0 := fun h => by
    have : (a - 1) ^ 3 = 0 := by linear_combination h3 + (a - a ^ 2) * h
    exact h1 (sub_eq_zero.1 (pow_eq_zero_iff (by decide) |>.1 this))
  have e2 : 3 * ((a ^ 2 - 1) * (a - 1)) = 0 := by linear_combination (-1 : F) * e1
  simp [sub_eq_zero, h1, h2, h30] at e2

/-! ### Three dimensions over the field of order four -/

variable (a) in
/-- The word `w w w w x w x x`. -/
def wordV (ha : a ≠ 0) : SpecialLinearGroup (Fin 3) F × SpecialLinearGroup (Fin 3) F :=
  wordW F 0 * wordW F 0 * wordW F 0 * wordW F 0 * wordX a 0 ha * wordW F 0 * wordX a 0 ha * wordX a 0 ha

theorem three_snd (h2 : (2 : F) = 0) (hq : a ^ 2 + a + 1 = 0) (ha : a ≠ 0) (v : Fin 3 → F) :
    actSL (n := 0) (wordV a ha).2 v = ![(a + 1) * v 0 + a * v 2, a * v 0 + a * v 1, (a + 1) * v 0 + a * v 1 + a * v 2] := by
  have hi : a⁻¹ = a ^ 2 := by
    rw [inv_eq_iff_eq_inv]; exact eq_inv_of_mul_eq_one_left (by linear_combination (a - 1) * hq)
  change actSL (genW F 0 * genW F 0 * genW F 0 * genW F 0 * genX a 0 ha * genW F 0 * genX a 0 ha * genX a 0 ha) v = _
  simp only [actSL_mul, actSL_genX, actSL_genW]
  funext i
  fin_cases i <;> simp [actX, actW, hi] <;> grind

theorem three_fst (h2 : (2 : F) = 0) (hq : a ^ 2 + a + 1 = 0) (ha : a ≠ 0) (v : Fin 3 → F) :
    actSL (n := 0) (wordV a ha).1 v = ![a * v 0 + (a + 1) * v 1 + a * v 2, a * v 0 + v 1 + a * v 2, a * v 0 + v 1] := by
  have hi : a⁻¹ = a ^ 2 := by
    rw [inv_eq_iff_eq_inv]; exact eq_inv_of_mul_eq_one_left (by linear_combination (a - 1) * hq)
  change actSL ((genW F 0)⁻¹ * (genW F 0)⁻¹ * (genW F 0)⁻¹ * (genW F 0)⁻¹ * (genX a 0 ha)⁻¹ * (genW F 0)⁻¹ *
    (genX a 0 ha)⁻¹ * (genX a 0 ha)⁻¹) v = _
  simp only [actSL_mul, actSL_genX_inv, actSL_genW_inv]
  funext i
  fin_cases i <;> simp [actX, actWi, hi] <;> grind

theorem three_snd_four (h2 : (2 : F) = 0) (hq : a ^ 2 + a + 1 = 0) (ha : a ≠ 0) :
    ((wordV a ha).2 ^ 4).1 = (a + 1) • (1 : Matrix (Fin 3) (Fin 3) F) := by
  refine Matrix.ext_iff_mulVec.2 fun v => ?_
  change actSL (n := 0) ((wordV a ha).2 ^ 4) v = _
  rw [show (wordV a ha).2 ^ 4 = (wordV a ha).2 * (wordV a ha).2 * (wordV a ha).2 * (wordV a ha).2 by
    simp only [pow_succ, pow_zero, one_mul], actSL_mul, actSL_mul, actSL_mul]
  simp only [three_snd h2 hq ha, smul_mulVec, one_mulVec]
  funext i
  fin_cases i <;> simp <;> grind

theorem three_fst_four (h2 : (2 : F) = 0) (hq : a ^ 2 + a + 1 = 0) (ha : a ≠ 0) :
    ((wordV a ha).1 ^ 4).1 = (a + 1) • (1 : Matrix (Fin 3) (Fin 3) F) := by
  refine Matrix.ext_iff_mulVec.2 fun v => ?_
  change actSL (n := 0) ((wordV a ha).1 ^ 4) v = _
  rw [show (wordV a ha).1 ^ 4 = (wordV a ha).1 * (wordV a ha).1 * (wordV a ha).1 * (wordV a ha).1 by
    simp only [pow_succ, pow_zero, one_mul], actSL_mul, actSL_mul, actSL_mul]
  simp only [three_fst h2 hq ha, smul_mulVec, one_mulVec]
  funext i
  fin_cases i <;> simp <;> grind

end Action

section Classification

variable {F : Type} [Field F] [DecidableEq F] [Fintype F] {a : F} {d : ℕ}

omit [DecidableEq F] [Fintype F] in
theorem pairKron_ne (hd : 0 < d) {p r : SpecialLinearGroup (Fin d) F × SpecialLinearGroup (Fin d) F} (h2 : p.2 = r.2)
    (h1 : p.1 ≠ r.1) : pairKron p ≠ pairKron r := by
  intro e
  obtain ⟨i, j, hij⟩ : ∃ i j, p.2.1 i j ≠ 0 := by
    by_contra hc
    push Not at hc
    have h3 := p.2.2
    have : Nonempty (Fin d) := ⟨⟨0, hd⟩⟩
    rw [show p.2.1 = 0 by ext i j; exact hc i j, det_zero] at h3
    exact zero_ne_one h3
  refine h1 (Subtype.ext (Matrix.ext fun k l => ?_))
  have h4 := congrFun (congrFun e (k, i)) (l, j)
  rw [pairKron, pairKron, kronecker_apply, kronecker_apply, ← h2] at h4
  exact mul_right_cancel₀ hij h4

/-- C85: without the linear representation, in three or more dimensions and over a field of four or more elements, the
group that is built is never the projective special linear group. -/
theorem C85_regular_large_disagreement (hd : 3 ≤ d) (hq : 3 < Fintype.card F) (ha : IsPrimitiveElement a) :
    ∃ fuel g rows, pslRegular fuel d (Fintype.card F) a = some (some (.ok (g, rows))) ∧
      ∀ φ, ¬ RepresentsPSL d F rows φ := by
  obtain ⟨n, rfl⟩ : ∃ n, d = n + 3 := ⟨d - 3, by omega⟩
  have ha0 := ha.ne_zero
  have h2 : a ^ 2 ≠ 1 := primitive_sq_ne_one ha (by omega)
  have h1 : a ≠ 1 := by rintro rfl; simp at h2
  have hxw : slGeneratingMats (n + 3) (Fintype.card F) a = some ((genX a n ha0).1, (genW F n).1) :=
    slMats_large (n := n + 1) (by omega) ha0
  have hX : genX a n ha0 ∈ Subgroup.closure {genX a n ha0, genW F n} := Subgroup.subset_closure (Or.inl rfl)
  have hW : genW F n ∈ Subgroup.closure {genX a n ha0, genW F n} := Subgroup.subset_closure (Or.inr rfl)
  have hcl : Subgroup.closure {genX a n ha0, genW F n} = ⊤ :=
    eq_top_of_large (n := n + 1) a ha.power h2 (prod_genD ha0) (by simp [genD]) (by simp [genD])
        (fun i h0 h1 => by simp [genD, h0, h1]) hX fin01 hW
  have hne : ∀ r : F, (genX a n ha0).1 ≠ r • (genW F n).1 := by
    intro r e
    have e1 : actSL (genX a n ha0) (fun i => if i.1 = 0 then 1 else 0) = r • actSL (genW F n) fun i => if i.1 = 0 then 1 else 0 := by
      rw [actSL, e, smul_mulVec]; rfl
    have e2 := congrFun e1 ⟨0, by omega⟩
    have e3 := congrFun e1 ⟨1, by omega⟩
    simp [actSL_genX, actSL_genW, actX, actW] at e2 e3
    rw [e3, neg_zero] at e2
    exact ha0 e2
  have kX : wordX a n ha0 ∈ Subgroup.closure {wordX a n ha0, wordW F n} := Subgroup.subset_closure (Or.inl rfl)
  have kW : wordW F n ∈ Subgroup.closure {wordX a n ha0, wordW F n} := Subgroup.subset_closure (Or.inr rfl)
  set K := Subgroup.closure {wordX a n ha0, wordW F n} with hK
  have kY : wordY a n ha0 ∈ K := K.mul_mem (K.mul_mem kW kX) (K.inv_mem kW)
  have kT : wordT a n ha0 ∈ K := K.mul_mem (K.mul_mem kX kY) (K.inv_mem (K.mul_mem kY kX))
  by_cases h3 : a ^ 3 = 1
  · have hq' : a ^ 2 + a + 1 = 0 := by
      have : (a - 1) * (a ^ 2 + a + 1) = 0 := by linear_combination h3
      rcases mul_eq_zero.1 this with h | h
      · exact absurd (sub_eq_zero.1 h) h1
      · exact h
    rcases Nat.eq_zero_or_pos n with rfl | hn
    · have hcard : Fintype.card F = 4 := by
        have hsub : (Finset.univ : Finset F) ⊆ {0, 1, a, a ^ 2} := by
          intro x _
          by_cases hx : x = 0
          · simp [hx]
          · obtain ⟨k, rfl⟩ := ha.power x hx
            rw [← Nat.div_add_mod k 3, pow_add, pow_mul, h3, one_pow, one_mul]
            have := Nat.mod_lt k (show 0 < 3 by decide)
            interval_cases k % 3 <;> simp
        have h4 := Finset.card_le_card hsub
        have h5 : ({0, 1, a, a ^ 2} : Finset F).card ≤ 4 := Finset.card_le_four
        rw [Finset.card_univ] at h4
        omega
      have h20 : (2 : F) = 0 := by
        have h4 := FiniteField.cast_card_eq_zero F
        rw [hcard] at h4
        have : (2 : F) * 2 = 0 := by rw [← h4]; norm_num
        simpa using this
      have kV : wordV a ha0 ∈ K :=
        K.mul_mem (K.mul_mem (K.mul_mem (K.mul_mem (K.mul_mem (K.mul_mem (K.mul_mem kW kW) kW) kW) kX) kW) kX) kX
      refine psl_regular_fails (by omega) hxw hcl hne (K.pow_mem kV 4) K.one_mem ⟨a + 1, ?_, ?_⟩ fun e => ?_
      · linear_combination (a + 2) * hq' - h20
      · exact three_snd_four h20 hq' ha0
      · rw [pairKron, pairKron_one] at e
        have e1 := congrFun (congrFun e (0, 0)) (0, 0)
        rw [kronecker_apply, Prod.pow_fst, Prod.pow_snd, three_snd_four h20 hq' ha0, three_fst_four h20 hq' ha0] at e1
        simp at e1
        exact h1 (by linear_combination e1 - hq')
    · have kS : wordS a n ha0 ∈ K := K.mul_mem (K.mul_mem (K.mul_mem kW kT) (K.inv_mem kW)) kX
      refine psl_regular_fails (by omega) hxw hcl hne (K.pow_mem kS 3) K.one_mem ⟨1, one_pow _, ?_⟩
        (pairKron_ne (by omega) ?_ ?_)
      · rw [one_smul]
        exact congrArg Subtype.val (four_one h1 h3)
      · exact four_one h1 h3
      · exact four_ne hn h1 h3
  · have kD := K.mul_mem (K.mul_mem kX kY) kY
    refine psl_regular_fails (by omega) hxw hcl hne (K.mul_mem kD kT) (K.mul_mem kT kD) ⟨1, one_pow _, ?_⟩
        (pairKron_ne (by omega) ?_ ?_)
    · rw [one_smul]
      exact congrArg Subtype.val (large_comm ha0)
    · exact large_comm ha0
    · exact large_ne ha0 h2 h3

theorem matLoop_more {M : Type} [Mul M] [DecidableEq M] : ∀ (fuel : ℕ) {mats : List M} {todo : List ℕ} {keys : List (M × ℕ)}
    {table : List ((ℕ × ℕ) × ℕ)} {r : List M × List ((ℕ × ℕ) × ℕ)}, matLoop fuel mats todo keys table = some r →
    ∀ k, matLoop (fuel + k) mats todo keys table = some r
  | 0, _, _, _, _, _, h, _ => by simp [matLoop] at h
  | fuel + 1, mats, todo, keys, table, r, h, k => by
    rw [show fuel + 1 + k = fuel + k + 1 by omega, matLoop]
    rw [matLoop] at h
    split_ifs at h ⊢ with hc
    · exact h
    · exact matLoop_more fuel h k

/-- The result does not depend on the number of rounds that are allowed. -/
theorem pslRegular_unique {q f1 f2 : ℕ} {r1 r2 : Except String (MatGroup (Matrix (Fin d × Fin d) (Fin d × Fin d) F) × List (List ℕ))}
    (h1 : pslRegular f1 d q a = some (some r1)) (h2 : pslRegular f2 d q a = some (some r2)) : r1 = r2 := by
  simp only [pslRegular, Option.map_eq_some_iff] at h1 h2
  obtain ⟨m, hm, h1⟩ := h1
  obtain ⟨m', hm', h2⟩ := h2
  obtain rfl := Option.some.inj (hm.symm.trans hm')
  simp only [fromGeneratingMats, Option.map_eq_some_iff] at h1 h2
  obtain ⟨s1, e1, rfl⟩ := h1
  obtain ⟨s2, e2, rfl⟩ := h2
  have e3 := matLoop_more f1 e1 f2
  have e4 := matLoop_more f2 e2 f1
  rw [Nat.add_comm, e3] at e4
  rw [Option.some.inj e4]

/-- C85: for fields of three or more elements, what `ProjectiveSpecialLinearGroup(d, q, linear_rep=False)` builds is the
projective special linear group exactly in two dimensions or over the field of three elements. -/
theorem C85_regular_iff (hd : 2 ≤ d) (hq : 2 < Fintype.card F) (ha : IsPrimitiveElement a) {fuel : ℕ}
    {g : MatGroup (Matrix (Fin d × Fin d) (Fin d × Fin d) F)} {rows : List (List ℕ)}
    (h : pslRegular fuel d (Fintype.card F) a = some (some (.ok (g, rows)))) :
    (∃ φ, RepresentsPSL d F rows φ) ↔ d = 2 ∨ Fintype.card F = 3 := by
  constructor
  · rintro ⟨φ, hφ⟩
    by_contra hc
    obtain ⟨f', g', rows', h', hno⟩ := C85_regular_large_disagreement (d := d) (by omega) (by omega) ha
    obtain ⟨-, rfl⟩ := Prod.mk.inj (Except.ok.inj (pslRegular_unique h h'))
    exact hno φ hφ
  · intro hc
    have : ∃ fuel g rows φ, pslRegular fuel d (Fintype.card F) a = some (some (.ok (g, rows))) ∧ RepresentsPSL d F rows φ := by
      rcases hc with rfl | h3
      · exact C85_regular_partial hq ha
      · exact C85_regular_three_partial hd h3 ha
    obtain ⟨f', g', rows', φ, h', hφ⟩ := this
    obtain ⟨-, rfl⟩ := Prod.mk.inj (Except.ok.inj (pslRegular_unique h h'))
    exact ⟨φ, hφ⟩

/-- C85: and it always ends, without raising. -/
theorem C85_regular_terminates (hd : 2 ≤ d) (hq : 2 < Fintype.card F) (ha : IsPrimitiveElement a) :
    ∃ fuel g rows, pslRegular fuel d (Fintype.card F) a = some (some (.ok (g, rows))) := by
  by_cases hc : d = 2 ∨ Fintype.card F = 3
  · rcases hc with rfl | h3
    · obtain ⟨fuel, g, rows, -, h, -⟩ := C85_regular_partial hq ha
      exact ⟨fuel, g, rows, h⟩
    · obtain ⟨fuel, g, rows, -, h, -⟩ := C85_regular_three_partial hd h3 ha
      exact ⟨fuel, g, rows, h⟩
  · obtain ⟨fuel, g, rows, h, -⟩ := C85_regular_large_disagreement (d := d) (by omega) (by omega) ha
    exact ⟨fuel, g, rows, h⟩

end Classification

/-! ### Examples -/

private instance : Fact (Nat.Prime 5) := ⟨by norm_num⟩

example : ∃ fuel g rows, pslRegular fuel 4 5 (2 : ZMod 5) = some (some (.ok (g, rows))) ∧
    ∀ φ, ¬ RepresentsPSL 4 (ZMod 5) rows φ := by
  have h := C85_regular_large_disagreement (F := ZMod 5) (d := 4) (by decide) (by rw [ZMod.card]; decide) primitive5
  rwa [ZMod.card] at h

/-- There is a primitive element in the field of four elements, and its cube is one. -/
example : ∃ (F : Type) (_ : Field F) (_ : DecidableEq F) (_ : Fintype F) (a : F), Fintype.card F = 4 ∧
    IsPrimitiveElement a ∧ a ^ 3 = 1 := by
  classical
  have : Fact (Nat.Prime 2) := ⟨by norm_num⟩
  have hc : Nat.card (GaloisField 2 2) = 4 := by rw [GaloisField.card 2 2 (by decide)]; norm_num
  obtain ⟨u, hu⟩ := IsCyclic.exists_generator (α := (GaloisField 2 2)ˣ)
  have hf : Fintype (GaloisField 2 2) := Fintype.ofFinite _
  have hc' : Fintype.card (GaloisField 2 2) = 4 := by rw [← Nat.card_eq_fintype_card, hc]
  refine ⟨GaloisField 2 2, inferInstance, inferInstance, hf, (u : GaloisField 2 2), hc', ⟨u.ne_zero, fun x hx => ?_⟩, ?_⟩
  · have h1 := hu (Units.mk0 x hx)
    rw [← mem_powers_iff_mem_zpowers] at h1
    obtain ⟨k, hk⟩ := h1
    exact ⟨k, by rw [← Units.val_pow_eq_pow_val]; exact (congrArg Units.val hk).symm⟩
  · have := FiniteField.pow_card_sub_one_eq_one (u : GaloisField 2 2) u.ne_zero
    rwa [hc'] at this

#print axioms C85_regular_large_disagreement
#print axioms C85_regular_iff
#print axioms C85_regular_terminates

/-! ### Instances of the theorems: concrete cases meet the hypotheses -/

example := C85_regular_terminates (F := ZMod 5) (d := 2) (by decide) (by rw [ZMod.card]; decide) primitive5
example : True := by
  obtain ⟨fuel, g, rows, h, -⟩ := C85_regular_large_disagreement (F := ZMod 5) (d := 4) (by decide) (by rw [ZMod.card]; decide) primitive5
  have h1 := C85_regular_iff (by decide) (by rw [ZMod.card]; decide) primitive5 h
  trivial

end QLDPC.Props
