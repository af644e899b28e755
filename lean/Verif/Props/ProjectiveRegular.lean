import Verif.Props.Projective
import Mathlib.GroupTheory.NoncommCoprod

/-!
# C85: projective special linear groups of Kronecker products
-/

namespace QLDPC.Props

open QLDPC QLDPC.SLin Matrix
open scoped Kronecker

section Semigroup

variable {M : Type} [Monoid M] [Finite M]

theorem closure_unit {S : Set M} (hu : ∀ x ∈ S, IsUnit x) {x : M} (hx : x ∈ Subsemigroup.closure S) : IsUnit x := by
  induction hx using Subsemigroup.closure_induction with
  | mem x hx => exact hu x hx
  | mul x y _ _ h1 h2 => exact h1.mul h2

theorem subsemigroup_pow {C : Subsemigroup M} {x : M} (hx : x ∈ C) : ∀ {n : ℕ}, 0 < n → x ^ n ∈ C
  | 1, _ => by rwa [pow_one]
  | n + 2, _ => by rw [pow_succ]; exact C.mul_mem (subsemigroup_pow hx (by omega)) hx

/-- The order of a finite semigroup of units is a multiple of that of all products of two of its cyclic groups. -/
theorem sq_dvd_card_closure {S : Set M} (hu : ∀ x ∈ S, IsUnit x) {A B : Mˣ} (hA : (A : M) ∈ Subsemigroup.closure S)
    (hB : (B : M) ∈ Subsemigroup.closure S) (hcomm : Commute A B) {p : ℕ} (hp : p.Prime) (oA : orderOf A = p)
    (oB : orderOf B = p) (hne : B ∉ Subgroup.zpowers A) : p * p ∣ (Subsemigroup.closure S : Set M).ncard := by
  set C := Subsemigroup.closure S with hC
  have hpow : ∀ u : Mˣ, (u : M) ∈ C → ∃ n, 0 < n ∧ u ^ n = 1 := fun u _ =>
    ⟨orderOf u, orderOf_pos u, pow_orderOf_eq_one u⟩
  have hone : (1 : M) ∈ C := by
    obtain ⟨n, hn, e⟩ := hpow A hA
    have := subsemigroup_pow hA hn
    rwa [← Units.val_pow_eq_pow_val, e] at this
  let H : Subgroup Mˣ :=
    { carrier := {u | (u : M) ∈ C}
      mul_mem' := fun {a b} ha hb => by
        change ((a * b : Mˣ) : M) ∈ C
        rw [Units.val_mul]; exact C.mul_mem ha hb
      one_mem' := by change ((1 : Mˣ) : M) ∈ C; rw [Units.val_one]; exact hone
      inv_mem' := fun {u} hu' => by
        obtain ⟨n, hn, e⟩ := hpow u hu'
        have : u⁻¹ = u ^ (2 * n - 1) := by
          rw [inv_eq_iff_mul_eq_one, ← pow_succ', show 2 * n - 1 + 1 = n * 2 by omega, pow_mul, e, one_pow]
        change ((u⁻¹ : Mˣ) : M) ∈ C
        rw [this, Units.val_pow_eq_pow_val]
        exact subsemigroup_pow hu' (by omega) }
  have hcard : Nat.card H = (C : Set M).ncard := by
    rw [← Nat.card_coe_set_eq]
    refine Nat.card_congr (Equiv.ofBijective (fun u => ⟨(u.1 : M), u.2⟩) ⟨fun u v e => ?_, fun x => ?_⟩)
    · exact Subtype.ext (Units.ext (congrArg Subtype.val e))
    · obtain ⟨u, hu'⟩ := closure_unit hu x.2
      exact ⟨⟨u, by change (u : M) ∈ C; rw [hu']; exact x.2⟩, Subtype.ext hu'⟩
  rw [← hcard]
  have hcz : ∀ (m : Subgroup.zpowers A) (n : Subgroup.zpowers B),
      Commute ((Subgroup.zpowers A).subtype m) ((Subgroup.zpowers B).subtype n) := by
    rintro ⟨_, i, rfl⟩ ⟨_, j, rfl⟩
    exact (hcomm.zpow_left i).zpow_right j
  have hdis : Disjoint (Subgroup.zpowers A) (Subgroup.zpowers B) := by
    rw [disjoint_iff]
    have hpc : (Nat.card (Subgroup.zpowers B)).Prime := by rw [Nat.card_zpowers, oB]; exact hp
    have : Fact (Nat.card (Subgroup.zpowers B)).Prime := ⟨hpc⟩
    rcases ((Subgroup.zpowers A).subgroupOf (Subgroup.zpowers B)).eq_bot_or_eq_top_of_prime_card with h | h
    · rwa [Subgroup.subgroupOf_eq_bot, disjoint_iff] at h
    · rw [Subgroup.subgroupOf_eq_top] at h
      exact absurd (h (Subgroup.mem_zpowers B)) hne
  set f := MonoidHom.noncommCoprod (Subgroup.zpowers A).subtype (Subgroup.zpowers B).subtype hcz with hf
  have hinj : Function.Injective f := by
    rw [hf, MonoidHom.noncommCoprod_injective]
    exact ⟨Subtype.val_injective, Subtype.val_injective, by simpa using hdis⟩
  have hle : f.range ≤ H := by
    rw [hf, MonoidHom.noncommCoprod_range, Subgroup.range_subtype, Subgroup.range_subtype]
    exact sup_le (by rw [Subgroup.zpowers_le]; exact hA) (by rw [Subgroup.zpowers_le]; exact hB)
  have h1 := Subgroup.card_dvd_of_le hle
  rwa [← Nat.card_congr (MonoidHom.ofInjective hinj).toEquiv, Nat.card_prod, Nat.card_zpowers, Nat.card_zpowers, oA,
    oB] at h1

end Semigroup

private instance : Fact (Nat.Prime 5) := ⟨by norm_num⟩

theorem kronecker_pow' {F n : Type} [Field F] [Fintype n] [DecidableEq n] (A B : Matrix n n F) (k : ℕ) :
    (A ⊗ₖ B) ^ k = (A ^ k) ⊗ₖ (B ^ k) := by
  induction k with
  | zero => simp
  | succ k ih => rw [pow_succ, ih, pow_succ, pow_succ, mul_kronecker_mul]

theorem pslRegular_ok {F : Type} [Field F] [DecidableEq F] [Fintype F] {d q : ℕ} {a : F}
    {X W : Matrix (Fin d × Fin d) (Fin d × Fin d) F} (h : pslKronMats d q a = some (X, W)) (hne : X ≠ W)
    (hX : IsUnit X) (hW : IsUnit W) :
    ∃ fuel g rows φ, pslRegular fuel d q a = some (some (.ok (g, rows))) ∧ IsMatGroup [X, W] g rows φ := by
  have hnd : [X, W].Nodup := by simp [hne]
  have hu : ∀ M ∈ [X, W], IsUnit M := by simp [hX, hW]
  obtain ⟨r, hr⟩ := C40_mats_terminates hnd (Set.toFinite _)
  generalize (Subsemigroup.closure {x | x ∈ [X, W]} : Set (Matrix (Fin d × Fin d) (Fin d × Fin d) F)).ncard + 2 = fuel at hr
  obtain ⟨g, rows, φ, rfl, hg⟩ := C40_mats hnd hu hr
  exact ⟨fuel, g, rows, φ, by rw [pslRegular, h, Option.map_some, hr], hg⟩

section Regular

variable {F : Type} [Field F] [DecidableEq F] [Fintype F] {a : F} {d : ℕ}

/-- Products of a contragredient matrix and the matrix. -/
noncomputable def contraKron (P Q M : Matrix (Fin d) (Fin d) F) : Matrix (Fin d × Fin d) (Fin d × Fin d) F :=
  (P * M⁻¹ᵀ * Q) ⊗ₖ M

omit [DecidableEq F] [Fintype F] in
theorem contraKron_mul {P Q : Matrix (Fin d) (Fin d) F} (h : Q * P = 1) (M N : Matrix (Fin d) (Fin d) F) :
    contraKron P Q (M * N) = contraKron P Q M * contraKron P Q N := by
  rw [contraKron, contraKron, contraKron, ← mul_kronecker_mul]
  congr 1
  rw [Matrix.mul_inv_rev, transpose_mul]
  calc P * (M⁻¹ᵀ * N⁻¹ᵀ) * Q = P * M⁻¹ᵀ * 1 * N⁻¹ᵀ * Q := by simp only [Matrix.mul_assoc, Matrix.one_mul]
    _ = P * M⁻¹ᵀ * Q * (P * N⁻¹ᵀ * Q) := by rw [← h]; simp only [Matrix.mul_assoc]

theorem contraKron_eq_iff (hd : 0 < d) {P Q : Matrix (Fin d) (Fin d) F} (h : Q * P = 1) {M N : Matrix (Fin d) (Fin d) F}
    (hM : M.det = 1) (hN : N.det = 1) : contraKron P Q M = contraKron P Q N ↔ ∃ r : F, r ^ d = 1 ∧ M = r • N := by
  constructor
  · intro e
    have hne : P * M⁻¹ᵀ * Q ≠ 0 := by
      intro h0
      have h1 : (P * M⁻¹ᵀ * Q).det = 1 := by
        have h2 : Q.det * P.det = 1 := by rw [← det_mul, h, det_one]
        rw [det_mul, det_mul, det_transpose, det_nonsing_inv, hM, Ring.inverse_one, mul_one, mul_comm, h2]
      have : Nonempty (Fin d) := ⟨⟨0, hd⟩⟩
      rw [h0, det_zero] at h1
      exact zero_ne_one h1
    obtain ⟨i, j, hij⟩ : ∃ i j, (P * M⁻¹ᵀ * Q) i j ≠ 0 := by
      by_contra hc
      push Not at hc
      exact hne (by ext i j; exact hc i j)
    have key : M = (((P * M⁻¹ᵀ * Q) i j)⁻¹ * (P * N⁻¹ᵀ * Q) i j) • N := by
      ext k l
      have h1 := congrFun (congrFun e (i, k)) (j, l)
      rw [contraKron, contraKron, kronecker_apply, kronecker_apply] at h1
      rw [Matrix.smul_apply, smul_eq_mul, mul_assoc, ← h1, inv_mul_cancel_left₀ hij]
    refine ⟨_, ?_, key⟩
    have h2 := congrArg Matrix.det key
    rw [det_smul, hM, hN, mul_one, Fintype.card_fin] at h2
    exact h2.symm
  · rintro ⟨r, hr, rfl⟩
    have hr0 := root_ne_zero hd hr
    have hi : (r • N)⁻¹ = r⁻¹ • N⁻¹ := by
      refine Matrix.inv_eq_right_inv ?_
      rw [smul_mul_assoc, mul_smul_comm, smul_smul, mul_inv_cancel₀ hr0, one_smul, mul_nonsing_inv _ (by rw [hN]; exact isUnit_one)]
    rw [contraKron, contraKron, hi, transpose_smul, mul_smul_comm, smul_mul_assoc, smul_kronecker, kronecker_smul, smul_smul,
      inv_mul_cancel₀ hr0, one_smul]

/-- If the generators are similar to their transposes, by the same matrix, the Kronecker products generate the projective
special linear group. -/
theorem psl_regular_of (hd : 0 < d) {x w P Q : Matrix (Fin d) (Fin d) F}
    (hxw : slGeneratingMats d (Fintype.card F) a = some (x, w)) (hcl : ∀ M, M ∈ Subsemigroup.closure {x, w} ↔ M.det = 1)
    (h : Q * P = 1) (hx : P * xᵀ = x * P) (hw : P * wᵀ = w * P) (hne : ∀ r : F, x ≠ r • w) :
    ∃ fuel g rows φ, pslRegular fuel d (Fintype.card F) a = some (some (.ok (g, rows))) ∧ RepresentsPSL d F rows φ := by
  have dx : x.det = 1 := (hcl x).1 (Subsemigroup.subset_closure (Or.inl rfl))
  have dw : w.det = 1 := (hcl w).1 (Subsemigroup.subset_closure (Or.inr rfl))
  have h' : P * Q = 1 := mul_eq_one_comm.1 h
  have hinv : ∀ M : Matrix (Fin d) (Fin d) F, M.det = 1 → P * Mᵀ = M * P → contraKron P Q M = M⁻¹ ⊗ₖ M := by
    intro M hM e
    rw [contraKron]
    congr 1
    symm
    refine Matrix.inv_eq_right_inv ?_
    have hu : IsUnit Mᵀ.det := by rw [det_transpose, hM]; exact isUnit_one
    calc M * (P * M⁻¹ᵀ * Q) = (M * P) * M⁻¹ᵀ * Q := by simp only [Matrix.mul_assoc]
      _ = P * (Mᵀ * Mᵀ⁻¹) * Q := by rw [← e, transpose_nonsing_inv]; simp only [Matrix.mul_assoc]
      _ = 1 := by rw [mul_nonsing_inv _ hu, Matrix.mul_one, h']
  have hk : pslKronMats d (Fintype.card F) a = some (contraKron P Q x, contraKron P Q w) := by
    rw [pslKronMats, hxw, Option.map_some, hinv x dx hx, hinv w dw hw]
  have hunit : ∀ M : Matrix (Fin d) (Fin d) F, M.det = 1 → IsUnit (contraKron P Q M) := by
    intro M hM
    refine IsUnit.of_mul_eq_one (contraKron P Q M⁻¹) ?_
    rw [← contraKron_mul h, mul_nonsing_inv _ (by rw [hM]; exact isUnit_one), contraKron, inv_one, transpose_one,
      Matrix.mul_one, h', one_kronecker_one]
  obtain ⟨fuel, g, rows, φ, hreg, hg⟩ := pslRegular_ok hk (fun e => by
    obtain ⟨r, -, h1⟩ := (contraKron_eq_iff hd h dx dw).1 e
    exact hne r h1) (hunit x dx) (hunit w dw)
  have hmem : ∀ M, M.det = 1 → contraKron P Q M ∈ g.mats := by
    intro M hM
    rw [hg.mem]
    have h1 := (hcl M).2 hM
    clear hM
    induction h1 using Subsemigroup.closure_induction with
    | mem M hM =>
      rcases hM with rfl | rfl
      · exact Subsemigroup.subset_closure (by simp)
      · exact Subsemigroup.subset_closure (by simp)
    | mul M N _ _ h1 h2 => rw [contraKron_mul h]; exact Subsemigroup.mul_mem _ h1 h2
  have hmul : ∀ M N : Matrix (Fin d) (Fin d) F, M.det = 1 → N.det = 1 →
      φ (contraKron P Q (N * M)) = arrayMulList (φ (contraKron P Q M)) (φ (contraKron P Q N)) := by
    intro M N hM hN
    rw [contraKron_mul h, hg.mul _ (hmem M hM) _ (hmem N hN)]
  refine ⟨fuel, g, rows, fun M => φ (contraKron P Q M), hreg, fun p => ?_, fun M N hM hN => ?_, hmul⟩
  · rw [hg.rows_eq]
    exact generated_iff (φ := fun M => φ (contraKron P Q M)) hcl hmul p
  · rw [← contraKron_eq_iff hd h hM hN]
    exact ⟨fun e => hg.inj _ (hmem M hM) _ (hmem N hN) e, fun e => congrArg φ e⟩

/-- C85: without the linear representation, `ProjectiveSpecialLinearGroup(2, q)` is the group of matrices of determinant
one modulo signs. -/
theorem C85_regular_partial (hq : 2 < Fintype.card F) (ha : IsPrimitiveElement a) :
    ∃ fuel g rows φ, pslRegular fuel 2 (Fintype.card F) a = some (some (.ok (g, rows))) ∧ RepresentsPSL 2 F rows φ := by
  obtain ⟨x, w, hxw, hcl⟩ := C84_generators (d := 2) le_rfl ha
  by_cases h3 : Fintype.card F ≤ 3
  · have e : slGeneratingMats 2 (Fintype.card F) a = some (!![1, 1; 0, 1], !![0, 1; -1, 0]) := by
      simp only [slGeneratingMats, setMatEntry, if_pos h3]
      simp
      constructor <;> ext i j <;> fin_cases i <;> fin_cases j <;> simp
    obtain ⟨rfl, rfl⟩ := Prod.mk.inj (Option.some.inj (hxw.symm.trans e))
    refine psl_regular_of (P := !![0, 1; 1, 0]) (Q := !![0, 1; 1, 0]) (by decide) hxw hcl ?_ ?_ ?_ ?_
    · ext i j; simp only [Matrix.mul_apply, Fin.sum_univ_two, transpose_apply]; fin_cases i <;> fin_cases j <;> simp
    · ext i j; simp only [Matrix.mul_apply, Fin.sum_univ_two, transpose_apply]; fin_cases i <;> fin_cases j <;> simp
    · ext i j; simp only [Matrix.mul_apply, Fin.sum_univ_two, transpose_apply]; fin_cases i <;> fin_cases j <;> simp
    · intro r h
      have := congrFun (congrFun h 0) 0
      simp at this
  · have e : slGeneratingMats 2 (Fintype.card F) a = some (!![a, 0; 0, a⁻¹], !![-1, 1; -1, 0]) := by
      simp only [slGeneratingMats, setMatEntry, if_neg h3]
      simp
      constructor <;> ext i j <;> fin_cases i <;> fin_cases j <;> simp
    obtain ⟨rfl, rfl⟩ := Prod.mk.inj (Option.some.inj (hxw.symm.trans e))
    refine psl_regular_of (P := !![1, 0; 0, -1]) (Q := !![1, 0; 0, -1]) (by decide) hxw hcl ?_ ?_ ?_ ?_
    · ext i j; simp only [Matrix.mul_apply, Fin.sum_univ_two, transpose_apply]; fin_cases i <;> fin_cases j <;> simp
    · ext i j; simp only [Matrix.mul_apply, Fin.sum_univ_two, transpose_apply]; fin_cases i <;> fin_cases j <;> simp
    · ext i j; simp only [Matrix.mul_apply, Fin.sum_univ_two, transpose_apply]; fin_cases i <;> fin_cases j <;> simp
    · intro r h
      have h1 := congrFun (congrFun h 0) 1
      have h2 := congrFun (congrFun h 0) 0
      simp at h1 h2
      rw [← h1, neg_zero] at h2
      exact ha.ne_zero h2

/-- The reflection of the indices that reverses the cyclic shift and exchanges the first two. -/
def reflectIndex (d : ℕ) (i : Fin d) (hd : 2 ≤ d) : Fin d :=
  if h : i.1 ≤ 1 then ⟨1 - i.1, by omega⟩ else ⟨d + 1 - i.1, by omega⟩

theorem reflectIndex_val (hd : 2 ≤ d) (i : Fin d) :
    (reflectIndex d i hd).1 = if i.1 ≤ 1 then 1 - i.1 else d + 1 - i.1 := by
  unfold reflectIndex; split_ifs <;> rfl

/-- The sign of an index. -/
def reflectSign (F : Type) [Field F] (d : ℕ) (i : Fin d) : F := if i.1 ≤ 1 then 1 else -1

/-- The signed reflection. -/
def reflectMat (F : Type) [Field F] (d : ℕ) (hd : 2 ≤ d) : Matrix (Fin d) (Fin d) F :=
  Matrix.of fun i j => if j = reflectIndex d i hd then reflectSign F d i else 0

theorem reflect_invol (hd : 2 ≤ d) (i : Fin d) : reflectIndex d (reflectIndex d i hd) hd = i := by
  ext
  rw [reflectIndex_val, reflectIndex_val]
  split_ifs <;> omega

omit [DecidableEq F] [Fintype F] in
theorem reflect_sign (hd : 2 ≤ d) (i : Fin d) : reflectSign F d (reflectIndex d i hd) = reflectSign F d i := by
  unfold reflectSign
  rw [reflectIndex_val]
  split_ifs <;> first | rfl | omega

omit [DecidableEq F] [Fintype F] in
theorem reflect_mul (hd : 2 ≤ d) (M : Matrix (Fin d) (Fin d) F) (i k : Fin d) :
    (reflectMat F d hd * M) i k = reflectSign F d i * M (reflectIndex d i hd) k := by
  rw [Matrix.mul_apply, Finset.sum_eq_single (reflectIndex d i hd)]
  · simp [reflectMat]
  · intro j _ hj
    simp [reflectMat, hj]
  · simp

omit [DecidableEq F] [Fintype F] in
theorem mul_reflect (hd : 2 ≤ d) (M : Matrix (Fin d) (Fin d) F) (i k : Fin d) :
    (M * reflectMat F d hd) i k = M i (reflectIndex d k hd) * reflectSign F d k := by
  rw [Matrix.mul_apply, Finset.sum_eq_single (reflectIndex d k hd)]
  · simp [reflectMat, reflect_invol, reflect_sign]
  · intro j _ hj
    have : k ≠ reflectIndex d j hd := by rintro rfl; exact hj (reflect_invol hd j).symm
    simp [reflectMat, this]
  · simp

/-- C85: for the field of order three, all projective special linear groups are right. -/
theorem C85_regular_three_partial (hd : 2 ≤ d) (hq : Fintype.card F = 3) (ha : IsPrimitiveElement a) :
    ∃ fuel g rows φ, pslRegular fuel d (Fintype.card F) a = some (some (.ok (g, rows))) ∧ RepresentsPSL d F rows φ := by
  obtain ⟨x, w, hxw, hcl⟩ := C84_generators hd ha
  have e : slGeneratingMats d (Fintype.card F) a = some
      (Matrix.of fun i j => if i.1 = 0 ∧ j.1 = 1 then 1 else (1 : Matrix (Fin d) (Fin d) F) i j,
        Matrix.of fun i j => if i.1 = 0 ∧ j.1 = d - 1 then 1 else if i.1 = j.1 + 1 then -1 else 0) := by
    have h0 : 0 < d := by omega
    have h1 : 1 < d := by omega
    have h2 : d - 1 < d := by omega
    simp only [slGeneratingMats, setMatEntry, hq, if_neg h0.ne', le_refl, if_true, h0, h1, h2, and_self]
    rfl
  obtain ⟨rfl, rfl⟩ := Prod.mk.inj (Option.some.inj (hxw.symm.trans e))
  refine psl_regular_of (P := reflectMat F d hd) (Q := reflectMat F d hd) (by omega) hxw hcl ?_ ?_ ?_ ?_
  · ext i k
    rw [reflect_mul]
    simp only [reflectMat, Matrix.of_apply, reflect_invol, reflect_sign, Matrix.one_apply]
    by_cases h : i = k
    · subst h
      simp only [if_true, reflectSign]
      split_ifs <;> simp
    · rw [if_neg h, if_neg (Ne.symm h), mul_zero]
  · ext i k
    rw [reflect_mul, mul_reflect]
    simp only [transpose_apply, Matrix.of_apply, Matrix.one_apply, Fin.ext_iff, reflectIndex_val, reflectSign]
    split_ifs <;> first | rfl | (exfalso; omega) | simp
  · ext i k
    rw [reflect_mul, mul_reflect]
    simp only [transpose_apply, Matrix.of_apply, reflectIndex_val, reflectSign]
    have hi := i.2
    have hk := k.2
    split_ifs <;> first | rfl | (exfalso; omega) | simp
  · intro r h
    have h1 := congrFun (congrFun h ⟨0, by omega⟩) ⟨0, by omega⟩
    simp [show ¬ 0 = d - 1 by omega] at h1

/-- C85: for the field of order two, the projective special linear group is the special linear group. -/
theorem C85_regular_two (hd : 2 ≤ d) (ha : IsPrimitiveElement a) (hq : Fintype.card F = 2) :
    ∃ fuel g rows φ, slRegular fuel d (Fintype.card F) a = some (some (.ok (g, rows))) ∧ RepresentsPSL d F rows φ := by
  obtain ⟨fuel, g, rows, φ, h1, h2, -⟩ := C84_regular hd ha
  refine ⟨fuel, g, rows, φ, h1, h2.generated, fun M N hM hN => ⟨fun e => ⟨1, one_pow d, by
    rw [one_smul]; exact h2.injective M N hM hN e⟩, ?_⟩, h2.mul⟩
  rintro ⟨r, hr, rfl⟩
  have hr0 := root_ne_zero (by omega) hr
  have : r = 1 := by
    have h3 := FiniteField.pow_card_sub_one_eq_one r hr0
    rwa [hq, pow_one] at h3
  rw [this, one_smul]

end Regular

theorem sl35 : slGeneratingMats 3 5 (2 : ZMod 5) =
    some (!![2, 0, 0; 0, 3, 0; 0, 0, 1], !![-1, 0, 1; -1, 0, 0; 0, -1, 0]) := by
  have h : (2 : ZMod 5)⁻¹ = 3 := inv_eq_of_mul_eq_one_right (by decide)
  simp only [slGeneratingMats, setMatEntry, h]
  decide +kernel

theorem sl35_inv : (!![2, 0, 0; 0, 3, 0; 0, 0, 1] : Matrix (Fin 3) (Fin 3) (ZMod 5))⁻¹ = !![3, 0, 0; 0, 2, 0; 0, 0, 1] ∧
    (!![-1, 0, 1; -1, 0, 0; 0, -1, 0] : Matrix (Fin 3) (Fin 3) (ZMod 5))⁻¹ = !![0, -1, 0; 0, 0, -1; 1, -1, 0] :=
  ⟨Matrix.inv_eq_right_inv (by decide +kernel), Matrix.inv_eq_right_inv (by decide +kernel)⟩

/-- Disagreement: without the linear representation, `ProjectiveSpecialLinearGroup(3, 5)` is another group: `31 * 31`
divides its order, and not that of `PSL(3, 5)`, which is 372000. -/
theorem C85_regular_disagreement : ∃ fuel g rows, pslRegular fuel 3 5 (2 : ZMod 5) = some (some (.ok (g, rows))) ∧
    31 * 31 ∣ {p | PermGenerated rows p}.ncard ∧ ∀ φ, ¬ RepresentsPSL 3 (ZMod 5) rows φ := by
  set x : Matrix (Fin 3) (Fin 3) (ZMod 5) := !![2, 0, 0; 0, 3, 0; 0, 0, 1] with hx
  set w : Matrix (Fin 3) (Fin 3) (ZMod 5) := !![-1, 0, 1; -1, 0, 0; 0, -1, 0] with hw
  set x' : Matrix (Fin 3) (Fin 3) (ZMod 5) := !![3, 0, 0; 0, 2, 0; 0, 0, 1] with hx'
  set w' : Matrix (Fin 3) (Fin 3) (ZMod 5) := !![0, -1, 0; 0, 0, -1; 1, -1, 0] with hw'
  have hk : pslKronMats 3 5 (2 : ZMod 5) = some (x' ⊗ₖ x, w' ⊗ₖ w) := by
    rw [pslKronMats, sl35, Option.map_some]
    simp only
    rw [sl35_inv.1, sl35_inv.2]
  have hxx : x' * x = 1 := by decide +kernel
  have hww : w' * w = 1 := by decide +kernel
  have hux : IsUnit (x' ⊗ₖ x) := by
    refine IsUnit.of_mul_eq_one (x ⊗ₖ x') ?_
    rw [← mul_kronecker_mul, hxx, show x * x' = 1 by decide +kernel, one_kronecker_one]
  have huw : IsUnit (w' ⊗ₖ w) := by
    refine IsUnit.of_mul_eq_one (w ⊗ₖ w') ?_
    rw [← mul_kronecker_mul, hww, show w * w' = 1 by decide +kernel, one_kronecker_one]
  have hne : x' ⊗ₖ x ≠ w' ⊗ₖ w := by
    intro h
    have := congrFun (congrFun h (0, 0)) (0, 0)
    rw [kronecker_apply, kronecker_apply] at this
    revert this
    decide +kernel
  obtain ⟨fuel, g, rows, φ, hreg, hg⟩ := pslRegular_ok hk hne hux huw
  have hcard : {p | PermGenerated rows p}.ncard =
      (Subsemigroup.closure {y | y ∈ [x' ⊗ₖ x, w' ⊗ₖ w]} : Set (Matrix (Fin 3 × Fin 3) (Fin 3 × Fin 3) (ZMod 5))).ncard := by
    have e : {p | PermGenerated rows p} =
        φ '' (Subsemigroup.closure {y | y ∈ [x' ⊗ₖ x, w' ⊗ₖ w]} : Set (Matrix (Fin 3 × Fin 3) (Fin 3 × Fin 3) (ZMod 5))) := by
      ext p
      simp only [Set.mem_setOf_eq, C40_mats_generated hg, Set.mem_image, hg.mem, SetLike.mem_coe]
    rw [e, Set.ncard_image_of_injOn]
    exact fun y hy z hz e => hg.inj y ((hg.mem y).2 hy) z ((hg.mem z).2 hz) e
  set C := Subsemigroup.closure {y | y ∈ [x' ⊗ₖ x, w' ⊗ₖ w]} with hC
  have cx : x' ⊗ₖ x ∈ C := Subsemigroup.subset_closure (by simp)
  have cw : w' ⊗ₖ w ∈ C := Subsemigroup.subset_closure (by simp)
  have cm : ∀ a b a' b' : Matrix (Fin 3) (Fin 3) (ZMod 5), a ⊗ₖ b ∈ C → a' ⊗ₖ b' ∈ C → (a * a') ⊗ₖ (b * b') ∈ C := by
    intro a b a' b' h1 h2
    rw [mul_kronecker_mul]
    exact C.mul_mem h1 h2
  have hA : (1 : Matrix (Fin 3) (Fin 3) (ZMod 5)) ⊗ₖ (!![3, 2, 1; 0, 4, 2; 3, 2, 4] : Matrix (Fin 3) (Fin 3) (ZMod 5)) ∈ C := by
    have h1 := subsemigroup_pow (cm _ _ _ _ (cm _ _ _ _ (cm _ _ _ _ (cm _ _ _ _ (cm _ _ _ _ (cm _ _ _ _ cx cx) cw) cx) cw) cw) cw)
      (n := 12) (by decide)
    rw [kronecker_pow'] at h1
    convert h1 using 2
    · decide +kernel
    · decide +kernel
  have hB : (!![2, 4, 0; 1, 4, 1; 2, 0, 2] : Matrix (Fin 3) (Fin 3) (ZMod 5)) ⊗ₖ (1 : Matrix (Fin 3) (Fin 3) (ZMod 5)) ∈ C := by
    have h1 := subsemigroup_pow (cm _ _ _ _ (cm _ _ _ _ (cm _ _ _ _ (cm _ _ _ _ (cm _ _ _ _ (cm _ _ _ _ cx cx) cw) cw) cw) cx) cw)
      (n := 12) (by decide)
    rw [kronecker_pow'] at h1
    convert h1 using 2
    · decide +kernel
    · decide +kernel
  set V : Matrix (Fin 3) (Fin 3) (ZMod 5) := !![3, 2, 1; 0, 4, 2; 3, 2, 4] with hV
  set U : Matrix (Fin 3) (Fin 3) (ZMod 5) := !![2, 4, 0; 1, 4, 1; 2, 0, 2] with hU
  have hu : ∀ y ∈ {y | y ∈ [x' ⊗ₖ x, w' ⊗ₖ w]}, IsUnit y := by
    intro y hy
    rcases List.mem_cons.1 hy with rfl | hy
    · exact hux
    · rw [List.mem_singleton.1 hy]; exact huw
  obtain ⟨A, eA⟩ := closure_unit hu hA
  obtain ⟨B, eB⟩ := closure_unit hu hB
  have hp : (31 : ℕ).Prime := by norm_num
  have : Fact (31 : ℕ).Prime := ⟨hp⟩
  have hdvd : 31 * 31 ∣ (C : Set (Matrix (Fin 3 × Fin 3) (Fin 3 × Fin 3) (ZMod 5))).ncard := by
    refine sq_dvd_card_closure hu (A := A) (B := B) (by rw [eA]; exact hA) (by rw [eB]; exact hB) ?_ hp ?_ ?_ ?_
    · refine Units.ext ?_
      rw [Units.val_mul, Units.val_mul, eA, eB, ← mul_kronecker_mul, ← mul_kronecker_mul, one_mul, mul_one, one_mul, mul_one]
    · refine orderOf_eq_prime (Units.ext ?_) ?_
      · rw [Units.val_pow_eq_pow_val, eA, kronecker_pow', one_pow, show V ^ 31 = 1 by decide +kernel, one_kronecker_one]
        rfl
      · intro h
        have := congrFun (congrFun (eA.symm.trans (congrArg Units.val h)) (0, 0)) (0, 1)
        rw [kronecker_apply] at this
        revert this
        decide +kernel
    · refine orderOf_eq_prime (Units.ext ?_) ?_
      · rw [Units.val_pow_eq_pow_val, eB, kronecker_pow', one_pow, show U ^ 31 = 1 by decide +kernel, one_kronecker_one]
        rfl
      · intro h
        have := congrFun (congrFun (eB.symm.trans (congrArg Units.val h)) (0, 0)) (1, 0)
        rw [kronecker_apply] at this
        revert this
        decide +kernel
    · intro h
      rw [mem_zpowers_iff_mem_range_orderOf] at h
      obtain ⟨k, -, h⟩ := Finset.mem_image.1 h
      have h1 := congrArg Units.val h
      rw [Units.val_pow_eq_pow_val, eA, eB, kronecker_pow', one_pow] at h1
      have h2 := congrFun (congrFun h1 (0, 0)) (1, 0)
      rw [kronecker_apply, kronecker_apply] at h2
      simp [hU] at h2
      exact absurd h2 (by decide)
  refine ⟨fuel, g, rows, hreg, by rw [hcard]; exact hdvd, fun ψ h => ?_⟩
  have h1 := C85_order (by decide) primitive5 h
  rw [ZMod.card, hcard] at h1
  obtain ⟨c, hc⟩ := hdvd
  rw [hc] at h1
  simp [Fin.prod_univ_succ] at h1
  omega

/-! ### Examples -/

example : ∃ fuel g rows φ, pslRegular fuel 2 5 (2 : ZMod 5) = some (some (.ok (g, rows))) ∧
    RepresentsPSL 2 (ZMod 5) rows φ := by
  have h := C85_regular_partial (F := ZMod 5) (by rw [ZMod.card]; decide) primitive5
  rwa [ZMod.card] at h

private instance : Fact (Nat.Prime 3) := ⟨by norm_num⟩

example : ∃ fuel g rows φ, pslRegular fuel 4 3 (2 : ZMod 3) = some (some (.ok (g, rows))) ∧
    RepresentsPSL 4 (ZMod 3) rows φ := by
  have h := C85_regular_three_partial (F := ZMod 3) (d := 4) (by decide) (by rw [ZMod.card]) primitive3
  rwa [ZMod.card] at h

private instance : Fact (Nat.Prime 2) := ⟨by norm_num⟩

example : ∃ fuel g rows φ, slRegular fuel 3 2 (1 : ZMod 2) = some (some (.ok (g, rows))) ∧
    RepresentsPSL 3 (ZMod 2) rows φ := by
  have h := C85_regular_two (F := ZMod 2) (d := 3) (a := 1) (by decide) ⟨by decide, fun x hx => ⟨0, by
    revert x; decide⟩⟩ (by rw [ZMod.card])
  rwa [ZMod.card] at h

#print axioms C85_regular_partial
#print axioms C85_regular_three_partial
#print axioms C85_regular_two
#print axioms C85_regular_disagreement

end QLDPC.Props
