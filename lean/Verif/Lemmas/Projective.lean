import Verif.Lemmas.LinearPerm
import Mathlib.RingTheory.RootsOfUnity.PrimitiveRoots
import Mathlib.GroupTheory.SpecificGroups.Cyclic

/-!
# Roots of unity and orbits of vectors
-/

namespace QLDPC

open Matrix

variable {F : Type} [Field F] [DecidableEq F] [Fintype F] {a : F} {d : ℕ}

theorem orderOf_primitive (ha : IsPrimitiveElement a) : orderOf a = Fintype.card F - 1 := by
  set u := Units.mk0 a ha.ne_zero with hu
  have h1 : orderOf u = Nat.card Fˣ := by
    refine orderOf_eq_card_of_forall_mem_zpowers fun x => ?_
    obtain ⟨k, hk⟩ := ha.power x.1 x.ne_zero
    exact ⟨k, Units.ext (by simp [hu, hk])⟩
  have h2 : orderOf (u : F) = orderOf u := orderOf_units
  rw [hu, Units.val_mk0] at h2
  rw [h2, ← hu, h1, Nat.card_units, Nat.card_eq_fintype_card]

/-- The roots are the `d`-th roots of unity. -/
theorem mem_pslRoots (ha : IsPrimitiveElement a) (hd : 0 < d) {count : ℕ}
    (h1 : Nat.gcd d (Fintype.card F - 1) ≤ count) (x : F) :
    x ∈ pslRoots d (Fintype.card F) a count ↔ x ^ d = 1 := by
  have hq : 0 < Fintype.card F - 1 := by have : 1 < Fintype.card F := Fintype.one_lt_card; omega
  set g := Nat.gcd d (Fintype.card F - 1) with hg
  have hgpos : 0 < g := Nat.gcd_pos_of_pos_left _ hd
  have hdiv : (Fintype.card F - 1) / g * g = Fintype.card F - 1 := Nat.div_mul_cancel (Nat.gcd_dvd_right _ _)
  have hprim : IsPrimitiveRoot (a ^ ((Fintype.card F - 1) / g)) g := by
    have := IsPrimitiveRoot.orderOf a
    rw [orderOf_primitive ha] at this
    exact this.pow hq hdiv.symm
  rw [pslRoots, List.mem_map]
  constructor
  · rintro ⟨k, -, rfl⟩
    obtain ⟨e, he⟩ := Nat.gcd_dvd_left d (Fintype.card F - 1)
    rw [← hg] at he
    rw [← hg]
    conv_lhs => rw [he]
    rw [← pow_mul, mul_comm k, pow_mul, pow_mul, hprim.pow_eq_one, one_pow, one_pow]
  · intro hx
    have hx0 : x ≠ 0 := by rintro rfl; rw [zero_pow hd.ne'] at hx; exact zero_ne_one hx
    have hxg : x ^ g = 1 := pow_gcd_eq_one.2 ⟨hx, FiniteField.pow_card_sub_one_eq_one x hx0⟩
    have : NeZero g := ⟨hgpos.ne'⟩
    obtain ⟨i, hi, rfl⟩ := hprim.eq_pow_of_pow_eq_one hxg
    exact ⟨i, List.mem_range.2 (by omega), rfl⟩

/-- A matrix that maps every nonzero vector to a multiple of it is a multiple of the identity. -/
theorem scalar_of_eigen {P : F → Prop} (hd : 0 < d) {K : Matrix (Fin d) (Fin d) F}
    (h : ∀ v : Fin d → F, v ≠ 0 → ∃ c, P c ∧ K.mulVec v = c • v) : ∃ c, P c ∧ K = c • (1 : Matrix (Fin d) (Fin d) F) := by
  have hs : ∀ j : Fin d, (Pi.single j 1 : Fin d → F) ≠ 0 := fun j => by simp
  choose c hc hK using fun j : Fin d => h (Pi.single j 1) (hs j)
  have heq : ∀ i j : Fin d, c i = c j := by
    intro i j
    by_cases hij : i = j
    · rw [hij]
    · have hne : (Pi.single i 1 + Pi.single j 1 : Fin d → F) ≠ 0 := by
        intro e
        have := congrFun e i
        simp [hij] at this
      obtain ⟨b, -, hb⟩ := h _ hne
      rw [mulVec_add, hK, hK] at hb
      have h1 := congrFun hb i
      have h2 := congrFun hb j
      simp [hij] at h1
      simp [Ne.symm hij] at h2
      rw [h1, h2]
  refine ⟨c ⟨0, hd⟩, hc _, ?_⟩
  ext i j
  have h1 := congrFun (hK j) i
  rw [mulVec_single_one] at h1
  change K i j = _ at h1
  rw [h1, heq j ⟨0, hd⟩]
  simp [Matrix.one_apply, Pi.single_apply]

/-! ### Representatives of orbits -/

section Reps

variable {V : Type} [AddCommGroup V] [Module F V] [DecidableEq V]

/-- `ts` has exactly one vector of every orbit of the nonzero vectors that satisfy `Q`. -/
structure IsReps (F : Type) [Field F] {V : Type} [AddCommGroup V] [Module F V] (d : ℕ) (Q : V → Prop) (ts : List V) : Prop where
  nodup : ts.Nodup
  sound : ∀ v ∈ ts, Q v
  exists_rep : ∀ v, Q v → ∃ r : F, r ^ d = 1 ∧ r • v ∈ ts
  unique : ∀ v ∈ ts, ∀ r : F, r ^ d = 1 → r • v ∈ ts → r • v = v

theorem mem_rootOrbit {ι : Type} [Fintype ι] [DecidableEq ι] {roots : List F} (hr : ∀ x, x ∈ roots ↔ x ^ d = 1)
    (v u : ι → F) : u ∈ rootOrbit roots v ↔ ∃ r : F, r ^ d = 1 ∧ u = r • v := by
  simp only [rootOrbit, List.mem_toFinset, List.mem_map, hr]
  exact ⟨fun ⟨r, h, e⟩ => ⟨r, h, e.symm⟩, fun ⟨r, h, e⟩ => ⟨r, h, e.symm⟩⟩

theorem root_inv {r : F} (h : r ^ d = 1) : r⁻¹ ^ d = 1 := by rw [inv_pow, h, inv_one]

theorem root_ne_zero (hd : 0 < d) {r : F} (h : r ^ d = 1) : r ≠ 0 := by
  rintro rfl; rw [zero_pow hd.ne'] at h; exact zero_ne_one h

theorem rootOrbit_eq {ι : Type} [Fintype ι] [DecidableEq ι] (hd : 0 < d) {roots : List F}
    (hr : ∀ x, x ∈ roots ↔ x ^ d = 1) {v : ι → F} {r : F} (h : r ^ d = 1) :
    rootOrbit roots (r • v) = rootOrbit roots v := by
  ext u
  rw [mem_rootOrbit hr, mem_rootOrbit hr]
  constructor
  · rintro ⟨s, hs, rfl⟩
    exact ⟨s * r, by rw [mul_pow, hs, h, one_mul], by rw [mul_smul]⟩
  · rintro ⟨s, hs, rfl⟩
    exact ⟨s * r⁻¹, by rw [mul_pow, hs, root_inv h, one_mul], by
      rw [mul_smul, smul_smul r⁻¹, inv_mul_cancel₀ (root_ne_zero hd h), one_smul]⟩

/-- Python's choice of representatives of a set of orbits. -/
theorem isReps_pick {ι : Type} [Fintype ι] [DecidableEq ι] (hd : 0 < d) {roots : List F}
    (hr : ∀ x, x ∈ roots ↔ x ^ d = 1) {Q : (ι → F) → Prop} (hQ : ∀ v (r : F), r ^ d = 1 → Q v → Q (r • v))
    {orbits orbits' : List (Finset (ι → F))} (hp : orbits'.Perm orbits) (hn : orbits.Nodup)
    (ho : ∀ o, o ∈ orbits ↔ ∃ v, Q v ∧ o = rootOrbit roots v)
    {pick : Finset (ι → F) → ι → F} (hpick : ∀ o : Finset (ι → F), o.Nonempty → pick o ∈ o) :
    IsReps F d Q (orbits'.map pick) := by
  have hmem : ∀ o ∈ orbits', ∃ v, Q v ∧ o = rootOrbit roots v := fun o h => (ho o).1 (hp.mem_iff.1 h)
  have hone : (1 : F) ^ d = 1 := one_pow d
  have hself : ∀ v : ι → F, v ∈ rootOrbit roots v := fun v => (mem_rootOrbit hr v v).2 ⟨1, hone, by rw [one_smul]⟩
  have horb : ∀ o ∈ orbits', Q (pick o) ∧ o = rootOrbit roots (pick o) := by
    intro o h
    obtain ⟨v, hv, e⟩ := hmem o h
    have h1 := hpick o (by rw [e]; exact ⟨v, hself v⟩)
    have h2 := h1
    rw [e, ← e] at h2
    rw [e, mem_rootOrbit hr, ← e] at h1
    obtain ⟨r, hr', e'⟩ := h1
    rw [e']
    exact ⟨hQ v r hr' hv, by rw [rootOrbit_eq hd hr hr', e]⟩
  refine ⟨?_, ?_, ?_, ?_⟩
  · refine (hp.nodup_iff.2 hn).map_on fun o h o' h' e => ?_
    rw [(horb o h).2, (horb o' h').2, e]
  · intro v hv
    obtain ⟨o, h, rfl⟩ := List.mem_map.1 hv
    exact (horb o h).1
  · intro v hv
    have h1 : rootOrbit roots v ∈ orbits' := hp.mem_iff.2 ((ho _).2 ⟨v, hv, rfl⟩)
    have h2 := hpick _ ⟨v, hself v⟩
    rw [mem_rootOrbit hr] at h2
    obtain ⟨r, hr', e⟩ := h2
    exact ⟨r, hr', by rw [← e]; exact List.mem_map_of_mem h1⟩
  · intro v hv r hr' hv'
    obtain ⟨o, h, e⟩ := List.mem_map.1 hv
    obtain ⟨o', h', e'⟩ := List.mem_map.1 hv'
    have h1 := (horb o h).2
    have h2 := (horb o' h').2
    rw [e] at h1
    rw [e', rootOrbit_eq hd hr hr', ← h1] at h2
    rw [← e', h2, e]

end Reps

/-! ### The permutation of the representatives -/

section Perm

variable {roots : List F} {ts : List (Fin d → F)}

/-- The representative of the orbit of a vector. -/
def repOf (roots : List F) (ts : List (Fin d → F)) (v : Fin d → F) : Fin d → F :=
  ((roots.map fun r => r • v).find? fun u => u ∈ ts).getD v

theorem repOf_spec (hr : ∀ x, x ∈ roots ↔ x ^ d = 1) (h : IsReps F d (· ≠ 0) ts) {v : Fin d → F} (hv : v ≠ 0) :
    ((roots.map fun r => r • v).find? fun u => u ∈ ts) = some (repOf roots ts v) ∧ repOf roots ts v ∈ ts ∧
      ∃ r : F, r ^ d = 1 ∧ repOf roots ts v = r • v := by
  have hsome : ((roots.map fun r => r • v).find? fun u => u ∈ ts).isSome := by
    rw [List.find?_isSome]
    obtain ⟨r, h1, h2⟩ := h.exists_rep v hv
    exact ⟨r • v, List.mem_map.2 ⟨r, (hr r).2 h1, rfl⟩, by simpa using h2⟩
  obtain ⟨u, hu⟩ := Option.isSome_iff_exists.1 hsome
  have hrep : repOf roots ts v = u := by rw [repOf, hu]; rfl
  rw [hrep]
  refine ⟨hu, by simpa using List.find?_some hu, ?_⟩
  obtain ⟨r, h1, h2⟩ := List.mem_map.1 (List.mem_of_find?_eq_some hu)
  exact ⟨r, (hr r).1 h1, h2.symm⟩

variable (hd : 0 < d) (hr : ∀ x, x ∈ roots ↔ x ^ d = 1) (h : IsReps F d (· ≠ 0) ts)

include hd hr h

theorem repOf_smul {v : Fin d → F} (hv : v ≠ 0) {r : F} (h1 : r ^ d = 1) : repOf roots ts (r • v) = repOf roots ts v := by
  have hr0 := root_ne_zero hd h1
  obtain ⟨-, m1, s, hs, e1⟩ := repOf_spec hr h (smul_ne_zero hr0 hv)
  obtain ⟨-, m2, t, ht, e2⟩ := repOf_spec hr h hv
  have ht0 := root_ne_zero hd ht
  have e3 : repOf roots ts (r • v) = (s * r * t⁻¹) • repOf roots ts v := by
    rw [e2, e1, smul_smul, smul_smul, mul_assoc (s * r), inv_mul_cancel₀ ht0, mul_one]
  rw [e3]
  exact h.unique _ m2 _ (by rw [mul_pow, mul_pow, hs, h1, root_inv ht, one_mul, one_mul]) (by rw [← e3]; exact m1)

theorem repOf_mem {v : Fin d → F} (hv : v ∈ ts) : repOf roots ts v = v := by
  obtain ⟨-, m1, s, hs, e1⟩ := repOf_spec hr h (h.sound v hv)
  rw [e1]
  exact h.unique v hv s hs (by rw [← e1]; exact m1)

theorem eq_smul_of_repOf {v u : Fin d → F} (hv : v ≠ 0) (hu : u ≠ 0) (e : repOf roots ts v = repOf roots ts u) :
    ∃ r : F, r ^ d = 1 ∧ v = r • u := by
  obtain ⟨-, -, s, hs, e1⟩ := repOf_spec hr h hv
  obtain ⟨-, -, t, ht, e2⟩ := repOf_spec hr h hu
  refine ⟨s⁻¹ * t, by rw [mul_pow, root_inv hs, ht, one_mul], ?_⟩
  rw [mul_smul, ← e2, ← e, e1, smul_smul, inv_mul_cancel₀ (root_ne_zero hd hs), one_smul]

/-- The permutation of a matrix. -/
theorem pslPerm_eq {M : Matrix (Fin d) (Fin d) F} (hM : M.det = 1) :
    (pslPerm roots ts M).bind groupMember = some (permOf ts fun v => repOf roots ts (M.mulVec v)) := by
  have hne : ∀ v ∈ ts, M.mulVec v ≠ 0 := fun v hv h0 => h.sound v hv (mulVec_eq_zero hM h0)
  have e : pslPerm roots ts M = some (permOf ts fun v => repOf roots ts (M.mulVec v)) := by
    refine mapM_some_of fun v hv => ?_
    simp only [smul_mulVec]
    obtain ⟨e1, m, -⟩ := repOf_spec hr h (hne v hv)
    rw [e1, Option.bind_some, idxOf?_of_mem m]
  rw [e, Option.bind_some]
  refine permOf_groupMember h.nodup (fun v hv => (repOf_spec hr h (hne v hv)).2.1) fun v hv u hu e2 => ?_
  obtain ⟨r, h1, e3⟩ := eq_smul_of_repOf hd hr h (hne v hv) (hne u hu) e2
  rw [← mulVec_smul] at e3
  have e4 := mulVec_inj hM e3
  rw [e4]
  exact h.unique u hu r h1 (by rw [← e4]; exact hv)

theorem permOf_repOf_mul {M N : Matrix (Fin d) (Fin d) F} (hM : M.det = 1) (hN : N.det = 1) :
    (permOf ts fun v => repOf roots ts ((N * M).mulVec v)) = arrayMulList
      (permOf ts fun v => repOf roots ts (M.mulVec v)) (permOf ts fun v => repOf roots ts (N.mulVec v)) := by
  have hne : ∀ v ∈ ts, M.mulVec v ≠ 0 := fun v hv h0 => h.sound v hv (mulVec_eq_zero hM h0)
  rw [permOf_mul fun v hv => (repOf_spec hr h (hne v hv)).2.1]
  refine permOf_congr fun v hv => ?_
  obtain ⟨-, -, r, h1, e⟩ := repOf_spec hr h (hne v hv)
  rw [e, mulVec_smul, repOf_smul hd hr h _ h1, mulVec_mulVec]
  exact fun h0 => hne v hv (mulVec_eq_zero hN h0)

theorem permOf_repOf_eq_iff {M N : Matrix (Fin d) (Fin d) F} (hM : M.det = 1) (hN : N.det = 1) :
    ((permOf ts fun v => repOf roots ts (M.mulVec v)) = permOf ts fun v => repOf roots ts (N.mulVec v)) ↔
      ∃ r : F, r ^ d = 1 ∧ M = r • N := by
  have hne : ∀ v ∈ ts, M.mulVec v ≠ 0 := fun v hv h0 => h.sound v hv (mulVec_eq_zero hM h0)
  have hne' : ∀ v ∈ ts, N.mulVec v ≠ 0 := fun v hv h0 => h.sound v hv (mulVec_eq_zero hN h0)
  have hu : IsUnit N.det := by rw [hN]; exact isUnit_one
  constructor
  · intro e
    have e1 := permOf_inj (fun v hv => (repOf_spec hr h (hne v hv)).2.1) e
    have key : ∀ v : Fin d → F, v ≠ 0 → ∃ c : F, c ^ d = 1 ∧ (N⁻¹ * M).mulVec v = c • v := by
      intro v hv
      obtain ⟨s, hs, hsv⟩ := h.exists_rep v hv
      obtain ⟨r, h1, e2⟩ := eq_smul_of_repOf hd hr h (hne _ hsv) (hne' _ hsv) (e1 _ hsv)
      refine ⟨r, h1, ?_⟩
      rw [mulVec_smul, mulVec_smul, smul_comm] at e2
      have e3 := smul_right_injective _ (root_ne_zero hd hs) e2
      rw [← mulVec_mulVec, e3, mulVec_smul, mulVec_mulVec, nonsing_inv_mul _ hu, one_mulVec]
    obtain ⟨c, hc, e2⟩ := scalar_of_eigen hd key
    refine ⟨c, hc, ?_⟩
    rw [← mul_one N, ← mul_smul_comm, ← e2, ← mul_assoc, mul_nonsing_inv _ hu, one_mul]
  · rintro ⟨r, h1, rfl⟩
    refine permOf_congr fun v hv => ?_
    rw [smul_mulVec, repOf_smul hd hr h (hne' v hv) h1]

end Perm

end QLDPC
