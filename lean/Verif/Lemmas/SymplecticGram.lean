import Verif.Lemmas.Combine

/-!
# Symplectic pairs in a space of Pauli strings

Every space of Pauli strings is spanned by symplectic pairs and by operators that commute with the whole
space.
-/

namespace QLDPC

open Spec

set_option linter.unusedSectionVars false

variable {F : Type} [Field F] [DecidableEq F] {n : ℕ}

/-- The symplectic form in the second argument. -/
def sformLin (p : Fin (n + n) → F) : (Fin (n + n) → F) →ₗ[F] F where
  toFun := sform p
  map_add' := sform_add_right p
  map_smul' c q := sform_smul_right c p q

/-- Operators that commute with all of `V`. -/
def sPerp (V : Submodule F (Fin (n + n) → F)) : Submodule F (Fin (n + n) → F) where
  carrier := {q | ∀ p ∈ V, sform p q = 0}
  add_mem' := fun {a b} ha hb p hp => by rw [sform_add_right, ha p hp, hb p hp, add_zero]
  zero_mem' := fun p _ => sform_zero_right p
  smul_mem' := fun c q hq p hp => by rw [sform_smul_right, hq p hp, mul_zero]

theorem mem_sPerp {V : Submodule F (Fin (n + n) → F)} {q : Fin (n + n) → F} :
    q ∈ sPerp V ↔ ∀ p ∈ V, sform p q = 0 := Iff.rfl

theorem sform_self (p : Fin (n + n) → F) : sform p p = 0 := by
  unfold sform
  exact Finset.sum_eq_zero fun i _ => by ring

/-- One step: split off a pair. -/
theorem split_pair (V : Submodule F (Fin (n + n) → F)) {x z : Fin (n + n) → F} (hx : x ∈ V) (hz : z ∈ V)
    (h : sform x z = 1) :
    let W := V ⊓ (LinearMap.ker (sformLin x) ⊓ LinearMap.ker (sformLin z))
    Module.finrank F V = Module.finrank F W + 2 ∧ V ⊓ sPerp V = W ⊓ sPerp W := by
  intro W
  have h' : sform z x = -1 := by rw [sform_comm, h]
  have hW : ∀ v, v ∈ W ↔ v ∈ V ∧ sform x v = 0 ∧ sform z v = 0 := fun v => Iff.rfl
  constructor
  · let φ : V →ₗ[F] F × F := ((sformLin x).prod (sformLin z)).domRestrict V
    have h1 := LinearMap.finrank_range_add_finrank_ker φ
    have hr : LinearMap.range φ = ⊤ := by
      rw [LinearMap.range_eq_top]
      rintro ⟨a, b⟩
      refine ⟨⟨a • z - b • x, V.sub_mem (V.smul_mem _ hz) (V.smul_mem _ hx)⟩, ?_⟩
      have e1 : sformLin x (a • z - b • x) = a := by
        rw [map_sub, map_smul, map_smul]
        change a • sform x z - b • sform x x = a
        rw [h, sform_self, smul_zero, sub_zero, smul_eq_mul, mul_one]
      have e2 : sformLin z (a • z - b • x) = b := by
        rw [map_sub, map_smul, map_smul]
        change a • sform z z - b • sform z x = b
        rw [h', sform_self, smul_zero, zero_sub, smul_eq_mul, mul_neg, mul_one, neg_neg]
      exact Prod.ext e1 e2
    have hk : (LinearMap.ker φ).map V.subtype = W := by
      ext v
      rw [hW]
      simp only [Submodule.mem_map, LinearMap.mem_ker]
      constructor
      · rintro ⟨⟨w, hw⟩, h0, rfl⟩
        exact ⟨hw, congrArg Prod.fst h0, congrArg Prod.snd h0⟩
      · rintro ⟨h1, h2, h3⟩
        exact ⟨⟨v, h1⟩, Prod.ext h2 h3, rfl⟩
    have hf := Submodule.finrank_map_subtype_eq V (LinearMap.ker φ)
    rw [hk] at hf
    rw [hr, finrank_top, Module.finrank_prod, Module.finrank_self] at h1
    omega
  · ext v
    simp only [Submodule.mem_inf, mem_sPerp]
    constructor
    · rintro ⟨hv, hp⟩
      exact ⟨(hW v).2 ⟨hv, hp x hx, hp z hz⟩, fun p hp' => hp p ((hW p).1 hp').1⟩
    · rintro ⟨hv, hp⟩
      obtain ⟨h1, h2, h3⟩ := (hW v).1 hv
      refine ⟨h1, fun p hpV => ?_⟩
      -- `p = p' + sform x p • z - sform z p • x`
      have hp' : p - sform x p • z + sform z p • x ∈ W := by
        refine (hW _).2 ⟨V.add_mem (V.sub_mem hpV (V.smul_mem _ hz)) (V.smul_mem _ hx), ?_, ?_⟩
        · change sformLin x _ = 0
          rw [map_add, map_sub, map_smul, map_smul]
          change sform x p - sform x p • sform x z + sform z p • sform x x = 0
          rw [h, sform_self]; simp
        · change sformLin z _ = 0
          rw [map_add, map_sub, map_smul, map_smul]
          change sform z p - sform x p • sform z z + sform z p • sform z x = 0
          rw [h', sform_self]; simp
      have := hp _ hp'
      rw [sform_add_left, sub_eq_add_neg, ← neg_smul, sform_add_left, sform_smul_left, sform_smul_left, h2,
        h3, mul_zero, mul_zero, add_zero, add_zero] at this
      exact this

/-- Gram-Schmidt for the symplectic form. -/
theorem exists_pairs (V : Submodule F (Fin (n + n) → F)) : ∃ LX LZ : Rows F (n + n),
    IsLogicalBasis [] LX LZ ∧ (∀ p ∈ LX ++ LZ, p ∈ V) ∧
      Module.finrank F V = 2 * LX.length + Module.finrank F (V ⊓ sPerp V : Submodule F (Fin (n + n) → F)) := by
  induction hd : Module.finrank F V using Nat.strong_induction_on generalizing V with
  | _ d ih =>
    by_cases hall : ∀ p ∈ V, ∀ q ∈ V, sform p q = 0
    · refine ⟨[], [], ⟨rfl, by simp, by simp, by simp, by simp, by simp⟩, by simp, ?_⟩
      have : V ⊓ sPerp V = V := inf_eq_left.2 fun q hq p hp => hall p hp q hq
      rw [this, hd]; simp
    · push Not at hall
      obtain ⟨x, hx, y, hy, hxy⟩ := hall
      set z := (sform x y)⁻¹ • y with hzdef
      have hz : z ∈ V := V.smul_mem _ hy
      have h : sform x z = 1 := by rw [hzdef, sform_smul_right, inv_mul_cancel₀ hxy]
      obtain ⟨h1, h2⟩ := split_pair V hx hz h
      set W := V ⊓ (LinearMap.ker (sformLin x) ⊓ LinearMap.ker (sformLin z)) with hW
      have hmem : ∀ v, v ∈ W ↔ v ∈ V ∧ sform x v = 0 ∧ sform z v = 0 := fun v => Iff.rfl
      obtain ⟨LX, LZ, hb, hin, hc⟩ := ih (Module.finrank F W) (by omega) W rfl
      have hX : ∀ p ∈ LX, sform x p = 0 ∧ sform z p = 0 := fun p hp =>
        ((hmem p).1 (hin p (List.mem_append_left _ hp))).2
      have hZ : ∀ p ∈ LZ, sform x p = 0 ∧ sform z p = 0 := fun p hp =>
        ((hmem p).1 (hin p (List.mem_append_right _ hp))).2
      have hneg : ∀ {p q : Fin (n + n) → F}, sform p q = 0 → sform q p = 0 := fun {p q} h => by
        rw [sform_comm, h, neg_zero]
      refine ⟨x :: LX, z :: LZ, ⟨by simp [hb.len], by simp, by simp, ?_, ?_, ?_⟩, ?_, ?_⟩
      · intro i j hi hj
        cases i with
        | zero =>
          cases j with
          | zero => simpa using h
          | succ j => simpa using (hZ _ (List.getElem_mem (by simpa using hj))).1
        | succ i =>
          cases j with
          | zero => simpa using hneg (hX _ (List.getElem_mem (by simpa using hi))).2
          | succ j => simpa using hb.pair i j (by simpa using hi) (by simpa using hj)
      · simp only [List.forall_mem_cons]
        exact ⟨⟨sform_self x, fun p hp => (hX p hp).1⟩, fun p hp => ⟨hneg (hX p hp).1, hb.xx p hp⟩⟩
      · simp only [List.forall_mem_cons]
        exact ⟨⟨sform_self z, fun p hp => (hZ p hp).2⟩, fun p hp => ⟨hneg (hZ p hp).2, hb.zz p hp⟩⟩
      · intro p hp
        simp only [List.cons_append, List.mem_cons, List.mem_append] at hp
        rcases hp with rfl | hp | rfl | hp
        · exact hx
        · exact ((hmem p).1 (hin p (List.mem_append_left _ hp))).1
        · exact hz
        · exact ((hmem p).1 (hin p (List.mem_append_right _ hp))).1
      · rw [h2, List.length_cons]
        omega

end QLDPC
