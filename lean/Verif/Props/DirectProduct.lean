import Verif.Model.DirectProduct
import Mathlib.GroupTheory.Perm.Subgroup
import Mathlib.Algebra.Group.Subgroup.Lattice
import Mathlib.Algebra.Group.Prod
import Mathlib.Algebra.Group.Subgroup.Finite
import Mathlib.Data.Fintype.Perm
import Mathlib.SetTheory.Cardinal.Finite
import Mathlib.Tactic.Ring

/-!
# C94: direct products of groups
-/

namespace QLDPC.Spec

open Equiv

/-- The array form of a permutation. -/
def arrayOf {n : ℕ} (p : Perm (Fin n)) : List ℕ := List.ofFn fun i => (p i : ℕ)

/-- All generators are array forms of permutations of the points. -/
def PermGroup.Valid (g : QLDPC.PermGroup) : Prop := ∀ l ∈ g.gens, ∃ p : Perm (Fin g.degree), arrayOf p = l

/-- The group that the generators generate. -/
def PermGroup.subgroup (g : QLDPC.PermGroup) : Subgroup (Perm (Fin g.degree)) := Subgroup.closure {p | arrayOf p ∈ g.gens}

/-- The array forms of all members. -/
def PermGroup.members (g : QLDPC.PermGroup) : Set (List ℕ) := {l | ∃ p ∈ PermGroup.subgroup g, arrayOf p = l}

/-- The number of members. -/
noncomputable def PermGroup.order (g : QLDPC.PermGroup) : ℕ := Nat.card (PermGroup.members g)

end QLDPC.Spec

namespace QLDPC.Props

open QLDPC QLDPC.Spec Equiv

variable {n m : ℕ}

/-- Two permutations next to each other. -/
def sideBySide (n m : ℕ) : Perm (Fin n) × Perm (Fin m) →* Perm (Fin (n + m)) where
  toFun x := (finSumFinEquiv.symm.trans (Equiv.sumCongr x.1 x.2)).trans finSumFinEquiv
  map_one' := by
    ext i
    simp
  map_mul' x y := by
    ext i
    simp

theorem sideBySide_left (x : Perm (Fin n) × Perm (Fin m)) (i : Fin n) :
    sideBySide n m x (Fin.castAdd m i) = Fin.castAdd m (x.1 i) := by
  simp [sideBySide]

theorem sideBySide_right (x : Perm (Fin n) × Perm (Fin m)) (i : Fin m) :
    sideBySide n m x (Fin.natAdd n i) = Fin.natAdd n (x.2 i) := by
  simp [sideBySide]

theorem arrayOf_length (p : Perm (Fin n)) : (arrayOf p).length = n := by simp [arrayOf]

theorem arrayOf_injective : Function.Injective (arrayOf : Perm (Fin n) → List ℕ) := by
  intro p q h
  ext i
  exact congrFun (List.ofFn_injective h) i

theorem arrayOf_one : arrayOf (1 : Perm (Fin n)) = List.range n := by
  unfold arrayOf
  refine List.ext_getElem (by simp) fun i h1 h2 => ?_
  simp

theorem arrayOf_sideBySide (p : Perm (Fin n)) (q : Perm (Fin m)) :
    arrayOf (sideBySide n m (p, q)) = tensorArray (arrayOf p) (arrayOf q) := by
  have h : (fun i => ((sideBySide n m (p, q)) i : ℕ)) = Fin.append (fun i => (p i : ℕ)) (fun i => (q i : ℕ) + n) := by
    funext i
    refine Fin.addCases (fun i => ?_) (fun i => ?_) i
    · rw [sideBySide_left, Fin.append_left]
      rfl
    · rw [sideBySide_right, Fin.append_right]
      simp [add_comm]
  unfold tensorArray
  rw [arrayOf_length]
  unfold arrayOf
  rw [h, List.ofFn_fin_append, List.map_ofFn]
  rfl

theorem tensorArray_injective {p p' q q' : List ℕ} (hl : p.length = p'.length) (h : tensorArray p q = tensorArray p' q') :
    p = p' ∧ q = q' := by
  unfold tensorArray at h
  obtain ⟨h1, h2⟩ := List.append_inj h hl
  refine ⟨h1, ?_⟩
  rw [hl] at h2
  exact List.map_injective_iff.2 (fun a b hab => by simpa using hab) h2

theorem sideBySide_injective : Function.Injective (sideBySide n m) := by
  rintro ⟨p, q⟩ ⟨p', q'⟩ h
  have h1 := congrArg arrayOf h
  rw [arrayOf_sideBySide, arrayOf_sideBySide] at h1
  obtain ⟨h2, h3⟩ := tensorArray_injective (by rw [arrayOf_length, arrayOf_length]) h1
  rw [arrayOf_injective h2, arrayOf_injective h3]

section Product

variable (a b : PermGroup) (ha : PermGroup.Valid a) (hb : PermGroup.Valid b)

theorem mul_gens_eq : (a.mul b).gens =
    (a.gens.map fun g => g ++ (List.range b.degree).map fun x => x + a.degree) ++
      b.gens.map fun g => tensorArray (List.range a.degree) g := by
  unfold PermGroup.mul tensorArray
  simp

include ha hb in
theorem mul_gens_set : {r : Perm (Fin (a.degree + b.degree)) | arrayOf r ∈ (a.mul b).gens} =
    (fun p => sideBySide a.degree b.degree (p, 1)) '' {p | arrayOf p ∈ a.gens} ∪
      (fun q => sideBySide a.degree b.degree (1, q)) '' {q | arrayOf q ∈ b.gens} := by
  have e1 : ∀ p : Perm (Fin a.degree), arrayOf (sideBySide a.degree b.degree (p, 1)) =
      arrayOf p ++ (List.range b.degree).map fun x => x + a.degree := by
    intro p
    rw [arrayOf_sideBySide, arrayOf_one, tensorArray, arrayOf_length]
  have e2 : ∀ q : Perm (Fin b.degree), arrayOf (sideBySide a.degree b.degree (1, q)) =
      tensorArray (List.range a.degree) (arrayOf q) := by
    intro q
    rw [arrayOf_sideBySide, arrayOf_one]
  ext r
  rw [Set.mem_setOf_eq, mul_gens_eq, List.mem_append, List.mem_map, List.mem_map, Set.mem_union, Set.mem_image, Set.mem_image]
  constructor
  · rintro (⟨l, hl, h⟩ | ⟨l, hl, h⟩)
    · obtain ⟨p, rfl⟩ := ha l hl
      rw [← e1] at h
      exact Or.inl ⟨p, hl, arrayOf_injective h⟩
    · obtain ⟨q, rfl⟩ := hb l hl
      rw [← e2] at h
      exact Or.inr ⟨q, hl, arrayOf_injective h⟩
  · rintro (⟨p, hp, rfl⟩ | ⟨q, hq, rfl⟩)
    · exact Or.inl ⟨arrayOf p, hp, (e1 p).symm⟩
    · exact Or.inr ⟨arrayOf q, hq, (e2 q).symm⟩

include ha hb in
theorem mul_subgroup : PermGroup.subgroup (a.mul b) =
    Subgroup.map (sideBySide a.degree b.degree) ((PermGroup.subgroup a).prod (PermGroup.subgroup b)) := by
  unfold PermGroup.subgroup
  have hset := mul_gens_set a b ha hb
  change Subgroup.closure {r : Perm (Fin (a.degree + b.degree)) | arrayOf r ∈ (a.mul b).gens} = _
  rw [hset, Subgroup.closure_union]
  have f1 : (fun p => sideBySide a.degree b.degree (p, 1)) =
      ((sideBySide a.degree b.degree).comp (MonoidHom.inl _ _) : Perm (Fin a.degree) →* _) := rfl
  have f2 : (fun q => sideBySide a.degree b.degree (1, q)) =
      ((sideBySide a.degree b.degree).comp (MonoidHom.inr _ _) : Perm (Fin b.degree) →* _) := rfl
  rw [f1, f2, ← MonoidHom.map_closure, ← MonoidHom.map_closure]
  apply le_antisymm
  · rw [sup_le_iff]
    constructor
    · rintro _ ⟨p, hp, rfl⟩
      exact ⟨(p, 1), ⟨hp, Subgroup.one_mem _⟩, rfl⟩
    · rintro _ ⟨q, hq, rfl⟩
      exact ⟨(1, q), ⟨Subgroup.one_mem _, hq⟩, rfl⟩
  · rintro _ ⟨⟨p, q⟩, ⟨hp, hq⟩, rfl⟩
    have : sideBySide a.degree b.degree (p, q) = sideBySide a.degree b.degree (p, 1) * sideBySide a.degree b.degree (1, q) := by
      rw [← map_mul, Prod.mk_mul_mk, mul_one, one_mul]
    rw [this]
    exact Subgroup.mul_mem_sup ⟨p, hp, rfl⟩ ⟨q, hq, rfl⟩

theorem members_length {l : List ℕ} (h : l ∈ PermGroup.members a) : l.length = a.degree := by
  obtain ⟨p, -, rfl⟩ := h
  exact arrayOf_length p

include ha hb in
/-- **C94**: the members of `G * H` are the `g @ h` with `g` in `G` and `h` in `H`. -/
theorem C94_members (l : List ℕ) : l ∈ PermGroup.members (a.mul b) ↔
    ∃ p ∈ PermGroup.members a, ∃ q ∈ PermGroup.members b, l = tensorArray p q := by
  have hs := mul_subgroup a b ha hb
  constructor
  · rintro ⟨r, hr, rfl⟩
    rw [hs] at hr
    obtain ⟨⟨p, q⟩, ⟨hp, hq⟩, rfl⟩ := hr
    exact ⟨arrayOf p, ⟨p, hp, rfl⟩, arrayOf q, ⟨q, hq, rfl⟩, arrayOf_sideBySide p q⟩
  · rintro ⟨_, ⟨p, hp, rfl⟩, _, ⟨q, hq, rfl⟩, rfl⟩
    refine ⟨sideBySide a.degree b.degree (p, q), ?_, arrayOf_sideBySide p q⟩
    rw [hs]
    exact ⟨(p, q), ⟨hp, hq⟩, rfl⟩

/-- **C94**: each member of the product is `g @ h` for one pair only. -/
theorem C94_unique {p p' q q' : List ℕ} (hp : p ∈ PermGroup.members a) (hp' : p' ∈ PermGroup.members a)
    (h : tensorArray p q = tensorArray p' q') : p = p' ∧ q = q' :=
  tensorArray_injective (by rw [members_length a hp, members_length a hp']) h

include ha hb in
/-- **C94**: the order of the product is the product of the orders. -/
theorem C94_order : PermGroup.order (a.mul b) = PermGroup.order a * PermGroup.order b := by
  unfold PermGroup.order
  rw [← Nat.card_prod]
  refine Nat.card_congr (Equiv.ofBijective (fun x : PermGroup.members a × PermGroup.members b =>
    (⟨tensorArray x.1 x.2, (C94_members a b ha hb _).2 ⟨_, x.1.2, _, x.2.2, rfl⟩⟩ : PermGroup.members (a.mul b))) ⟨?_, ?_⟩).symm
  · rintro ⟨⟨p, hp⟩, ⟨q, hq⟩⟩ ⟨⟨p', hp'⟩, ⟨q', hq'⟩⟩ h
    have h1 : tensorArray p q = tensorArray p' q' := congrArg Subtype.val h
    obtain ⟨rfl, rfl⟩ := C94_unique a hp hp' h1
    rfl
  · rintro ⟨l, hl⟩
    obtain ⟨p, hp, q, hq, rfl⟩ := (C94_members a b ha hb l).1 hl
    exact ⟨(⟨p, hp⟩, ⟨q, hq⟩), rfl⟩

/-- The order is the number of permutations in the group. -/
theorem order_eq_card : PermGroup.order a = Nat.card (PermGroup.subgroup a) := by
  unfold PermGroup.order
  refine Nat.card_congr (Equiv.ofBijective (fun p : PermGroup.subgroup a => (⟨arrayOf p.1, p.1, p.2, rfl⟩ : PermGroup.members a)) ⟨?_, ?_⟩).symm
  · rintro ⟨p, hp⟩ ⟨q, hq⟩ h
    exact Subtype.ext (arrayOf_injective (congrArg Subtype.val h))
  · rintro ⟨_, p, hp, rfl⟩
    exact ⟨⟨p, hp⟩, rfl⟩

include ha hb in
theorem mul_valid : PermGroup.Valid (a.mul b) := by
  intro l hl
  rw [mul_gens_eq, List.mem_append, List.mem_map, List.mem_map] at hl
  rcases hl with ⟨g, hg, rfl⟩ | ⟨g, hg, rfl⟩
  · obtain ⟨p, rfl⟩ := ha g hg
    refine ⟨sideBySide a.degree b.degree (p, 1), (arrayOf_sideBySide p 1).trans ?_⟩
    rw [arrayOf_one, tensorArray, arrayOf_length]
  · obtain ⟨q, rfl⟩ := hb g hg
    refine ⟨sideBySide a.degree b.degree (1, q), (arrayOf_sideBySide 1 q).trans ?_⟩
    rw [arrayOf_one]

end Product

/-- **C94**: members of the product are multiplied factor by factor. -/
theorem C94_mul (p p' : Perm (Fin n)) (q q' : Perm (Fin m)) :
    arrayMulList (tensorArray (arrayOf p) (arrayOf q)) (tensorArray (arrayOf p') (arrayOf q')) =
      tensorArray (arrayMulList (arrayOf p) (arrayOf p')) (arrayMulList (arrayOf q) (arrayOf q')) := by
  have key : ∀ {k : ℕ} (x y : Perm (Fin k)), arrayMulList (arrayOf x) (arrayOf y) = arrayOf (y * x) := by
    intro k x y
    unfold arrayMulList arrayOf
    rw [List.map_ofFn]
    congr 1
    funext i
    simp [List.getD_eq_getElem?_getD]
  rw [← arrayOf_sideBySide, ← arrayOf_sideBySide, key, key, key, ← arrayOf_sideBySide, ← map_mul, Prod.mk_mul_mk]

/-- **C94**: the product of groups is associative: the groups are the same, with the same generators. -/
theorem C94_assoc (a b c : PermGroup) : (a.mul b).mul c = a.mul (b.mul c) := by
  unfold PermGroup.mul
  simp only [PermGroup.mk.injEq]
  refine ⟨Nat.add_assoc _ _ _, ?_⟩
  simp only [List.map_append, List.map_map, List.append_assoc]
  congr 1
  · apply List.map_congr_left
    intro g _
    simp only [Function.comp, List.append_assoc, List.append_cancel_left_eq]
    rw [List.range_add, List.map_append, List.map_map]
    congr 1
    apply List.map_congr_left
    intro x _
    simp only [Function.comp]
    omega
  · congr 1
    · apply List.map_congr_left
      intro g _
      simp only [Function.comp, List.map_append, List.append_assoc, List.map_map]
      congr 2
      apply List.map_congr_left
      intro x _
      simp only [Function.comp]
      omega
    · apply List.map_congr_left
      intro g _
      simp only [Function.comp, List.map_append, List.map_map]
      rw [List.range_add, List.append_assoc]
      congr 1
      congr 1
      · apply List.map_congr_left
        intro x _
        omega
      · apply List.map_congr_left
        intro x _
        simp only [Function.comp]
        omega

theorem foldl_mul_order : ∀ (gs : List PermGroup) (g : PermGroup), PermGroup.Valid g → (∀ h ∈ gs, PermGroup.Valid h) →
    PermGroup.Valid (gs.foldl PermGroup.mul g) ∧
    PermGroup.order (gs.foldl PermGroup.mul g) = PermGroup.order g * (gs.map PermGroup.order).prod ∧
      (gs.foldl PermGroup.mul g).degree = g.degree + (gs.map PermGroup.degree).sum
  | [], g, hg, _ => ⟨hg, by simp, by simp⟩
  | h :: gs, g, hg, hgs => by
    obtain ⟨h1, h2, h3⟩ := foldl_mul_order gs (g.mul h) (mul_valid g h hg (hgs h (by simp))) fun k hk => hgs k (by simp [hk])
    refine ⟨h1, ?_, ?_⟩
    · rw [List.foldl_cons, h2, C94_order g h hg (hgs h (by simp)), List.map_cons, List.prod_cons, mul_assoc]
    · rw [List.foldl_cons, h3, List.map_cons, List.sum_cons, ← add_assoc]
      rfl

/-- **C94** for powers: `group ** k` has `order ** k` members on `k` times as many points; a power that is not positive is
refused. -/
theorem C94_pow (g : PermGroup) (hg : PermGroup.Valid g) (k : ℤ) :
    (k ≤ 0 → g.pow k = .error "AssertionError") ∧
    (0 < k → ∃ h, g.pow k = .ok h ∧ PermGroup.Valid h ∧ PermGroup.order h = PermGroup.order g ^ k.toNat ∧
      h.degree = k.toNat * g.degree) := by
  constructor
  · intro hk
    unfold PermGroup.pow
    rw [if_neg (by omega)]
  · intro hk
    obtain ⟨j, hj⟩ : ∃ j, k.toNat = j + 1 := ⟨k.toNat - 1, by omega⟩
    obtain ⟨h1, h2, h3⟩ := foldl_mul_order (List.replicate j g) g hg fun h hh => by rwa [List.eq_of_mem_replicate hh]
    refine ⟨(List.replicate j g).foldl PermGroup.mul g, ?_, h1, ?_, ?_⟩
    · unfold PermGroup.pow
      rw [if_pos hk, hj, List.replicate_succ]
      rfl
    · rw [h2, List.map_replicate, List.prod_replicate, hj, pow_succ']
    · rw [h3, List.map_replicate, List.sum_replicate, hj, smul_eq_mul]
      ring

theorem prod_map_flatten_replicate (groups : List PermGroup) (k : ℕ) :
    ((List.replicate k groups).flatten.map PermGroup.order).prod = (groups.map PermGroup.order).prod ^ k := by
  induction k with
  | zero => simp
  | succ k ih => rw [List.replicate_succ, List.flatten_cons, List.map_append, List.prod_append, ih, pow_succ']

/-- **C94** for `Group.product`: without factors there is a `TypeError`; otherwise the order is the product of the orders, to
the power of the number of repetitions. -/
theorem C94_product (groups : List PermGroup) (hg : ∀ g ∈ groups, PermGroup.Valid g) (k : ℤ) :
    ((groups = [] ∨ k ≤ 0) → PermGroup.product groups k = .error "TypeError") ∧
    (groups ≠ [] → 0 < k → ∃ h, PermGroup.product groups k = .ok h ∧ PermGroup.Valid h ∧
      PermGroup.order h = (groups.map PermGroup.order).prod ^ k.toNat) := by
  constructor
  · rintro (rfl | hk)
    · unfold PermGroup.product
      have : (List.replicate k.toNat ([] : List PermGroup)).flatten = [] := by
        rw [List.flatten_eq_nil_iff]
        intro l hl
        exact List.eq_of_mem_replicate hl
      rw [this]
      rfl
    · unfold PermGroup.product
      rw [show k.toNat = 0 by omega]
      rfl
  · intro hne hk
    have hmem : ∀ h ∈ (List.replicate k.toNat groups).flatten, PermGroup.Valid h := by
      intro h hh
      obtain ⟨l, hl, hh⟩ := List.mem_flatten.1 hh
      rw [List.eq_of_mem_replicate hl] at hh
      exact hg h hh
    have hp := prod_map_flatten_replicate groups k.toNat
    unfold PermGroup.product
    cases hL : (List.replicate k.toNat groups).flatten with
    | nil =>
      exfalso
      rw [List.flatten_eq_nil_iff] at hL
      exact hne (hL groups (List.mem_replicate.2 ⟨by omega, rfl⟩))
    | cons g gs =>
      rw [hL] at hmem hp
      obtain ⟨h1, h2, -⟩ := foldl_mul_order gs g (hmem g (by simp)) fun h hh => hmem h (by simp [hh])
      exact ⟨_, rfl, h1, by rw [h2, ← hp, List.map_cons, List.prod_cons]⟩

section Examples

/-- The symmetric group on three points. -/
private def sym3 : PermGroup := ⟨3, [[1, 0, 2], [1, 2, 0]]⟩

private theorem sym3_valid : PermGroup.Valid sym3 := by
  intro l hl
  simp only [sym3, List.mem_cons, List.not_mem_nil, or_false] at hl
  rcases hl with rfl | rfl
  · exact ⟨(Equiv.swap 0 1 : Perm (Fin 3)), by decide +kernel⟩
  · exact ⟨(Equiv.swap 0 1 * Equiv.swap 1 2 : Perm (Fin 3)), by decide +kernel⟩

example : PermGroup.Valid sym3 := sym3_valid
example : (sym3.mul sym3).gens = [[1, 0, 2, 3, 4, 5], [1, 2, 0, 3, 4, 5], [0, 1, 2, 4, 3, 5], [0, 1, 2, 4, 5, 3]] := by decide
example : tensorArray [1, 0, 2] [1, 2, 0] ∈ PermGroup.members (sym3.mul sym3) :=
  (C94_members sym3 sym3 sym3_valid sym3_valid _).2
    ⟨[1, 0, 2], ⟨(Equiv.swap 0 1 : Perm (Fin 3)), Subgroup.subset_closure (show arrayOf _ ∈ sym3.gens by decide +kernel),
      by decide +kernel⟩, [1, 2, 0], ⟨(Equiv.swap 0 1 * Equiv.swap 1 2 : Perm (Fin 3)),
        Subgroup.subset_closure (show arrayOf _ ∈ sym3.gens by decide +kernel), by decide +kernel⟩, rfl⟩

end Examples

#print axioms C94_members
#print axioms C94_unique
#print axioms C94_order
#print axioms C94_mul
#print axioms C94_assoc
#print axioms C94_pow
#print axioms C94_product

/-! ### Instances of the theorems: concrete cases meet the hypotheses -/

example := C94_order sym3 sym3 sym3_valid sym3_valid
example := C94_pow sym3 sym3_valid 3
example := C94_product [sym3, sym3] (by simp [sym3_valid]) 2
private theorem sym3_mem : [1, 0, 2] ∈ PermGroup.members sym3 :=
  ⟨(Equiv.swap 0 1 : Perm (Fin 3)), Subgroup.subset_closure (show arrayOf _ ∈ sym3.gens by decide +kernel), by decide +kernel⟩
example := C94_unique sym3 sym3_mem sym3_mem (q := [0, 1]) (q' := [0, 1]) rfl

end QLDPC.Props
