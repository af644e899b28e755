import Verif.Lemmas.Groups
import Verif.Lemmas.InvRows
import Mathlib.Algebra.Field.ZMod
import Mathlib.Algebra.Group.TypeTags.Finite
import Mathlib.Data.Fintype.Perm

/-!
# C35 - C39: lifts of groups, group algebras, equality of groups
-/

namespace QLDPC.Props

open QLDPC QLDPC.Spec Matrix

set_option linter.unusedSectionVars false

/-! ### C35 -/

section C35

variable {G : Type} [Group G] [DecidableEq G] {members : List G}

/-- **C35**: the regular lift is multiplicative. -/
theorem C35_regular_mul (hnd : members.Nodup) (hall : ∀ g, g ∈ members) (g h : G) :
    regularLift members (g * h) = regularLift members g * regularLift members h := by
  ext i j
  rw [regularLift_apply hnd, Matrix.mul_apply]
  have key : ∀ k : Fin members.length, regularLift members g i k * regularLift members h k j =
      if k = (memberEquiv hnd hall).symm (h * members.get j) then
        (if members.get i = g * h * members.get j then 1 else 0) else 0 := by
    intro k
    rw [regularLift_apply hnd, regularLift_apply hnd]
    by_cases hk : members.get k = h * members.get j
    · have : k = (memberEquiv hnd hall).symm (h * members.get j) := by
        rw [Equiv.eq_symm_apply, memberEquiv_apply, hk]
      rw [if_pos this, if_pos hk, mul_one, hk, mul_assoc]
    · have : k ≠ (memberEquiv hnd hall).symm (h * members.get j) := by
        rw [Ne, Equiv.eq_symm_apply, memberEquiv_apply]
        exact hk
      rw [if_neg this, if_neg hk, mul_zero]
  rw [Finset.sum_congr rfl fun k _ => key k]
  simp

/-- C35: the identity is lifted to the identity matrix. -/
theorem C35_regular_one (hnd : members.Nodup) : regularLift members (1 : G) = 1 := by
  ext i j
  rw [regularLift_apply hnd, Matrix.one_apply, one_mul]
  congr 1
  exact propext (List.Nodup.get_inj_iff hnd)

/-- C35: the inverse is lifted to the transpose. -/
theorem C35_regular_inv (hnd : members.Nodup) (g : G) :
    regularLift members g⁻¹ = (regularLift members g)ᵀ := by
  ext i j
  rw [Matrix.transpose_apply, regularLift_apply hnd, regularLift_apply hnd]
  congr 1
  rw [eq_inv_mul_iff_mul_eq]
  exact propext ⟨Eq.symm, Eq.symm⟩

/-- C35: different members have different lifts. -/
theorem C35_regular_injective (hnd : members.Nodup) (hall : ∀ g, g ∈ members) (g h : G)
    (heq : regularLift members g = regularLift members h) : g = h := by
  set j := (memberEquiv hnd hall).symm 1
  set i := (memberEquiv hnd hall).symm g
  have hj : members.get j = 1 := by rw [← memberEquiv_apply hnd hall, Equiv.apply_symm_apply]
  have hi : members.get i = g := by rw [← memberEquiv_apply hnd hall, Equiv.apply_symm_apply]
  have := congrFun (congrFun heq i) j
  rw [regularLift_apply hnd, regularLift_apply hnd, hi, hj, mul_one, mul_one, if_pos rfl] at this
  by_contra hne
  rw [if_neg hne] at this
  exact one_ne_zero this

variable {n : ℕ}

/-- **C35**: permutation matrices are multiplicative for the product of sympy. -/
theorem C35_perm_mul (p q : Equiv.Perm (Fin n)) :
    permMatrix (sympyMul p q) = permMatrix p * permMatrix q := by
  ext i j
  rw [Matrix.mul_apply, Finset.sum_eq_single (p i)]
  · simp [permMatrix, sympyMul]
    try rfl
  · intro k _ hk
    simp [permMatrix, Ne.symm hk]
  · simp

/-- C35: identity and inverse of permutation matrices. -/
theorem C35_perm_one_inv (p : Equiv.Perm (Fin n)) :
    permMatrix (1 : Equiv.Perm (Fin n)) = 1 ∧ permMatrix p⁻¹ = (permMatrix p)ᵀ := by
  refine ⟨?_, ?_⟩
  · ext i j
    simp only [permMatrix, Matrix.one_apply, Equiv.Perm.coe_one, id_eq]
    try congr
  · ext i j
    rw [Matrix.transpose_apply]
    unfold permMatrix
    congr 1
    rw [Equiv.Perm.inv_eq_iff_eq]
    exact propext ⟨Eq.symm, Eq.symm⟩

/-- C35: the matrix moves the entry at `i` of a row vector to `p i`. -/
theorem C35_perm_acts (p : Equiv.Perm (Fin n)) (v : Fin n → ℤ) (i : Fin n) : (v ᵥ* permMatrix p) (p i) = v i := by
  rw [Matrix.vecMul, dotProduct, Finset.sum_eq_single i]
  · simp [permMatrix]
  · intro k _ hk
    simp [permMatrix, hk]
  · simp

/-- C35: `p @ q` acts as `p` on the first points and as `q` on the others. -/
theorem C35_tensor (p q : List ℕ) (i : ℕ) :
    (tensorArray p q)[i]? = if i < p.length then p[i]? else (q[i - p.length]?).map fun v => v + p.length := by
  unfold tensorArray
  by_cases h : i < p.length
  · rw [List.getElem?_append_left h, if_pos h]
  · rw [List.getElem?_append_right (by omega), if_neg h, List.getElem?_map]

end C35

/-- The symmetric group on three points: the regular lift of two members that do not commute. -/
example : regularLift (Finset.univ.toList : List (Equiv.Perm (Fin 3))) (Equiv.swap 0 1 * Equiv.swap 1 2) ≠
    regularLift _ (Equiv.swap 1 2 * Equiv.swap 0 1) := by
  intro h
  exact absurd (C35_regular_injective (Finset.nodup_toList _) (by simp) _ _ h) (by decide)
example : permMatrix (sympyMul (Equiv.swap (0 : Fin 3) 1) (Equiv.swap 1 2)) = !![0, 0, 1; 1, 0, 0; 0, 1, 0] := by
  decide +kernel

/-! ### C36, C37, C38 -/

variable {F G : Type} [Field F] [DecidableEq F] [Group G] [DecidableEq G] [Fintype G]

open RMember

/-- **C36**: `L` is multiplicative on the group. -/
structure IsRep {d : ℕ} (L : G → Matrix (Fin d) (Fin d) F) : Prop where
  mul : ∀ g h, L (g * h) = L g * L h
  one : L 1 = 1

theorem C36_add {d : ℕ} (L : G → Matrix (Fin d) (Fin d) F) {x y : RMember F G} (hx : x.Ok) (hy : y.Ok) :
    (x.add y).lift L = x.lift L + y.lift L := by
  rw [lift_eq L (ok_add x y), lift_eq L hx, lift_eq L hy, ← Finset.sum_add_distrib]
  exact Finset.sum_congr rfl fun g _ => by rw [get_add hx hy, add_smul]

theorem C36_mul {d : ℕ} {L : G → Matrix (Fin d) (Fin d) F} (hL : IsRep L) {x y : RMember F G} (hx : x.Ok) (hy : y.Ok) :
    (x.mul y).lift L = x.lift L * y.lift L := by
  rw [lift_eq L (ok_mul x y), lift_eq L hx, lift_eq L hy, Finset.sum_mul]
  simp only [Finset.mul_sum]
  have h1 : ∀ h, ∑ k, get x h • L h * get y k • L k = ∑ g, (get x h * get y (h⁻¹ * g)) • L g := by
    intro h
    refine Fintype.sum_equiv (Equiv.mulLeft h) _ _ fun k => ?_
    rw [Equiv.coe_mulLeft, inv_mul_cancel_left, hL.mul, Matrix.smul_mul, Matrix.mul_smul, smul_smul]
  rw [Finset.sum_congr rfl fun h _ => h1 h, Finset.sum_comm]
  refine Finset.sum_congr rfl fun g _ => ?_
  rw [get_mul hx hy, Finset.sum_smul]

theorem C36_one {d : ℕ} {L : G → Matrix (Fin d) (Fin d) F} (hL : IsRep L) : (one : RMember F G).lift L = 1 := by
  rw [lift_eq L ok_one, Finset.sum_eq_single 1]
  · rw [get_one, if_pos rfl, one_smul, hL.one]
  · intro g _ hg
    rw [get_one, if_neg hg, zero_smul]
  · simp

theorem C36_scalar {d : ℕ} (L : G → Matrix (Fin d) (Fin d) F) {x : RMember F G} (hx : x.Ok) (m : ℤ) :
    (x.mulInt m).lift L = (m : F) • x.lift L := by
  rw [lift_eq L (ok_mulInt x m), lift_eq L hx, Finset.smul_sum]
  exact Finset.sum_congr rfl fun g _ => by rw [get_mulInt hx, mul_comm, smul_smul]

/-- C36: products with a group member on either side. -/
theorem C36_member {d : ℕ} {L : G → Matrix (Fin d) (Fin d) F} (hL : IsRep L) {x : RMember F G} (hx : x.Ok) (g : G) :
    (x.mulMember g).lift L = x.lift L * L g ∧ (memberMul g x).lift L = L g * x.lift L := by
  constructor
  · rw [lift_eq L (ok_mulMember x g), lift_eq L hx, Finset.sum_mul]
    refine (Fintype.sum_equiv (Equiv.mulRight g) _ _ fun k => ?_).symm
    rw [get_mulMember hx, Equiv.coe_mulRight, mul_inv_cancel_right, hL.mul, Matrix.smul_mul]
  · rw [lift_eq L (ok_memberMul x g), lift_eq L hx, Finset.mul_sum]
    refine (Fintype.sum_equiv (Equiv.mulLeft g) _ _ fun k => ?_).symm
    rw [get_memberMul hx, Equiv.coe_mulLeft, inv_mul_cancel_left, hL.mul, Matrix.mul_smul]

/-- **C36**: `lift(x.T) = lift(x).T` if the group lift sends inverses to transposes. -/
theorem C36_transpose {d : ℕ} {L : G → Matrix (Fin d) (Fin d) F} (horth : ∀ g, L g⁻¹ = (L g)ᵀ) {x : RMember F G}
    (hx : x.Ok) : x.transpose.lift L = (x.lift L)ᵀ := by
  rw [lift_eq L (ok_transpose x), lift_eq L hx, Matrix.transpose_sum]
  refine Fintype.sum_equiv (Equiv.inv G) _ _ fun k => ?_
  rw [get_transpose hx, Equiv.inv_apply, Matrix.transpose_smul, horth, Matrix.transpose_transpose]

/-- C36: the regular lift, with entries in the field, qualifies. -/
theorem C36_regular {members : List G} (hnd : members.Nodup) (hall : ∀ g, g ∈ members) :
    IsRep (fun g => (regularLift members g).map fun v : ℤ => (v : F)) ∧
      ∀ g : G, (regularLift members g⁻¹).map (fun v : ℤ => (v : F)) =
        ((regularLift members g).map fun v : ℤ => (v : F))ᵀ := by
  refine ⟨⟨fun g h => ?_, ?_⟩, fun g => ?_⟩
  · show (regularLift members (g * h)).map _ = _
    rw [C35_regular_mul hnd hall]
    exact Matrix.map_mul (f := Int.castRingHom F)
  · show (regularLift members 1).map _ = _
    rw [C35_regular_one hnd]
    exact Matrix.map_one (Int.castRingHom F) Int.cast_zero Int.cast_one
  · rw [C35_regular_inv hnd, Matrix.transpose_map]

/-- **C37**: the operations on ring members are those of the group algebra. -/
theorem C37_operations {x y : RMember F G} (hx : x.Ok) (hy : y.Ok) :
    (x.add y).val = x.val + y.val ∧ (x.sub y).val = x.val - y.val ∧ x.neg.val = -x.val ∧
      (x.mul y).val = x.val * y.val ∧ (zero : RMember F G).val = 0 ∧ (one : RMember F G).val = 1 ∧
      (∀ m : ℤ, (x.mulInt m).val = m • x.val) ∧ (∀ m : ℤ, (x.addInt m).val = x.val + m) ∧
      (∀ g, (x.addMember g).val = x.val + GAlg.single g) ∧
      (∀ g, (x.mulMember g).val = x.val * GAlg.single g) ∧ (∀ g, (memberMul g x).val = GAlg.single g * x.val) ∧
      x.transpose.val = x.val.transpose ∧ x.copy.val = x.val := by
  refine ⟨?_, ?_, ?_, ?_, rfl, ?_, fun m => ?_, fun m => ?_, fun g => ?_, fun g => ?_, fun g => ?_, ?_, ?_⟩
  · exact funext fun g => get_add hx hy g
  · funext g
    show get (add x (mulInt y (-1))) g = get x g - get y g
    rw [get_add hx (ok_mulInt _ _), get_mulInt hy]
    push_cast
    ring
  · funext g
    show get (mulInt x (-1)) g = - get x g
    rw [get_mulInt hx]
    push_cast
    ring
  · exact funext fun g => get_mul hx hy g
  · exact funext fun g => get_one g
  · funext g
    show get (mulInt x m) g = m • get x g
    rw [get_mulInt hx, zsmul_eq_mul, mul_comm]
  · funext g
    show get (add x (mulInt one m)) g = get x g + if g = 1 then (m : F) else 0
    rw [get_add hx (ok_mulInt _ _), get_mulInt ok_one, get_one]
    split <;> simp
  · funext h
    show get (addAt (copy x) g 1) h = get x h + if h = g then 1 else 0
    rw [get_addAt, get_copy hx]
    simp [eq_comm]
  · funext h
    show get (mulMember x g) h = ∑ k, get x k * if k⁻¹ * h = g then 1 else 0
    rw [get_mulMember hx, Finset.sum_eq_single (h * g⁻¹)]
    · simp
    · intro k _ hk
      rw [if_neg, mul_zero]
      rintro rfl
      exact hk (by simp)
    · simp
  · funext h
    show get (memberMul g x) h = ∑ k, (if k = g then 1 else 0) * get x (k⁻¹ * h)
    rw [get_memberMul hx, Finset.sum_eq_single g]
    · simp
    · intro k _ hk
      simp [hk]
    · simp
  · exact funext fun g => get_transpose hx g
  · exact funext fun g => get_copy hx g

/-- C37: every operation returns a dictionary with distinct keys, so that the theorems can be applied again. -/
theorem C37_closed (x y : RMember F G) : (x.add y).Ok ∧ (x.sub y).Ok ∧ x.neg.Ok ∧ (x.mul y).Ok ∧
    (zero : RMember F G).Ok ∧ (one : RMember F G).Ok ∧ (∀ m : ℤ, (x.mulInt m).Ok) ∧ (∀ m : ℤ, (x.addInt m).Ok) ∧
    (∀ g, (x.addMember g).Ok) ∧ (∀ g, (x.mulMember g).Ok) ∧ (∀ g, (memberMul g x).Ok) ∧ x.transpose.Ok ∧ x.copy.Ok ∧
    (∀ terms : List (F × G), (ofTerms terms).Ok) :=
  ⟨ok_add _ _, ok_add _ _, ok_mulInt _ _, ok_mul _ _, ok_zero, ok_one, ok_mulInt _, fun _ => ok_add _ _,
    fun _ => (ok_copy x).addAt _ _, ok_mulMember _, ok_memberMul _, ok_transpose _, ok_copy _, ok_ofTerms⟩

/-- **C37**: equality is equality of all coefficients; `bool` is false exactly for zero. -/
theorem C37_equality (x y : RMember F G) (hx : x.Ok) :
    (x.beq y = true ↔ x.val = y.val) ∧ (x.toBool = true ↔ x.val ≠ 0) := by
  constructor
  · unfold beq
    rw [Bool.and_eq_true, List.all_eq_true, List.all_eq_true]
    constructor
    · rintro ⟨h1, h2⟩
      funext g
      show get x g = get y g
      by_cases hg : g ∈ x.map Prod.fst
      · obtain ⟨e, he, rfl⟩ := List.mem_map.1 hg
        simpa using h1 e he
      · by_cases hg' : g ∈ y.map Prod.fst
        · obtain ⟨e, he, rfl⟩ := List.mem_map.1 hg'
          simpa using h2 e he
        · rw [get_of_notMem hg, get_of_notMem hg']
    · intro h
      have h' : ∀ g, get x g = get y g := fun g => congrFun h g
      exact ⟨fun e _ => by simp [h'], fun e _ => by simp [h']⟩
  · unfold RMember.toBool
    rw [List.any_eq_true]
    constructor
    · rintro ⟨e, he, hne⟩ h0
      have h1 : get x e.1 = 0 := congrFun h0 e.1
      have h2 : get x e.1 = e.2 := by
        clear h0 h1 hne
        induction x with
        | nil => simp at he
        | cons a x ih =>
          have hx' := List.nodup_cons.1 hx
          rw [get_cons]
          rcases List.mem_cons.1 he with rfl | he
          · simp
          · rw [if_neg, ih hx'.2 he]
            intro hae
            exact hx'.1 (by rw [hae]; exact List.mem_map_of_mem he)
      rw [h1] at h2
      simp [← h2] at hne
    · intro hne
      by_contra hno
      push Not at hno
      apply hne
      funext g
      show get x g = 0
      unfold RMember.get
      cases hf : x.find? fun e => e.1 = g with
      | none => rfl
      | some e =>
        have := hno e (List.mem_of_find?_eq_some hf)
        simpa using this

/-- **C37**: the ring laws, for the equality of ring members. -/
theorem C37_ring_laws {x y z : RMember F G} (hx : x.Ok) (hy : y.Ok) (hz : z.Ok) :
    beq ((x.add y).add z) (x.add (y.add z)) = true ∧ beq (x.add y) (y.add x) = true ∧
      beq (x.add zero) x = true ∧ beq (x.sub x) zero = true ∧
      beq ((x.mul y).mul z) (x.mul (y.mul z)) = true ∧ beq (x.mul one) x = true ∧ beq (one.mul x) x = true ∧
      beq (x.mul (y.add z)) ((x.mul y).add (x.mul z)) = true ∧
      beq ((x.add y).mul z) ((x.mul z).add (y.mul z)) = true ∧
      beq ((x.mul y).transpose) (y.transpose.mul x.transpose) = true := by
  have oa := @ok_add F G _ _ _ _
  have om := @ok_mul F G _ _ _ _
  have va := fun {a b : RMember F G} (ha : a.Ok) (hb : b.Ok) => (C37_operations ha hb).1
  have vm := fun {a b : RMember F G} (ha : a.Ok) (hb : b.Ok) => (C37_operations ha hb).2.2.2.1
  have v0 : (zero : RMember F G).val = 0 := rfl
  have v1 : (one : RMember F G).val = 1 := (C37_operations hx hx).2.2.2.2.2.1
  have vt := fun {a : RMember F G} (ha : a.Ok) => (C37_operations ha ha).2.2.2.2.2.2.2.2.2.2.2.1
  refine ⟨?_, ?_, ?_, ?_, ?_, ?_, ?_, ?_, ?_, ?_⟩
  · rw [(C37_equality _ _ (oa _ _)).1, va (oa _ _) hz, va hx hy, va hx (oa _ _), va hy hz, add_assoc]
  · rw [(C37_equality _ _ (oa _ _)).1, va hx hy, va hy hx, add_comm]
  · rw [(C37_equality _ _ (oa _ _)).1, va hx ok_zero, v0, add_zero]
  · rw [(C37_equality _ _ (show (x.sub x).Ok from oa _ _)).1, (C37_operations hx hx).2.1, v0, sub_self]
  · rw [(C37_equality _ _ (om _ _)).1, vm (om _ _) hz, vm hx hy, vm hx (om _ _), vm hy hz, mul_assoc]
  · rw [(C37_equality _ _ (om _ _)).1, vm hx ok_one, v1, mul_one]
  · rw [(C37_equality _ _ (om _ _)).1, vm ok_one hx, v1, one_mul]
  · rw [(C37_equality _ _ (om _ _)).1, vm hx (oa _ _), va hy hz, va (om _ _) (om _ _), vm hx hy, vm hx hz, mul_add]
  · rw [(C37_equality _ _ (om _ _)).1, vm (oa _ _) hz, va hx hy, va (om _ _) (om _ _), vm hx hz, vm hy hz, add_mul]
  · rw [(C37_equality _ _ (ok_transpose _)).1, vt (om _ _), vm hx hy, vm (ok_transpose _) (ok_transpose _), vt hx, vt hy,
      GAlg.transpose_mul]

/-- **C37**: powers with a nonnegative exponent are iterated products. -/
theorem C37_power {x : RMember F G} (hx : x.Ok) (k : ℕ) : (x.pow k).Ok ∧ (x.pow k).val = x.val ^ k := by
  have h1 : (one : RMember F G).val = 1 := (C37_operations hx hx).2.2.2.2.2.1
  have key : ∀ (k : ℕ) (z : RMember F G), z.Ok →
      ((List.replicate k x).foldl mul z).Ok ∧ ((List.replicate k x).foldl mul z).val = z.val * x.val ^ k := by
    intro k
    induction k with
    | zero =>
      intro z hz
      exact ⟨hz, by simp⟩
    | succ k ih =>
      intro z hz
      rw [List.replicate_succ, List.foldl_cons]
      obtain ⟨a, b⟩ := ih (z.mul x) (ok_mul _ _)
      refine ⟨a, ?_⟩
      rw [b, (C37_operations hz hx).2.2.2.1, mul_assoc, ← pow_succ']
  have := key k one ok_one
  rw [h1, one_mul] at this
  exact this

/-- C37, disagreement: negative powers are one, not powers of the inverse. -/
theorem C37_negative_power_disagreement (x : RMember F G) (k : ℕ) : x.pow (-(k + 1 : ℕ)) = RMember.one := by
  have : (-((k + 1 : ℕ) : ℤ)).toNat = 0 := by omega
  unfold pow
  rw [this]
  rfl

theorem fromVector_get {members : List G} (hnd : members.Nodup) (v : List F) (hv : v.length = members.length)
    (i : ℕ) (hi : i < members.length) : get (fromVector members v) members[i] = v[i] := by
  unfold fromVector
  rw [get_ofTerms]
  have h1 : ∀ l : List (F × G), ((l.filter fun e => e.1 ≠ 0).map fun t => if t.2 = members[i] then t.1 else 0).sum =
      (l.map fun t => if t.2 = members[i] then t.1 else 0).sum := by
    intro l
    induction l with
    | nil => rfl
    | cons e l ih =>
      by_cases h : e.1 = 0
      · rw [List.filter_cons_of_neg (by simpa using h), ih, List.map_cons, List.sum_cons]
        simp [h]
      · rw [List.filter_cons_of_pos (by simpa using h), List.map_cons, List.map_cons, List.sum_cons, List.sum_cons, ih]
  rw [h1]
  clear h1
  induction members generalizing v i with
  | nil => simp at hi
  | cons m ms ih =>
    cases v with
    | nil => simp at hv
    | cons a v =>
      have hnd' := List.nodup_cons.1 hnd
      rw [List.zip_cons_cons, List.map_cons, List.sum_cons]
      cases i with
      | zero =>
        have hz : ∀ t ∈ v.zip ms, (if t.2 = m then t.1 else 0) = 0 := by
          intro t ht
          rw [if_neg]
          intro h
          exact hnd'.1 (h ▸ (List.of_mem_zip (a := t.1) (b := t.2) ht).2)
        have hz' := List.map_congr_left hz
        simp only [List.getElem_cons_zero]
        rw [hz']
        simp
      | succ i =>
        have hne : m ≠ (m :: ms)[i + 1] := by
          intro h
          exact hnd'.1 (h ▸ List.getElem_mem _)
        have := ih hnd'.2 v (by simpa using hv) i (by simpa using hi)
        simp only [List.getElem_cons_succ] at hne ⊢
        rw [if_neg hne, zero_add, this]

/-- **C37**: `from_vector` has the given coefficients. -/
theorem C37_from_vector {members : List G} (hnd : members.Nodup) (v : List F) (hv : v.length = members.length) :
    (fromVector members v).Ok ∧ ∀ i (hi : i < members.length), (fromVector members v).val.coef members[i] = v[i] :=
  ⟨ok_ofTerms _, fun i hi => fromVector_get hnd v hv i hi⟩

theorem toVector_eq {members : List G} (hnd : members.Nodup) (hall : ∀ g, g ∈ members) (x : RMember F G) (hx : x.Ok) :
    toVector members x = some (members.map fun g => get x g) := by
  have key : ∀ (x : RMember F G), x.Ok → ∀ (f : G → F),
      x.foldlM (fun v e => (memberIndex members e.1).bind fun i =>
        if i < v.length then some (v.set i e.2) else none) (members.map f) =
      some (members.map fun g => if g ∈ x.map Prod.fst then get x g else f g) := by
    intro x
    induction x with
    | nil =>
      intro _ f
      simp
    | cons e x ih =>
      intro hx f
      have hx' := List.nodup_cons.1 hx
      obtain ⟨i, hi, hie⟩ := List.mem_iff_getElem.1 (hall e.1)
      have hidx : memberIndex members e.1 = some i := (memberIndex_eq hnd).2 (by rw [List.getElem?_eq_getElem hi, hie])
      have hset : (members.map f).set i e.2 = members.map fun g => if g = e.1 then e.2 else f g := by
        refine List.ext_getElem (by simp) fun k h1 h2 => ?_
        rw [List.getElem_set, List.getElem_map, List.getElem_map]
        have hk : k < members.length := by simpa using h2
        by_cases hki : i = k
        · subst hki
          simp [hie]
        · rw [if_neg hki, if_neg]
          intro h
          exact hki ((List.Nodup.getElem_inj_iff hnd).1 (h.trans hie.symm)).symm
      rw [List.foldlM_cons]
      simp only [hidx, Option.bind_some, List.length_map, hi, if_true, Option.bind_eq_bind]
      rw [hset, ih hx'.2]
      congr 1
      refine List.map_congr_left fun g _ => ?_
      rw [get_cons, List.map_cons]
      by_cases h1 : g ∈ x.map Prod.fst
      · have h2 : e.1 ≠ g := fun h => hx'.1 (h ▸ h1)
        simp [h1, h2]
      · by_cases h2 : e.1 = g
        · subst h2
          simp [h1]
        · simp [h1, h2, Ne.symm h2]
  unfold toVector
  have h0 : List.replicate members.length (0 : F) = members.map fun _ => 0 := by
    rw [List.map_const']
  rw [h0, key x hx]
  congr 1
  refine List.map_congr_left fun g _ => ?_
  split
  · rfl
  · rename_i h
    rw [get_of_notMem h]

/-- **C37**: `from_vector` and `to_vector` are inverse to each other. -/
theorem C37_vectors {members : List G} (hnd : members.Nodup) (hall : ∀ g, g ∈ members) (v : List F)
    (hv : v.length = members.length) (x : RMember F G) (hx : x.Ok) :
    toVector members (fromVector members v) = some v ∧
      ∃ w, toVector members x = some w ∧ beq (fromVector members w) x = true := by
  constructor
  · rw [toVector_eq hnd hall (fromVector members v) (ok_ofTerms _)]
    congr 1
    refine List.ext_getElem (by simp [hv]) fun i h1 h2 => ?_
    rw [List.getElem_map]
    exact fromVector_get hnd v hv i _
  · refine ⟨_, toVector_eq hnd hall x hx, ?_⟩
    rw [(C37_equality (fromVector members _) _ (ok_ofTerms _)).1]
    funext g
    obtain ⟨i, hi, rfl⟩ := List.mem_iff_getElem.1 (hall g)
    show get _ _ = get _ _
    rw [fromVector_get hnd _ (by simp) i hi, List.getElem_map]

/-- `(1 + 2 (0 1))²` over the field with three elements; terms with coefficient zero do not matter. -/
example : RMember.beq (F := ZMod 3) (G := Equiv.Perm (Fin 3))
    (RMember.pow [(Equiv.swap 0 1, 2), (1, 1)] 2) [(1, 2), (Equiv.swap 1 2, 0), (Equiv.swap 0 1, 1)] = true := by
  decide +kernel

section C38

variable {members : List G}

theorem regLift_apply (hnd : members.Nodup) (hall : ∀ g, g ∈ members) {x : RMember F G} (hx : x.Ok)
    (i j : Fin members.length) : regLift members x i j = get x (members.get i * (members.get j)⁻¹) := by
  unfold regLift
  rw [lift_eq _ hx, Matrix.sum_apply, Finset.sum_eq_single (members.get i * (members.get j)⁻¹)]
  · rw [Matrix.smul_apply, Matrix.map_apply, regularLift_apply hnd, if_pos (by group)]
    simp
  · intro g _ hg
    rw [Matrix.smul_apply, Matrix.map_apply, regularLift_apply hnd, if_neg]
    · simp
    · rintro h
      exact hg (by rw [h]; group)
  · simp

/-- The product with `x` on vectors of coefficients. -/
theorem regLift_mulVec (hnd : members.Nodup) (hall : ∀ g, g ∈ members) {x : RMember F G} (hx : x.Ok) (y : GAlg F G)
    (i : Fin members.length) :
    (regLift members x *ᵥ fun j => y.coef (members.get j)) i = (x.val * y).coef (members.get i) := by
  rw [GAlg.coef_mul, Matrix.mulVec, dotProduct]
  set e : Fin members.length ≃ G :=
    (memberEquiv hnd hall).trans ((Equiv.inv G).trans (Equiv.mulLeft (members.get i)))
  refine Fintype.sum_equiv e _ _ fun j => ?_
  have he : e j = members.get i * (members.get j)⁻¹ := rfl
  rw [regLift_apply hnd hall hx, he]
  congr 2
  group

theorem coef_ext (hall : ∀ g, g ∈ members) {y z : GAlg F G}
    (h : ∀ i : Fin members.length, y.coef (members.get i) = z.coef (members.get i)) : y = z := by
  funext g
  obtain ⟨i, hi, rfl⟩ := List.mem_iff_getElem.1 (hall g)
  exact h ⟨i, hi⟩

/-- In the group algebra of a finite group every one-sided inverse is two-sided. -/
theorem galg_mul_comm_one (x y : GAlg F G) (h : x * y = 1) : y * x = 1 := by
  have hlin : Function.Surjective fun z : G → F => (x * (show GAlg F G from z) : GAlg F G) := by
    intro z
    exact ⟨(y * (show GAlg F G from z) : GAlg F G), by
      show x * (y * (show GAlg F G from z)) = z
      rw [← mul_assoc, h, one_mul]⟩
  let f : (G → F) →ₗ[F] (G → F) :=
    { toFun := fun z => (x * (show GAlg F G from z) : GAlg F G)
      map_add' := fun a b => mul_add x _ _
      map_smul' := fun c a => by
        funext g
        show (x * _ : GAlg F G).coef g = c • (x * _ : GAlg F G).coef g
        rw [GAlg.coef_mul, GAlg.coef_mul, Finset.smul_sum]
        refine Finset.sum_congr rfl fun k _ => ?_
        show x.coef k * (c * a _) = c * (x.coef k * a _)
        ring }
  have hi : Function.Injective f := LinearMap.injective_iff_surjective.2 hlin
  refine hi ?_
  show x * (y * x) = x * 1
  rw [← mul_assoc, h, one_mul, mul_one]

/-- **C38**: `inverse` returns a two-sided inverse if there is one, and otherwise `None`. The members have to be
enumerated without repetition, the identity first. -/
theorem C38_inverse (hnd : members.Nodup) (hall : ∀ g, g ∈ members) (h1 : members.head? = some 1) {x : RMember F G}
    (hx : x.Ok) :
    (∀ y, x.inverse members = some y → y.Ok ∧ x.val * y.val = 1 ∧ y.val * x.val = 1) ∧
      (x.inverse members = none ↔ ¬ IsUnit x.val) := by
  have hlen : 0 < members.length := by
    cases members with
    | nil => simp at h1
    | cons _ _ => simp
  have hm0 : members.get ⟨0, hlen⟩ = 1 := by
    cases members with
    | nil => simp at h1
    | cons _ _ => simpa using h1
  have hval : ∀ g, get x g = (((x.filter fun e => e.2 ≠ 0).map fun e => if e.1 = g then e.2 else 0)).sum := by
    intro g
    have h2 := sum_entries (fun h v => if h = g then v else 0) (by simp) x hx
    have h3 : ∀ l : RMember F G, ((l.filter fun e => e.2 ≠ 0).map fun e => if e.1 = g then e.2 else 0).sum =
        (l.map fun e => if e.1 = g then e.2 else 0).sum := by
      intro l
      induction l with
      | nil => rfl
      | cons e l ih =>
        by_cases h : e.2 = 0
        · rw [List.filter_cons_of_neg (by simpa using h), ih, List.map_cons, List.sum_cons]
          simp [h]
        · rw [List.filter_cons_of_pos (by simpa using h), List.map_cons, List.map_cons, List.sum_cons,
            List.sum_cons, ih]
    rw [h3, h2]
    simp
  have main : (∀ y, x.inverse members = some y → y.Ok ∧ x.val * y.val = 1) ∧
      (x.inverse members = none → ¬ IsUnit x.val) := by
    unfold inverse
    rcases hf : x.filter fun e => e.2 ≠ 0 with _ | ⟨e, _ | ⟨e', l⟩⟩
    · rw [hf]
      refine ⟨fun y hy => absurd hy (by simp), fun _ hu => ?_⟩
      have h0 : x.val = 0 := by
        funext g
        show get x g = 0
        rw [hval, hf]
        simp
      rw [h0] at hu
      have := isUnit_zero_iff.1 hu
      have h01 := congrArg (fun a : GAlg F G => a.coef 1) this
      simp [GAlg.coef_one] at h01
    · have he : e.2 ≠ 0 := by
        have : e ∈ x.filter fun e => e.2 ≠ 0 := by rw [hf]; simp
        simpa using (List.mem_filter.1 this).2
      rw [hf]
      dsimp only
      refine ⟨fun y hy => ?_, fun h => by cases h⟩
      rw [← Option.some.inj hy]
      refine ⟨ok_ofTerms _, ?_⟩
      funext g
      show (x.val * _).coef g = (1 : GAlg F G).coef g
      rw [GAlg.coef_mul, Finset.sum_eq_single e.1, GAlg.coef_one]
      · show get x e.1 * get (ofTerms _) _ = _
        rw [hval, hf, get_ofTerms]
        by_cases hg : g = 1
        · subst hg
          simp [he]
        · have : e.1⁻¹ ≠ e.1⁻¹ * g := by simpa using hg
          simp [hg]
      · intro k _ hk
        show get x k * _ = 0
        rw [hval, hf]
        simp [Ne.symm hk]
      · simp
    · rw [hf]
      dsimp only
      clear hf
      set A : Rows F members.length := List.ofFn fun i j => regLift members x i j with hA
      have hAlen : A.length = members.length := by simp [hA]
      have hAmat : toMat A = regLift members x := by
        ext i j
        simp [toMat, hA]
      constructor
      · intro y hy
        obtain ⟨B, hB, hy⟩ := Option.bind_eq_some_iff.1 hy
        rw [dif_pos hlen] at hy
        obtain ⟨_, hBlen, hmul⟩ := invRows_mul hB
        rw [← Option.some.inj hy]
        have hc : (B.map fun r => r ⟨0, hlen⟩).length = members.length := by simp [hBlen]
        refine ⟨ok_ofTerms _, coef_ext hall fun i => ?_⟩
        rw [← regLift_mulVec hnd hall hx, ← hAmat]
        have h2 : (fun j : Fin members.length =>
            (fromVector members (B.map fun r => r ⟨0, hlen⟩)).val.coef (members.get j)) =
            fun j => toMat B j ⟨0, hlen⟩ := by
          funext j
          rw [List.get_eq_getElem, (C37_from_vector hnd _ hc).2 j.1 j.2, List.getElem_map]
          simp [toMat, hBlen]
        rw [h2]
        have h3 := congrFun (congrFun hmul i) ⟨0, hlen⟩
        rw [Matrix.mul_apply] at h3
        rw [Matrix.mulVec, dotProduct, h3, Matrix.one_apply, GAlg.coef_one]
        congr 1
        rw [← hm0]
        exact propext ⟨fun h => by rw [h], fun h => (List.Nodup.get_inj_iff hnd).1 h⟩
      · rintro hnone ⟨u, hu⟩
        have hker : ∀ c : Fin members.length → F, (∀ a ∈ A, dot a c = 0) → c = 0 := by
          intro c hc
          set z : GAlg F G := fun g => c ((memberEquiv hnd hall).symm g)
          have hz : (fun j => z.coef (members.get j)) = c := by
            funext j
            show c ((memberEquiv hnd hall).symm _) = c j
            rw [← memberEquiv_apply hnd hall, Equiv.symm_apply_apply]
          have h2 : x.val * z = 0 := by
            refine coef_ext hall fun i => ?_
            rw [← regLift_mulVec hnd hall hx, hz]
            exact hc _ (List.mem_ofFn.2 ⟨i, rfl⟩)
          have h3 : z = 0 := by
            have := congrArg (fun w => ((u⁻¹ : (GAlg F G)ˣ) : GAlg F G) * w) h2
            simp only [← hu, Units.inv_mul_cancel_left, mul_zero] at this
            exact this
          rw [← hz, h3]
          rfl
        obtain ⟨B, hB⟩ := invRows_isSome hAlen hker
        rw [hB, Option.bind_some, dif_pos hlen] at hnone
        cases hnone
  refine ⟨fun y hy => ?_, ?_⟩
  · obtain ⟨a, b⟩ := main.1 y hy
    exact ⟨a, b, galg_mul_comm_one _ _ b⟩
  · refine ⟨main.2, fun hu => ?_⟩
    cases hy : x.inverse members with
    | none => rfl
    | some y =>
      obtain ⟨_, b⟩ := main.1 y hy
      exact absurd ⟨⟨x.val, y.val, b, galg_mul_comm_one _ _ b⟩, rfl⟩ hu

/-- Two members of the group algebra of `Z/3` over the field with two elements: `g + g²` has no inverse, and over the
field with three elements `1 + 2g` has none while `1 + g + 2g²` has one. -/
abbrev Z3 : Type := Multiplicative (ZMod 3)

def z3 : List Z3 := [Multiplicative.ofAdd 0, Multiplicative.ofAdd 1, Multiplicative.ofAdd 2]

example : z3.Nodup ∧ (∀ g, g ∈ z3) ∧ z3.head? = some 1 := by decide
example : (RMember.inverse (F := ZMod 2) z3
    [(Multiplicative.ofAdd 1, 1), (Multiplicative.ofAdd 2, 1)]).isNone := by decide +kernel
example : ((RMember.inverse (F := ZMod 3) z3
    [(Multiplicative.ofAdd 0, 1), (Multiplicative.ofAdd 1, 1), (Multiplicative.ofAdd 2, 2)]).map fun y =>
      RMember.beq y [(Multiplicative.ofAdd 0, 2), (Multiplicative.ofAdd 1, 0), (Multiplicative.ofAdd 2, 2)]) = some true := by
  decide +kernel

end C38

/-! ### C39 -/

section C39

variable {P A B : Type} [DecidableEq P]

/-- **C39**, partial: equal groups have equal hashes for every hash of tuples exactly if they were also built with
the same enumeration and the same lift. -/
theorem C39_hash_partial (x y : GroupObject P A B) :
    ((x.beq y = true → ∀ h, x.hash h = y.hash h) ↔
      (x.beq y = true → x.generateFunc = y.generateFunc ∧ x.lift = y.lift)) := by
  classical
  have hb : x.beq y = true ↔ x.group = y.group := by simp [GroupObject.beq]
  constructor
  · intro h he
    have h1 := h he fun t => if t = (x.group, x.generateFunc, x.lift) then 1 else 0
    unfold GroupObject.hash at h1
    beta_reduce at h1
    rw [if_pos rfl] at h1
    by_contra hne
    rw [if_neg] at h1
    · exact one_ne_zero h1
    · intro h2
      exact hne ⟨(Prod.ext_iff.1 (Prod.ext_iff.1 h2).2).1.symm, (Prod.ext_iff.1 (Prod.ext_iff.1 h2).2).2.symm⟩
  · intro h he f
    obtain ⟨h1, h2⟩ := h he
    unfold GroupObject.hash
    rw [hb.1 he, h1, h2]

/-- C39, disagreement: a group with its default lift and the same group with another lift are equal, and some hash of
tuples tells them apart. -/
theorem C39_disagreement (g : P) (a : Option A) (L : B) :
    ∃ x y : GroupObject P A B, x.beq y = true ∧ ∃ h, x.hash h ≠ y.hash h := by
  refine ⟨⟨g, a, none⟩, ⟨g, a, some L⟩, by simp [GroupObject.beq], fun t => if t.2.2.isSome then 1 else 0, ?_⟩
  simp [GroupObject.hash]

/-- C39: equality is an equivalence relation. -/
theorem C39_equivalence (x y z : GroupObject P A B) :
    x.beq x = true ∧ (x.beq y = true → y.beq x = true) ∧ (x.beq y = true → y.beq z = true → x.beq z = true) := by
  simp only [GroupObject.beq, decide_eq_true_eq]
  exact ⟨trivial, Eq.symm, Eq.trans⟩

end C39

#print axioms C35_regular_mul
#print axioms C35_regular_one
#print axioms C35_regular_inv
#print axioms C35_regular_injective
#print axioms C35_perm_mul
#print axioms C35_perm_one_inv
#print axioms C35_perm_acts
#print axioms C35_tensor
#print axioms C36_add
#print axioms C36_mul
#print axioms C36_one
#print axioms C36_scalar
#print axioms C36_member
#print axioms C36_transpose
#print axioms C36_regular
#print axioms C37_operations
#print axioms C37_closed
#print axioms C37_equality
#print axioms C37_ring_laws
#print axioms C37_power
#print axioms C37_negative_power_disagreement
#print axioms C37_from_vector
#print axioms C37_vectors
#print axioms C38_inverse
#print axioms C39_hash_partial
#print axioms C39_disagreement
#print axioms C39_equivalence

/-! ### Instances of the theorems: concrete cases meet the hypotheses -/

example := C35_regular_mul (members := z3) (by decide) (by decide) (Multiplicative.ofAdd 1) (Multiplicative.ofAdd 2)
example := C35_regular_one (members := z3) (by decide)
example := C35_regular_inv (members := z3) (by decide) (Multiplicative.ofAdd 1)
example := C36_regular (F := ZMod 2) (members := z3) (by decide) (by decide)
example := C37_from_vector (F := ZMod 2) (members := z3) (by decide) [1, 0, 1] rfl
private theorem z3_ok : RMember.Ok ([(Multiplicative.ofAdd 0, 1), (Multiplicative.ofAdd 1, 2)] : RMember (ZMod 3) (Multiplicative (ZMod 3))) := by
  unfold RMember.Ok; decide +kernel
example := C37_operations z3_ok z3_ok
example := C37_equality [(Multiplicative.ofAdd 0, 1), (Multiplicative.ofAdd 1, 2)] [] z3_ok
example := C37_ring_laws z3_ok z3_ok z3_ok
example := C37_power z3_ok 4
example := C37_vectors (F := ZMod 3) (members := z3) (by decide) (by decide) [1, 0, 1] rfl _ z3_ok
example := C38_inverse (F := ZMod 3) (members := z3) (by decide) (by decide) rfl z3_ok
private theorem z3_rep : IsRep (fun _ : Multiplicative (ZMod 3) => (1 : Matrix (Fin 2) (Fin 2) (ZMod 3))) := by
  constructor <;> simp
example := C36_add (fun _ => (1 : Matrix (Fin 2) (Fin 2) (ZMod 3))) z3_ok z3_ok
example := C36_mul z3_rep z3_ok z3_ok
example := C36_one z3_rep
example := C36_scalar (fun _ => (1 : Matrix (Fin 2) (Fin 2) (ZMod 3))) z3_ok 5
example := C36_member z3_rep z3_ok (Multiplicative.ofAdd 1)
example := C36_transpose (L := fun _ => (1 : Matrix (Fin 2) (Fin 2) (ZMod 3))) (by simp) z3_ok

end QLDPC.Props
