import Verif.Lemmas.MatrixGroups
import Verif.Spec.MatrixGroups
import Mathlib.LinearAlgebra.Matrix.GeneralLinearGroup.Card
import Mathlib.LinearAlgebra.Matrix.ToLin

/-!
# Permutations of a list of vectors
-/

namespace QLDPC

open Matrix

/-- The permutation of a list by a function, in array form. -/
def permOf {V : Type} [DecidableEq V] (ts : List V) (f : V → V) : List ℕ := ts.map fun v => ts.idxOf (f v)

section Generic

variable {V : Type} [DecidableEq V] {ts : List V}

theorem permOf_getElem? {f : V → V} {v : V} (hv : v ∈ ts) : (permOf ts f)[ts.idxOf v]? = some (ts.idxOf (f v)) := by
  rw [permOf, List.getElem?_map, List.getElem?_eq_getElem (List.idxOf_lt_length_iff.2 hv), List.getElem_idxOf]
  rfl

theorem permOf_mul {f g : V → V} (hf : ∀ v ∈ ts, f v ∈ ts) :
    arrayMulList (permOf ts f) (permOf ts g) = permOf ts (fun v => g (f v)) := by
  have e : arrayMulList (permOf ts f) (permOf ts g) = ts.map fun v => (permOf ts g).getD (ts.idxOf (f v)) (ts.idxOf (f v)) := by
    unfold arrayMulList
    generalize permOf ts g = q
    rw [permOf, List.map_map]
    rfl
  rw [e]
  conv_rhs => rw [permOf]
  refine List.map_congr_left fun v hv => ?_
  simp only [List.getD_eq_getElem?_getD, permOf_getElem? (hf v hv), Option.getD_some]

theorem permOf_inj {f g : V → V} (hf : ∀ v ∈ ts, f v ∈ ts) (h : permOf ts f = permOf ts g) :
    ∀ v ∈ ts, f v = g v := by
  intro v hv
  have h1 := List.map_inj_left.1 h v hv
  have hlt := List.idxOf_lt_length_iff.2 (hf v hv)
  have h2 : ts[ts.idxOf (f v)]'hlt = ts[ts.idxOf (g v)]'(h1 ▸ hlt) := by simp only [h1]
  rwa [List.getElem_idxOf, List.getElem_idxOf] at h2

theorem permOf_congr {f g : V → V} (h : ∀ v ∈ ts, f v = g v) : permOf ts f = permOf ts g :=
  List.map_congr_left fun v hv => by rw [h v hv]

theorem permOf_groupMember {f : V → V} (hn : ts.Nodup) (hf : ∀ v ∈ ts, f v ∈ ts)
    (hi : ∀ v ∈ ts, ∀ u ∈ ts, f v = f u → v = u) : groupMember (permOf ts f) = some (permOf ts f) := by
  rw [groupMember, if_pos]
  constructor
  · refine hn.map_on fun v hv u hu h => hi v hv u hu ?_
    exact (List.idxOf_inj (hf v hv)).1 h
  · intro i hi
    obtain ⟨v, hv, rfl⟩ := List.mem_map.1 hi
    rw [permOf, List.length_map]
    exact List.idxOf_lt_length_iff.2 (hf v hv)

theorem mapM_some_of {A B : Type} {l : List A} {f : A → Option B} {g : A → B} (h : ∀ a ∈ l, f a = some (g a)) :
    l.mapM f = some (l.map g) := by
  induction l with
  | nil => rfl
  | cons a l ih =>
    rw [List.mapM_cons, h a (by simp), ih fun b hb => h b (by simp [hb])]
    rfl

theorem idxOf?_of_mem {v : V} (hv : v ∈ ts) : ts.idxOf? v = some (ts.idxOf v) := by
  induction ts with
  | nil => simp at hv
  | cons a ts ih =>
    rw [List.idxOf?_cons, List.idxOf_cons]
    by_cases h : a = v
    · subst h; simp
    · have hb : (a == v) = false := by simpa using h
      rw [hb, ih (by rcases List.mem_cons.1 hv with e | e; exacts [absurd e.symm h, e])]
      simp

theorem idxOf?_none {v : V} (hv : v ∉ ts) : ts.idxOf? v = none := by
  rw [List.idxOf?_eq_none_iff]; exact hv

end Generic

section Vectors

variable {F : Type} [Field F] [DecidableEq F] {els : List F}

theorem mem_vecProduct (hall : ∀ x, x ∈ els) : ∀ {d : ℕ} (v : Fin d → F), v ∈ vecProduct els d
  | 0, v => by simp [vecProduct, Subsingleton.elim v Fin.elim0]
  | d + 1, v => by
    simp only [vecProduct, List.mem_flatMap, List.mem_map]
    exact ⟨v 0, hall _, Fin.tail v, mem_vecProduct hall _, Fin.cons_self_tail v⟩

theorem nodup_vecProduct (hn : els.Nodup) : ∀ d : ℕ, (vecProduct els d).Nodup
  | 0 => by simp [vecProduct]
  | d + 1 => by
    simp only [vecProduct]
    rw [List.nodup_flatMap]
    refine ⟨fun c _ => (nodup_vecProduct hn d).map fun u v h => (Fin.cons_injective2 h).2, ?_⟩
    refine hn.imp fun {c c'} hne => ?_
    simp only [Function.onFun]
    rw [List.disjoint_left]
    intro v h1 h2
    obtain ⟨u, _, rfl⟩ := List.mem_map.1 h1
    obtain ⟨u', _, h⟩ := List.mem_map.1 h2
    exact hne (Fin.cons_injective2 h).1.symm

theorem vecProduct_head {els' : List F} (he : els = 0 :: els') : ∀ d : ℕ, ∃ l, vecProduct els d = 0 :: l
  | 0 => ⟨[], by simp [vecProduct, Subsingleton.elim (Fin.elim0 : Fin 0 → F) 0]⟩
  | d + 1 => by
    obtain ⟨l, hl⟩ := vecProduct_head he d
    simp only [vecProduct]
    rw [he] at hl ⊢
    rw [List.flatMap_cons, hl]
    refine ⟨_, by rw [List.map_cons, List.cons_append]; congr 1; funext i; refine Fin.cases ?_ (fun j => ?_) i <;> simp⟩

theorem targetSpace_nodup (h : IsElements els) (d : ℕ) : (slTargetSpace els d).Nodup :=
  (nodup_vecProduct h.nodup d).sublist (List.tail_sublist _)

theorem mem_targetSpace (h : IsElements els) {d : ℕ} (v : Fin d → F) : v ∈ slTargetSpace els d ↔ v ≠ 0 := by
  obtain ⟨l, he⟩ := h.head
  obtain ⟨l', hl⟩ := vecProduct_head he d
  have hm := mem_vecProduct h.mem v
  have hn := nodup_vecProduct h.nodup d
  rw [slTargetSpace, hl, List.tail_cons]
  rw [hl] at hm hn
  constructor
  · rintro hv rfl
    exact (List.nodup_cons.1 hn).1 hv
  · intro hv
    rcases List.mem_cons.1 hm with e | e
    · exact absurd e hv
    · exact e

variable {d : ℕ}

theorem mulVec_eq_zero {M : Matrix (Fin d) (Fin d) F} (hM : M.det = 1) {v : Fin d → F} (h : M.mulVec v = 0) : v = 0 := by
  have h1 : M⁻¹.mulVec (M.mulVec v) = v := by
    rw [mulVec_mulVec, nonsing_inv_mul _ (by rw [hM]; exact isUnit_one), one_mulVec]
  rw [← h1, h, mulVec_zero]

theorem mulVec_inj {M : Matrix (Fin d) (Fin d) F} (hM : M.det = 1) {v u : Fin d → F} (h : M.mulVec v = M.mulVec u) :
    v = u := by
  have := mulVec_eq_zero hM (v := v - u) (by rw [mulVec_sub, h, sub_self])
  exact sub_eq_zero.1 this

theorem slPerm_eq (h : IsElements els) {M : Matrix (Fin d) (Fin d) F} (hM : M.det = 1) :
    slPerm (slTargetSpace els d) M = some (permOf (slTargetSpace els d) M.mulVec) := by
  refine mapM_some_of fun v hv => idxOf?_of_mem ?_
  rw [mem_targetSpace h] at hv ⊢
  exact fun h0 => hv (mulVec_eq_zero hM h0)

theorem mulVec_mem (h : IsElements els) {M : Matrix (Fin d) (Fin d) F} (hM : M.det = 1) :
    ∀ v ∈ slTargetSpace els d, M.mulVec v ∈ slTargetSpace els d := by
  intro v hv
  rw [mem_targetSpace h] at hv ⊢
  exact fun h0 => hv (mulVec_eq_zero hM h0)

theorem slPerm_groupMember (h : IsElements els) {M : Matrix (Fin d) (Fin d) F} (hM : M.det = 1) :
    (slPerm (slTargetSpace els d) M).bind groupMember = some (permOf (slTargetSpace els d) M.mulVec) := by
  rw [slPerm_eq h hM, Option.bind_some]
  exact permOf_groupMember (targetSpace_nodup h d) (mulVec_mem h hM) fun v _ u _ e => mulVec_inj hM e

/-- The unit vectors. -/
theorem unit_eq (j : Fin d) : (fun i => if i = j then (1 : F) else 0) = Pi.single j 1 := by
  funext i; by_cases h : i = j
  · subst h; simp
  · simp [h]

theorem slLiftColumn_eq {ts : List (Fin d → F)} {f : (Fin d → F) → Fin d → F} (hf : ∀ v ∈ ts, f v ∈ ts) {j : Fin d}
    (hj : Pi.single j 1 ∈ ts) : slLiftColumn ts (permOf ts f) j = some (f (Pi.single j 1)) := by
  rw [slLiftColumn, unit_eq, idxOf?_of_mem hj]
  simp only [Option.bind_eq_bind, Option.bind_some]
  rw [permOf_getElem? hj, Option.bind_some, List.getElem?_eq_getElem (List.idxOf_lt_length_iff.2 (hf _ hj)),
    List.getElem_idxOf]

theorem slLift_eq_of {ts : List (Fin d → F)} {p : List ℕ} {M : Matrix (Fin d) (Fin d) F}
    (h : ∀ j, slLiftColumn ts p j = some fun i => M i j) : slLift ts p = some M := by
  have hs : ∀ entry, (slLiftColumn ts p entry).isSome := fun e => by rw [h e]; rfl
  rw [slLift, dif_pos hs]
  congr 1
  ext i j
  have e : (slLiftColumn ts p j).get (hs j) = fun i => M i j := Option.get_of_eq_some _ (h j)
  exact congrFun e i

theorem slLift_eq (h : IsElements els) {M : Matrix (Fin d) (Fin d) F} (hM : M.det = 1) :
    slLift (slTargetSpace els d) (permOf (slTargetSpace els d) M.mulVec) = some M := by
  refine slLift_eq_of fun j => ?_
  rw [slLiftColumn_eq (mulVec_mem h hM)]
  · congr 1
    funext i
    rw [mulVec_single_one]
    rfl
  · rw [mem_targetSpace h]
    simp

theorem permOf_mulVec_inj (h : IsElements els) {M N : Matrix (Fin d) (Fin d) F} (hM : M.det = 1) (hN : N.det = 1)
    (e : permOf (slTargetSpace els d) M.mulVec = permOf (slTargetSpace els d) N.mulVec) : M = N := by
  have h1 := slLift_eq h hM
  rw [e, slLift_eq h hN] at h1
  exact (Option.some.inj h1).symm

/-- The number of matrices of determinant one. -/
theorem card_SL [Fintype F] (d : ℕ) : Nat.card (SpecialLinearGroup (Fin (d + 1)) F) * (Fintype.card F - 1) =
    ∏ i : Fin (d + 1), (Fintype.card F ^ (d + 1) - Fintype.card F ^ (i : ℕ)) := by
  rw [← Matrix.card_GL_field]
  have hs : Function.Surjective (GeneralLinearGroup.det : GL (Fin (d + 1)) F →* Fˣ) := by
    intro u
    refine ⟨GeneralLinearGroup.mkOfDetNeZero (diagonal (Pi.mulSingle 0 (u : F))) ?_, ?_⟩
    · rw [det_diagonal, Finset.prod_pi_mulSingle']; simp
    · apply Units.ext
      rw [GeneralLinearGroup.val_det_apply]
      simp [GeneralLinearGroup.mkOfDetNeZero, det_diagonal, Finset.prod_pi_mulSingle']
  have e1 : Nat.card (SpecialLinearGroup (Fin (d + 1)) F) =
      Nat.card (GeneralLinearGroup.det : GL (Fin (d + 1)) F →* Fˣ).ker := by
    refine Nat.card_congr ⟨fun A => ⟨A.toGL, ?_⟩, fun B => ⟨B.1.1, ?_⟩, ?_, ?_⟩
    · rw [MonoidHom.mem_ker]; apply Units.ext; rw [GeneralLinearGroup.val_det_apply]; simpa using A.2
    · have := congrArg Units.val B.2; rwa [GeneralLinearGroup.val_det_apply] at this
    · intro A; rfl
    · intro B; apply Subtype.ext; apply Units.ext; rfl
  have e2 := Subgroup.card_eq_card_quotient_mul_card_subgroup
    (GeneralLinearGroup.det : GL (Fin (d + 1)) F →* Fˣ).ker
  have e3 : Nat.card (GL (Fin (d + 1)) F ⧸ (GeneralLinearGroup.det : GL (Fin (d + 1)) F →* Fˣ).ker) = Fintype.card F - 1 := by
    rw [Nat.card_congr (QuotientGroup.quotientKerEquivOfSurjective _ hs).toEquiv, Nat.card_units, Nat.card_eq_fintype_card]
  rw [e1, e2, e3, mul_comm]

end Vectors

end QLDPC
