import Verif.Model.Groups
import Verif.Spec.GroupAlgebra
import Verif.Lemmas.InvRows
import Mathlib.Data.Matrix.Mul

/-!
# Lemmas on group members, dictionaries and lifts
-/

namespace QLDPC

open Spec Matrix

section Index

variable {G : Type} [DecidableEq G]

theorem memberIndex_eq [Group G] {members : List G} (hnd : members.Nodup) {g : G} {i : ℕ} :
    memberIndex members g = some i ↔ members[i]? = some g := by
  unfold memberIndex
  constructor
  · intro h
    obtain ⟨e, he, rfl⟩ := Option.map_eq_some_iff.1 h
    have h1 := List.mem_of_find?_eq_some he
    have h2 : e.1 = g := by simpa using List.find?_some he
    rw [List.mem_reverse, List.mem_zipIdx_iff_getElem?] at h1
    rw [← h2]
    exact h1
  · intro h
    have hmem : (g, i) ∈ members.zipIdx.reverse := by
      rw [List.mem_reverse, List.mem_zipIdx_iff_getElem?]
      exact h
    cases hf : members.zipIdx.reverse.find? fun e => e.1 = g with
    | none =>
      have := List.find?_eq_none.1 hf _ hmem
      simp at this
    | some e =>
      have h1 := List.mem_of_find?_eq_some hf
      have h2 : e.1 = g := by simpa using List.find?_some hf
      rw [List.mem_reverse, List.mem_zipIdx_iff_getElem?, h2] at h1
      obtain ⟨hi, hi'⟩ := List.getElem?_eq_some_iff.1 h
      obtain ⟨hj, hj'⟩ := List.getElem?_eq_some_iff.1 h1
      have : e.2 = i := (List.Nodup.getElem_inj_iff hnd).1 (hj'.trans hi'.symm)
      simp [this]

end Index

namespace RMember

variable {F G : Type} [Field F] [DecidableEq F] [Group G] [DecidableEq G]

/-- The keys of a dictionary are distinct. -/
def Ok (x : RMember F G) : Prop := (x.map Prod.fst).Nodup

/-- The formal sum of a ring member. -/
def val (x : RMember F G) : GAlg F G := fun g => get x g

theorem get_nil (g : G) : get ([] : RMember F G) g = 0 := rfl

theorem get_cons (e : G × F) (x : RMember F G) (g : G) : get (e :: x) g = if e.1 = g then e.2 else get x g := by
  unfold get
  rw [List.find?_cons]
  by_cases h : e.1 = g <;> simp [h]

theorem get_of_notMem {x : RMember F G} {g : G} (h : g ∉ x.map Prod.fst) : get x g = 0 := by
  induction x with
  | nil => rfl
  | cons e x ih =>
    rw [List.map_cons, List.mem_cons, not_or] at h
    rw [get_cons, if_neg (Ne.symm h.1), ih h.2]

theorem get_addAt (x : RMember F G) (g : G) (v : F) (h : G) :
    get (addAt x g v) h = get x h + if g = h then v else 0 := by
  induction x with
  | nil =>
    rw [addAt, get_cons, get_nil]
    by_cases hh : g = h <;> simp [hh]
  | cons e x ih =>
    rw [addAt]
    split
    · rename_i he
      rw [get_cons, get_cons, he]
      by_cases hh : g = h <;> simp [hh]
    · rename_i he
      rw [get_cons, get_cons, ih]
      by_cases h1 : e.1 = h
      · have : g ≠ h := fun h2 => he (h1.trans h2.symm)
        simp [h1, this]
      · simp [h1]

theorem get_setAt (x : RMember F G) (g : G) (v : F) (h : G) :
    get (setAt x g v) h = if g = h then v else get x h := by
  induction x with
  | nil => rw [setAt, get_cons]
  | cons e x ih =>
    rw [setAt]
    split
    · rename_i he
      rw [get_cons, get_cons, he]
      by_cases hh : g = h <;> simp [hh]
    · rename_i he
      rw [get_cons, get_cons, ih]
      by_cases h1 : e.1 = h
      · have : g ≠ h := fun h2 => he (h1.trans h2.symm)
        simp [h1, this]
      · simp [h1]

theorem keys_addAt (x : RMember F G) (g : G) (v : F) :
    (addAt x g v).map Prod.fst = if g ∈ x.map Prod.fst then x.map Prod.fst else x.map Prod.fst ++ [g] := by
  induction x with
  | nil => simp [addAt]
  | cons e x ih =>
    rw [addAt]
    by_cases he : e.1 = g
    · simp [he]
    · rw [if_neg he, List.map_cons, ih, List.map_cons]
      by_cases hm : g ∈ x.map Prod.fst
      · rw [if_pos hm, if_pos (List.mem_cons_of_mem _ hm)]
      · rw [if_neg hm, if_neg]
        · rfl
        · rw [List.mem_cons, not_or]
          exact ⟨Ne.symm he, hm⟩

theorem keys_setAt (x : RMember F G) (g : G) (v : F) :
    (setAt x g v).map Prod.fst = if g ∈ x.map Prod.fst then x.map Prod.fst else x.map Prod.fst ++ [g] := by
  induction x with
  | nil => simp [setAt]
  | cons e x ih =>
    rw [setAt]
    by_cases he : e.1 = g
    · simp [he]
    · rw [if_neg he, List.map_cons, ih, List.map_cons]
      by_cases hm : g ∈ x.map Prod.fst
      · rw [if_pos hm, if_pos (List.mem_cons_of_mem _ hm)]
      · rw [if_neg hm, if_neg]
        · rfl
        · rw [List.mem_cons, not_or]
          exact ⟨Ne.symm he, hm⟩

theorem Ok.addAt {x : RMember F G} (hx : Ok x) (g : G) (v : F) : Ok (addAt x g v) := by
  unfold Ok
  rw [keys_addAt]
  split
  · exact hx
  · rename_i h
    rw [List.nodup_append]
    refine ⟨hx, List.nodup_singleton _, fun a ha b hb hab => ?_⟩
    rw [List.mem_singleton] at hb
    exact h (by rw [← hb, ← hab]; exact ha)

theorem Ok.setAt {x : RMember F G} (hx : Ok x) (g : G) (v : F) : Ok (setAt x g v) := by
  unfold Ok
  rw [keys_setAt]
  split
  · exact hx
  · rename_i h
    rw [List.nodup_append]
    refine ⟨hx, List.nodup_singleton _, fun a ha b hb hab => ?_⟩
    rw [List.mem_singleton] at hb
    exact h (by rw [← hb, ← hab]; exact ha)

theorem ok_foldl_addAt {β : Type} (k : β → G) (v : β → F) (l : List β) (z : RMember F G) (hz : Ok z) :
    Ok (l.foldl (fun z e => RMember.addAt z (k e) (v e)) z) := by
  induction l generalizing z with
  | nil => exact hz
  | cons e l ih => exact ih _ (hz.addAt _ _)

theorem ok_foldl_setAt {β : Type} (k : β → G) (v : β → F) (l : List β) (z : RMember F G) (hz : Ok z) :
    Ok (l.foldl (fun z e => RMember.setAt z (k e) (v e)) z) := by
  induction l generalizing z with
  | nil => exact hz
  | cons e l ih => exact ih _ (hz.setAt _ _)

theorem ok_zero : Ok (zero : RMember F G) := List.nodup_nil

theorem get_foldl_addAt {β : Type} (k : β → G) (v : β → F) (l : List β) (z : RMember F G) (g : G) :
    get (l.foldl (fun z e => RMember.addAt z (k e) (v e)) z) g =
      get z g + (l.map fun e => if k e = g then v e else 0).sum := by
  induction l generalizing z with
  | nil => simp
  | cons e l ih => rw [List.foldl_cons, ih, get_addAt, List.map_cons, List.sum_cons, add_assoc]

theorem get_foldl_setAt (f : G ≃ G) (c : F → F) (x : RMember F G) (hx : Ok x) (z : RMember F G) (g : G) :
    get (x.foldl (fun z e => RMember.setAt z (f e.1) (c e.2)) z) g =
      if f.symm g ∈ x.map Prod.fst then c (get x (f.symm g)) else get z g := by
  induction x generalizing z with
  | nil => simp
  | cons e x ih =>
    have hx' := List.nodup_cons.1 hx
    rw [List.foldl_cons, ih hx'.2, get_setAt, get_cons, List.map_cons]
    by_cases h1 : e.1 = f.symm g
    · have h2 : f e.1 = g := by rw [h1, Equiv.apply_symm_apply]
      have h3 : f.symm g ∉ x.map Prod.fst := by rw [← h1]; exact hx'.1
      rw [if_neg h3, if_pos h2, if_pos (by rw [h1]; exact List.mem_cons_self), if_pos h1]
    · have h2 : f e.1 ≠ g := fun h => h1 (by rw [← h, Equiv.symm_apply_apply])
      rw [if_neg h2, if_neg h1]
      by_cases h3 : f.symm g ∈ x.map Prod.fst
      · rw [if_pos h3, if_pos (List.mem_cons_of_mem _ h3)]
      · rw [if_neg h3, if_neg]
        rw [List.mem_cons, not_or]
        exact ⟨Ne.symm h1, h3⟩

theorem get_setFold (f : G ≃ G) (c : F → F) (hc : c 0 = 0) (x : RMember F G) (hx : Ok x) (g : G) :
    get (x.foldl (fun z e => RMember.setAt z (f e.1) (c e.2)) zero) g = c (get x (f.symm g)) := by
  rw [get_foldl_setAt f c x hx]
  split
  · rfl
  · rename_i h
    rw [get_of_notMem h, hc]
    rfl

/-- A sum over the entries of a dictionary is a sum over the group. -/
theorem sum_entries [Fintype G] {A : Type} [AddCommMonoid A] (ψ : G → F → A) (h0 : ∀ g, ψ g 0 = 0)
    (x : RMember F G) (hx : Ok x) : (x.map fun e => ψ e.1 e.2).sum = ∑ g, ψ g (get x g) := by
  induction x with
  | nil => simp [get_nil, h0]
  | cons e x ih =>
    have hx' := List.nodup_cons.1 hx
    rw [List.map_cons, List.sum_cons, ih hx'.2]
    have h1 : ∀ g, ψ g (get (e :: x) g) = (if g = e.1 then ψ e.1 e.2 else 0) + ψ g (get x g) := by
      intro g
      rw [get_cons]
      by_cases h : e.1 = g
      · subst h
        rw [if_pos rfl, if_pos rfl, get_of_notMem hx'.1, h0, add_zero]
      · rw [if_neg h, if_neg (Ne.symm h), zero_add]
    rw [Finset.sum_congr rfl fun g _ => h1 g, Finset.sum_add_distrib]
    simp

theorem ok_copy (x : RMember F G) : Ok (copy x) := ok_foldl_setAt _ _ _ _ ok_zero

theorem get_copy {x : RMember F G} (hx : Ok x) (g : G) : get (copy x) g = get x g :=
  get_setFold (Equiv.refl G) id rfl x hx g

theorem get_ofTerms (terms : List (F × G)) (g : G) :
    get (ofTerms terms) g = (terms.map fun t => if t.2 = g then t.1 else 0).sum := by
  unfold ofTerms
  rw [get_foldl_addAt, get_nil, zero_add]

theorem ok_ofTerms (terms : List (F × G)) : Ok (ofTerms terms) := ok_foldl_addAt _ _ _ _ List.nodup_nil

theorem get_one (g : G) : get (one : RMember F G) g = if g = 1 then 1 else 0 := by
  unfold one
  rw [get_ofTerms]
  simp [eq_comm]

theorem get_add [Fintype G] {x y : RMember F G} (hx : Ok x) (hy : Ok y) (g : G) :
    get (add x y) g = get x g + get y g := by
  unfold add
  rw [get_foldl_addAt, get_copy hx, sum_entries (fun h v => if h = g then v else 0) (by simp) y hy]
  simp

theorem get_mulInt {x : RMember F G} (hx : Ok x) (m : ℤ) (g : G) : get (mulInt x m) g = get x g * m :=
  get_setFold (Equiv.refl G) (fun v => v * (m : F)) (zero_mul _) x hx g

theorem get_mulMember {x : RMember F G} (hx : Ok x) (h g : G) : get (mulMember x h) g = get x (g * h⁻¹) :=
  get_setFold (Equiv.mulRight h) id rfl x hx g

theorem get_memberMul {x : RMember F G} (hx : Ok x) (h g : G) : get (memberMul h x) g = get x (h⁻¹ * g) :=
  get_setFold (Equiv.mulLeft h) id rfl x hx g

theorem get_transpose {x : RMember F G} (hx : Ok x) (g : G) : get (transpose x) g = get x g⁻¹ :=
  get_setFold (Equiv.inv G) id rfl x hx g

theorem ok_add (x y : RMember F G) : Ok (add x y) := ok_foldl_addAt _ _ _ _ (ok_copy x)
theorem ok_mulInt (x : RMember F G) (m : ℤ) : Ok (mulInt x m) := ok_foldl_setAt _ _ _ _ ok_zero
theorem ok_mulMember (x : RMember F G) (g : G) : Ok (mulMember x g) :=
  ok_foldl_setAt (fun e : G × F => e.1 * g) Prod.snd x _ ok_zero
theorem ok_memberMul (x : RMember F G) (g : G) : Ok (memberMul g x) :=
  ok_foldl_setAt (fun e : G × F => g * e.1) Prod.snd x _ ok_zero
theorem ok_transpose (x : RMember F G) : Ok (transpose x) := ok_foldl_setAt (fun e : G × F => e.1⁻¹) Prod.snd x _ ok_zero
theorem ok_mul (x y : RMember F G) : Ok (mul x y) :=
  ok_foldl_addAt (fun e : (G × F) × (G × F) => e.1.1 * e.2.1) (fun e => e.1.2 * e.2.2) _ _ ok_zero
theorem ok_one : Ok (one : RMember F G) := ok_ofTerms _

theorem get_mul [Fintype G] {x y : RMember F G} (hx : Ok x) (hy : Ok y) (g : G) :
    get (mul x y) g = ∑ h, get x h * get y (h⁻¹ * g) := by
  unfold mul
  rw [get_foldl_addAt (fun e : (G × F) × (G × F) => e.1.1 * e.2.1) (fun e => e.1.2 * e.2.2)]
  have h1 : ∀ (l : RMember F G), (((l.flatMap fun a => y.map fun b => (a, b)).map fun e =>
      if e.1.1 * e.2.1 = g then e.1.2 * e.2.2 else 0)).sum =
      (l.map fun a => a.2 * get y (a.1⁻¹ * g)).sum := by
    intro l
    induction l with
    | nil => rfl
    | cons a l ih =>
      rw [List.flatMap_cons, List.map_append, List.sum_append, ih, List.map_cons, List.sum_cons, List.map_map]
      congr 1
      have := sum_entries (fun h v => if a.1 * h = g then a.2 * v else 0) (by simp) y hy
      rw [show ((fun e : (G × F) × (G × F) => if e.1.1 * e.2.1 = g then e.1.2 * e.2.2 else 0) ∘ fun b => (a, b)) =
        fun e : G × F => if a.1 * e.1 = g then a.2 * e.2 else 0 from rfl, this,
        Finset.sum_eq_single (a.1⁻¹ * g)]
      · simp
      · intro h _ hne
        rw [if_neg]
        rintro rfl
        exact hne (by simp)
      · simp
  rw [h1, sum_entries (fun h v => v * get y (h⁻¹ * g)) (by simp) x hx]
  exact zero_add _

theorem foldl_add_eq_sum {A β : Type} [AddCommMonoid A] (l : List β) (f : β → A) (z : A) :
    l.foldl (fun z e => z + f e) z = z + (l.map f).sum := by
  induction l generalizing z with
  | nil => simp
  | cons e l ih => rw [List.foldl_cons, ih, List.map_cons, List.sum_cons, add_assoc]

theorem lift_eq [Fintype G] {d : ℕ} (L : G → Matrix (Fin d) (Fin d) F) {x : RMember F G} (hx : Ok x) :
    lift L x = ∑ g, get x g • L g := by
  unfold lift
  rw [foldl_add_eq_sum, zero_add]
  have : ∀ l : RMember F G, ((l.filter fun e => e.2 ≠ 0).map fun e => e.2 • L e.1).sum =
      (l.map fun e => e.2 • L e.1).sum := by
    intro l
    induction l with
    | nil => rfl
    | cons e l ih =>
      by_cases h : e.2 = 0
      · rw [List.filter_cons_of_neg (by simpa using h), ih, List.map_cons, List.sum_cons, h, zero_smul, zero_add]
      · rw [List.filter_cons_of_pos (by simpa using h), List.map_cons, List.map_cons, List.sum_cons, List.sum_cons, ih]
  rw [this]
  exact sum_entries (fun g v => v • L g) (fun g => zero_smul _ _) x hx

end RMember

section RegularLift

variable {G : Type} [Group G] [DecidableEq G] {members : List G}

theorem regularLift_apply (hnd : members.Nodup) (g : G) (i j : Fin members.length) :
    regularLift members g i j = if members.get i = g * members.get j then 1 else 0 := by
  unfold regularLift
  congr 1
  rw [memberIndex_eq hnd, List.getElem?_eq_getElem i.isLt, Option.some_inj]
  rfl

/-- The positions of members, as an equivalence. -/
def memberEquiv (hnd : members.Nodup) (hall : ∀ g, g ∈ members) : Fin members.length ≃ G :=
  List.Nodup.getEquivOfForallMemList members hnd hall

theorem memberEquiv_apply (hnd : members.Nodup) (hall : ∀ g, g ∈ members) (i : Fin members.length) :
    memberEquiv hnd hall i = members.get i := rfl

end RegularLift

end QLDPC
