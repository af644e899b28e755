import Verif.Lemmas.GapOutput
import Verif.Lemmas.Groups
import Mathlib.Data.Fintype.Perm

/-! # From the text of GAP to members of a ring -/

namespace QLDPC

open QLDPC.Spec

variable {n : ℕ}

instance : Fintype (Equiv.Perm (Fin n))ᵐᵒᵖ := Fintype.ofEquiv (Equiv.Perm (Fin n)) MulOpposite.opEquiv

/-- The product of disjoint cycles, point by point. -/
theorem prod_formPerm : ∀ (cs : List (List (Fin n))), cs.flatten.Nodup →
    (∀ c ∈ cs, ∀ x ∈ c, (MulOpposite.unop ((cs.map fun c : List (Fin n) => MulOpposite.op c.formPerm).prod)) x = c.formPerm x) ∧
      ∀ x, x ∉ cs.flatten → (MulOpposite.unop ((cs.map fun c : List (Fin n) => MulOpposite.op c.formPerm).prod)) x = x := by
  intro cs
  induction cs with
  | nil => intro _; simp
  | cons c cs ih =>
    intro h
    rw [List.flatten_cons, List.nodup_append] at h
    obtain ⟨h1, h2, h3⟩ := h
    obtain ⟨ih1, ih2⟩ := ih h2
    have e : ∀ x, (MulOpposite.unop (((c :: cs).map fun c : List (Fin n) => MulOpposite.op c.formPerm).prod)) x =
        (MulOpposite.unop ((cs.map fun c : List (Fin n) => MulOpposite.op c.formPerm).prod)) (c.formPerm x) := fun x => by
      rw [List.map_cons, List.prod_cons, MulOpposite.unop_mul]
      rfl
    constructor
    · intro d hd x hx
      rw [e]
      rcases List.mem_cons.1 hd with rfl | hd
      · refine ih2 _ fun hmem => ?_
        exact h3 _ (List.formPerm_apply_mem_of_mem hx) _ hmem rfl
      · have hx' : x ∉ c := fun hc => h3 x hc x (List.mem_flatten.2 ⟨d, hd, hx⟩) rfl
        rw [List.formPerm_apply_of_notMem hx', ih1 d hd x hx]
    · intro x hx
      rw [List.flatten_cons, List.mem_append, not_or] at hx
      rw [e, List.formPerm_apply_of_notMem hx.1, ih2 x hx.2]

theorem pointOf_eq (x : Fin n) : pointOf n ((x.val + 1 : ℕ) - 1 : ℤ) = some x := by
  unfold pointOf
  have : ((x.val + 1 : ℕ) - 1 : ℤ) = (x.val : ℤ) := by omega
  rw [this, dif_pos ⟨by omega, by simp⟩]
  simp

theorem exists_points (cycles : List (List ℕ)) (h : ∀ i ∈ cycles.flatten, 1 ≤ i ∧ i ≤ n) :
    ∃ cs : List (List (Fin n)), cycles = cs.map fun c => c.map fun x => x.val + 1 := by
  induction cycles with
  | nil => exact ⟨[], rfl⟩
  | cons c cycles ih =>
    obtain ⟨cs, rfl⟩ := ih fun i hi => h i (by simp_all)
    have hc : ∃ d : List (Fin n), c = d.map fun x => x.val + 1 := by
      have hc : ∀ i ∈ c, 1 ≤ i ∧ i ≤ n := fun i hi => h i (by simp [hi])
      clear h
      induction c with
      | nil => exact ⟨[], rfl⟩
      | cons i c ih =>
        obtain ⟨d, rfl⟩ := ih fun j hj => hc j (by simp [hj])
        have := hc i (by simp)
        exact ⟨⟨i - 1, by omega⟩ :: d, by simp; omega⟩
    obtain ⟨d, rfl⟩ := hc
    exact ⟨d :: cs, rfl⟩

theorem memberOfCycles_eq {cycles : List (List ℕ)} {g : Equiv.Perm (Fin n)} (h : IsGapPerm cycles g) :
    memberOfCycles n (cycles.map fun c => c.map fun i : ℕ => (i : ℤ) - 1) = some (MulOpposite.op g) := by
  obtain ⟨-, hnodup, hrange, hstep, hfix⟩ := h
  obtain ⟨cs, rfl⟩ := exists_points cycles hrange
  have hflat : (cs.map fun c => c.map fun x : Fin n => x.val + 1).flatten = cs.flatten.map fun x : Fin n => x.val + 1 := by
    rw [List.map_flatten]
  rw [hflat] at hnodup hfix
  have hinj : Function.Injective fun x : Fin n => x.val + 1 := fun a b h => Fin.ext (by simpa using h)
  have hnd : cs.flatten.Nodup := hnodup.of_map _
  have hc : ∀ c ∈ cs, c.Nodup := fun c hc => (List.nodup_flatten.1 hnd).1 c hc
  have hm : ((cs.map fun c => c.map fun x : Fin n => x.val + 1).map fun c => c.map fun i : ℕ => (i : ℤ) - 1).mapM
      (fun c => (c.mapM (pointOf n)).bind fun ps => if ps.Nodup then some ps else none) = some cs := by
    rw [mapM_some_iff, List.forall₂_map_left_iff, List.forall₂_map_left_iff]
    refine List.forall₂_same.2 fun c hc' => ?_
    have : ((c.map fun x : Fin n => x.val + 1).map fun i : ℕ => (i : ℤ) - 1).mapM (pointOf n) = some c := by
      rw [mapM_some_iff, List.forall₂_map_left_iff, List.forall₂_map_left_iff]
      exact List.forall₂_same.2 fun x _ => pointOf_eq x
    rw [this, Option.bind_some, if_pos (hc c hc')]
  unfold memberOfCycles
  rw [hm, Option.map_some]
  congr 1
  apply MulOpposite.unop_injective
  obtain ⟨h1, h2⟩ := prod_formPerm cs hnd
  refine Equiv.ext fun x => ?_
  rw [MulOpposite.unop_op]
  by_cases hx : x ∈ cs.flatten
  · obtain ⟨c, hcs, hxc⟩ := List.mem_flatten.1 hx
    rw [h1 c hcs x hxc]
    obtain ⟨i, hi, rfl⟩ := List.mem_iff_getElem.1 hxc
    rw [List.formPerm_apply_getElem c (hc c hcs)]
    have hpos : 0 < c.length := by omega
    have := hstep _ (List.mem_map.2 ⟨c, hcs, rfl⟩) i ((i + 1) % c.length) (by simpa using hi)
      (by simpa using Nat.mod_lt _ hpos) (by simp) c[i] (by simp)
    refine Fin.ext ?_
    simp only [List.getElem_map] at this
    omega
  · rw [h2 x hx, hfix x]
    intro hmem
    exact hx ((List.mem_map_of_injective hinj).1 hmem)

/-- Disjoint cycles are those of a permutation. -/
theorem exists_gapPerm {cycles : List (List ℕ)} (hne : ∀ c ∈ cycles, c ≠ []) (hnodup : cycles.flatten.Nodup)
    (hrange : ∀ i ∈ cycles.flatten, 1 ≤ i ∧ i ≤ n) : ∃ g : Equiv.Perm (Fin n), IsGapPerm cycles g := by
  obtain ⟨cs, rfl⟩ := exists_points cycles hrange
  have hflat : (cs.map fun c => c.map fun x : Fin n => x.val + 1).flatten = cs.flatten.map fun x : Fin n => x.val + 1 := by
    rw [List.map_flatten]
  have hinj : Function.Injective fun x : Fin n => x.val + 1 := fun a b h => Fin.ext (by simpa using h)
  have hnd : cs.flatten.Nodup := (hflat ▸ hnodup).of_map _
  obtain ⟨h1, h2⟩ := prod_formPerm cs hnd
  refine ⟨_, hne, hnodup, hrange, ?_, fun x hx => h2 x ?_⟩
  · intro c hc i j hi hj hij x hx
    obtain ⟨d, hd, rfl⟩ := List.mem_map.1 hc
    simp only [List.length_map] at hi hj hij
    simp only [List.getElem_map] at hx ⊢
    obtain rfl : x = d[i] := Fin.ext (by omega)
    rw [h1 d hd _ (List.getElem_mem _), List.formPerm_apply_getElem d ((List.nodup_flatten.1 hnd).1 d hd)]
    subst hij
    rfl
  · intro hmem
    rw [hflat] at hx
    exact hx (List.mem_map.2 ⟨x, hmem, rfl⟩)

variable {F : Type} [Field F] [DecidableEq F]

theorem ringTerm_eq {fi : FieldInts F} {v : ℤ} {x : F} (hv : fi.ofInt v = some x) {cycles : List (List ℕ)}
    {g : Equiv.Perm (Fin n)} (h : IsGapPerm cycles g) :
    ringTerm fi n (v, (cycleTexts cycles).map fun c => c.map fun i : ℕ => (i : ℤ) - 1) =
      some (x, MulOpposite.op g) := by
  unfold ringTerm
  simp only [hv, Option.bind_some]
  by_cases h0 : cycles = []
  · subst h0
    rw [if_neg (by simp [cycleTexts])]
    obtain ⟨-, -, -, -, hfix⟩ := h
    have : g = 1 := Equiv.ext fun x => hfix x (by simp)
    rw [this]
    rfl
  · rw [cycleTexts, if_neg h0, if_pos, memberOfCycles_eq h]
    · rfl
    · intro h'
      obtain ⟨c, cs, rfl⟩ := List.exists_cons_of_ne_nil h0
      have := h.1 c (by simp)
      simp_all

/-- All of the output. -/
theorem idempotents_eq {t : CharTable} (ht : t.Ok) (hc : t.digit '^' = none) {fi : FieldInts F}
    (hfi : Spec.FieldInts.Ok fi) {generator : ℕ → ℕ → Option ℤ} {z : ℕ → F} {order p : ℕ} (ho : order % p ≠ 0)
    {text : List Char} {ms : List (List GapTerm)} (h : IsGapOutput text ms)
    (hz : ∀ es ∈ ms, ∀ e ∈ es, (generator (e.p ^ e.k.getD 1) (e.m.getD 1)).bind fi.ofInt = some (e.coef z))
    (hg : ∀ es ∈ ms, ∀ e ∈ es, ∃ g : Equiv.Perm (Fin n), IsGapPerm e.cycles g) :
    ∃ xs, primitiveCentralIdempotents t fi generator order p n text = some xs ∧
      List.Forall₂ (fun es x => IsGapSum z es (RMember.val x)) ms xs := by
  classical
  choose! perm hperm using hg
  let out : List GapTerm → RMember F (SymGroup n) := fun es =>
    RMember.ofTerms (es.map fun e => (e.coef z, MulOpposite.op (perm es e)))
  refine ⟨ms.map out, ?_, ?_⟩
  · unfold primitiveCentralIdempotents
    rw [if_neg ho, parseIdempotents_text ht hc _ _ h]
    have h1 : (ms.mapM fun es => es.mapM fun e =>
        ((generator (e.p ^ e.k.getD 1) (e.m.getD 1)).bind fun z => (fi.ofInt z).map fi.toInt).map fun v =>
          (v, (cycleTexts e.cycles).map fun c => c.map fun i : ℕ => (i : ℤ) - 1)) =
        some (ms.map fun es => es.map fun e =>
          (fi.toInt (e.coef z), (cycleTexts e.cycles).map fun c => c.map fun i : ℕ => (i : ℤ) - 1)) := by
      rw [mapM_some_iff, List.forall₂_map_right_iff]
      refine List.forall₂_same.2 fun es hes => ?_
      rw [mapM_some_iff, List.forall₂_map_right_iff]
      refine List.forall₂_same.2 fun e he => ?_
      have h2 := hz es hes e he
      rw [Option.bind_eq_some_iff] at h2
      obtain ⟨v, hv, hv'⟩ := h2
      rw [hv, Option.bind_some, hv']
      rfl
    rw [h1, Option.bind_some, mapM_some_iff, List.forall₂_map_left_iff, List.forall₂_map_right_iff]
    refine List.forall₂_same.2 fun es hes => ?_
    have h3 : (es.map fun e => (fi.toInt (e.coef z), (cycleTexts e.cycles).map fun c =>
        c.map fun i : ℕ => (i : ℤ) - 1)).mapM (ringTerm fi n) =
        some (es.map fun e => (e.coef z, MulOpposite.op (perm es e))) := by
      rw [mapM_some_iff, List.forall₂_map_left_iff, List.forall₂_map_right_iff]
      exact List.forall₂_same.2 fun e he => ringTerm_eq (hfi.ofInt_toInt _) (hperm es hes e he)
    rw [h3]
    rfl
  · rw [List.forall₂_map_right_iff]
    refine List.forall₂_same.2 fun es hes => ⟨es.map (perm es), ?_, ?_⟩
    · rw [List.forall₂_map_right_iff]
      exact List.forall₂_same.2 fun e he => hperm es hes e he
    · intro h
      have : (RMember.val (out es)).coef h = RMember.get (out es) h := rfl
      rw [this, RMember.get_ofTerms, List.map_map]
      congr 1
      rw [List.zip_map_right]
      have hzip : ∀ es : List GapTerm, es.zip es = es.map fun e => (e, e) := by
        intro es
        induction es with
        | nil => rfl
        | cons e es ih => simp [ih]
      rw [hzip, List.map_map, List.map_map]
      rfl

end QLDPC
