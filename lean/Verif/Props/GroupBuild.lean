import Verif.Lemmas.GroupBuild
import Mathlib.Algebra.Field.ZMod
import Mathlib.Data.Fintype.EquivFin
import Mathlib.Data.Fintype.Perm
import Mathlib.Data.Matrix.Mul
import Mathlib.Data.ZMod.Basic
import Mathlib.LinearAlgebra.Matrix.Notation

/-!
# C40: groups from multiplication tables and generating matrices
-/

namespace QLDPC.Props

open QLDPC

/-! ### `Group.from_table` -/

section Table

variable {n : ℕ} {G : Type} [Group G]

/-- Specification: `t` is the multiplication table of `G`, with the members numbered by `e`. -/
def IsCayleyTable (e : G ≃ Fin n) (t : Fin n → Fin n → Fin n) : Prop := ∀ a b, t (e a) (e b) = e (a * b)

theorem table_eq {e : G ≃ Fin n} {t : Fin n → Fin n → Fin n} (h : IsCayleyTable e t) (a b : Fin n) :
    t a b = e (e.symm a * e.symm b) := by
  rw [← h, e.apply_symm_apply, e.apply_symm_apply]

theorem tableRow_injective {e : G ≃ Fin n} {t : Fin n → Fin n → Fin n} (h : IsCayleyTable e t) :
    Function.Injective (tableRow t) := by
  intro a b hab
  have := congrFun hab (e 1)
  simp only [tableRow, table_eq h, e.symm_apply_apply, mul_one, e.apply_symm_apply] at this
  exact this

theorem arrayMul_tableRow {e : G ≃ Fin n} {t : Fin n → Fin n → Fin n} (h : IsCayleyTable e t) (a b : G) :
    arrayMul (tableRow t (e a)) (tableRow t (e b)) = tableRow t (e (b * a)) := by
  funext i
  simp only [arrayMul, tableRow, table_eq h, e.symm_apply_apply, mul_assoc]

/-- C40: every row of a multiplication table is a permutation, so that `from_table` does not raise. -/
theorem C40_table_rows {e : G ≃ Fin n} {t : Fin n → Fin n → Fin n} (h : IsCayleyTable e t) (a : Fin n) :
    isPermRow (tableRow t a) = true := by
  rw [isPermRow, decide_eq_true_eq, List.nodup_ofFn]
  intro i j hij
  simp only [tableRow, table_eq h] at hij
  exact e.symm.injective (mul_left_cancel (e.injective hij))

/-- C40: the permutations that `from_table` builds, with the product of permutations, are isomorphic to the group of the
table.  (The isomorphism maps a member to the row of its inverse.) -/
theorem C40_table_isomorphic {e : G ≃ Fin n} {t : Fin n → Fin n → Fin n} (h : IsCayleyTable e t) :
    ∃ φ : G ≃ {p // ∃ a, p = tableRow t a}, ∀ a b : G, (φ (a * b)).1 = arrayMul (φ a).1 (φ b).1 := by
  refine ⟨Equiv.ofBijective (fun a => ⟨tableRow t (e a⁻¹), _, rfl⟩) ⟨?_, ?_⟩, ?_⟩
  · intro a b hab
    have := tableRow_injective h (Subtype.ext_iff.1 hab)
    exact inv_injective (e.injective this)
  · rintro ⟨_, a, rfl⟩
    exact ⟨(e.symm a)⁻¹, by simp⟩
  · intro a b
    show tableRow t (e (a * b)⁻¹) = arrayMul (tableRow t (e a⁻¹)) (tableRow t (e b⁻¹))
    rw [arrayMul_tableRow h, mul_inv_rev]

theorem tableLift_row {A : Type} {e : G ≃ Fin n} {t : Fin n → Fin n → Fin n} (h : IsCayleyTable e t)
    (integerLift : Fin n → A) (a : Fin n) : tableLift t integerLift (tableRow t a) = some (integerLift a) := by
  have hf : tableIndex t (tableRow t a) = some a := by
    unfold tableIndex
    cases hc : ((List.finRange n).reverse.find? fun b => ∀ i, t b i = tableRow t a i) with
    | none =>
      rw [List.find?_eq_none] at hc
      exact absurd (hc a (by simp)) (by simp [tableRow])
    | some b =>
      have := List.find?_some hc
      simp only [decide_eq_true_eq] at this
      exact congrArg some (tableRow_injective h (funext this))
  rw [tableLift, hf]
  rfl

/-- C40: the lift of a group built from a table with an integer lift that is a representation of the table reverses
products: `lift(p * q) = lift(q) @ lift(p)`, because the product of the rows of `a` and `b` is the row of `b * a`. -/
theorem C40_table_lift_reverses {A : Type} [Mul A] {e : G ≃ Fin n} {t : Fin n → Fin n → Fin n} (h : IsCayleyTable e t)
    {integerLift : Fin n → A} (hl : ∀ a b, integerLift (t a b) = integerLift a * integerLift b) (a b : Fin n) :
    ∃ x y, tableLift t integerLift (tableRow t a) = some x ∧ tableLift t integerLift (tableRow t b) = some y ∧
      tableLift t integerLift (arrayMul (tableRow t a) (tableRow t b)) = some (y * x) := by
  refine ⟨_, _, tableLift_row h _ a, tableLift_row h _ b, ?_⟩
  have := arrayMul_tableRow h (e.symm a) (e.symm b)
  rw [e.apply_symm_apply, e.apply_symm_apply, ← table_eq h] at this
  rw [this, tableLift_row h, hl]

/-- C40: the lift is a representation of the group if and only if the integer lift reverses the products of the table. -/
theorem C40_table_lift_iff {A : Type} [Mul A] {e : G ≃ Fin n} {t : Fin n → Fin n → Fin n} (h : IsCayleyTable e t)
    (integerLift : Fin n → A) :
    (∀ a b x y, tableLift t integerLift (tableRow t a) = some x → tableLift t integerLift (tableRow t b) = some y →
      tableLift t integerLift (arrayMul (tableRow t a) (tableRow t b)) = some (x * y)) ↔
    ∀ a b, integerLift (t a b) = integerLift b * integerLift a := by
  have key : ∀ a b, arrayMul (tableRow t a) (tableRow t b) = tableRow t (t b a) := by
    intro a b
    have := arrayMul_tableRow h (e.symm a) (e.symm b)
    rwa [e.apply_symm_apply, e.apply_symm_apply, ← table_eq h] at this
  simp only [key, tableLift_row h, Option.some.injEq]
  constructor
  · exact fun hh a b => hh b a _ _ rfl rfl
  · rintro hh a b x y rfl rfl
    exact hh b a

end Table

/-! ### `Group.from_generating_mats` -/

section Mats

variable {M : Type} [Monoid M] [DecidableEq M]

/-- Specification: the permutations that sympy generates from `gens`. -/
inductive PermGenerated (gens : List (List ℕ)) : List ℕ → Prop
  | base {p} (h : p ∈ gens) : PermGenerated gens p
  | mul {p q} (hp : PermGenerated gens p) (hq : PermGenerated gens q) : PermGenerated gens (arrayMulList p q)

theorem closure_isUnit {gens : List M} (hu : ∀ x ∈ gens, IsUnit x) {x : M}
    (hx : x ∈ Subsemigroup.closure {x | x ∈ gens}) : IsUnit x := by
  induction hx using Subsemigroup.closure_induction with
  | mem x hx => exact hu x hx
  | mul x y _ _ hx hy => exact hx.mul hy

theorem closure_subset_mats {gens mats : List M} {keys : List (M × ℕ)} {table : List ((ℕ × ℕ) × ℕ)}
    (h : LoopInv gens mats mats.length keys table) {x : M} (hx : x ∈ Subsemigroup.closure {x | x ∈ gens}) : x ∈ mats := by
  induction hx using Subsemigroup.closure_induction with
  | mem x hx => exact h.prefix_gens.subset hx
  | mul x y _ _ hx hy =>
    obtain ⟨a, ha, rfl⟩ := List.getElem_of_mem hx
    obtain ⟨b, hb, rfl⟩ := List.getElem_of_mem hy
    obtain ⟨c, hc⟩ := h.done a ha b hb
    obtain ⟨x, y, h1, h2, h3⟩ := h.sound _ hc
    simp only at h1 h2 h3
    rw [List.getElem?_eq_getElem ha] at h1
    rw [List.getElem?_eq_getElem hb] at h2
    obtain rfl := Option.some.inj h1
    obtain rfl := Option.some.inj h2
    exact List.mem_of_getElem? h3

theorem entry_spec {gens mats : List M} {keys : List (M × ℕ)} {table : List ((ℕ × ℕ) × ℕ)}
    (h : LoopInv gens mats mats.length keys table) {a b : ℕ} (ha : a < mats.length) (hb : b < mats.length) :
    mats[MatGroup.entry ⟨mats, table⟩ a b]? = some (mats[a] * mats[b]) := by
  have hs := h.sound
  obtain ⟨c, hc⟩ := h.done a ha b hb
  have key : ∀ tb : List ((ℕ × ℕ) × ℕ), TableSound mats tb → ((a, b), c) ∈ tb →
      ∃ d, tb.lookup (a, b) = some d ∧ mats[d]? = some (mats[a] * mats[b]) := by
    intro tb
    induction tb with
    | nil => simp
    | cons e tb ih =>
      intro hs hm
      rw [List.lookup_cons]
      cases he : ((a, b) == e.1) with
      | true =>
        simp only [beq_iff_eq] at he
        obtain ⟨x, y, h1, h2, h3⟩ := hs e List.mem_cons_self
        rw [← he] at h1 h2
        simp only at h1 h2
        rw [List.getElem?_eq_getElem ha] at h1
        rw [List.getElem?_eq_getElem hb] at h2
        obtain rfl := Option.some.inj h1
        obtain rfl := Option.some.inj h2
        exact ⟨_, rfl, h3⟩
      | false =>
        refine ih (fun e he => hs e (List.mem_cons_of_mem _ he)) ?_
        rcases List.mem_cons.1 hm with rfl | hm
        · simp at he
        · exact hm
  obtain ⟨d, hd, hm⟩ := key table hs hc
  rw [MatGroup.entry, hd]
  exact hm

/-- The row of a matrix. -/
def rowOf (g : MatGroup M) (x : M) : List ℕ := g.row (g.mats.idxOf x)

section Closed

variable {gens mats : List M} {keys : List (M × ℕ)} {table : List ((ℕ × ℕ) × ℕ)}

theorem idxOf_lt {x : M} (hx : x ∈ mats) : mats.idxOf x < mats.length := List.idxOf_lt_length_iff.2 hx

theorem getElem_idxOf' {x : M} (hx : x ∈ mats) : mats[mats.idxOf x]'(idxOf_lt hx) = x := List.getElem_idxOf _

theorem mul_mem_mats (h : LoopInv gens mats mats.length keys table) {x y : M} (hx : x ∈ mats) (hy : y ∈ mats) :
    x * y ∈ mats := closure_subset_mats h (Subsemigroup.mul_mem _ (h.mem x hx) (h.mem y hy))

theorem entry_idxOf (h : LoopInv gens mats mats.length keys table) {x y : M} (hx : x ∈ mats) (hy : y ∈ mats) :
    MatGroup.entry ⟨mats, table⟩ (mats.idxOf x) (mats.idxOf y) = mats.idxOf (x * y) := by
  have h1 := entry_spec h (idxOf_lt hx) (idxOf_lt hy)
  rw [getElem_idxOf' hx, getElem_idxOf' hy] at h1
  have h2 : mats[mats.idxOf (x * y)]? = some (x * y) := by
    rw [List.getElem?_eq_getElem (idxOf_lt (mul_mem_mats h hx hy)), getElem_idxOf' (mul_mem_mats h hx hy)]
  exact (List.getElem?_inj (List.getElem?_eq_some_iff.1 h1).1 h.nodup).1 (h1.trans h2.symm)

theorem rowOf_eq (h : LoopInv gens mats mats.length keys table) {x : M} (hx : x ∈ mats) :
    rowOf ⟨mats, table⟩ x = mats.map fun y => mats.idxOf (x * y) := by
  rw [rowOf, MatGroup.row]
  apply List.ext_getElem
  · simp
  · intro i h1 h2
    simp only [List.length_map, List.length_range] at h1
    simp only [List.getElem_map, List.getElem_range]
    rw [← entry_idxOf h hx (List.getElem_mem h1), h.nodup.idxOf_getElem]

theorem rowOf_perm (h : LoopInv gens mats mats.length keys table) (hu : ∀ x ∈ gens, IsUnit x) {x : M} (hx : x ∈ mats) :
    (rowOf ⟨mats, table⟩ x).Perm (List.range mats.length) := by
  have hnd : (rowOf ⟨mats, table⟩ x).Nodup := by
    rw [rowOf_eq h hx]
    refine List.Nodup.map_on ?_ h.nodup
    intro y hy z hz hyz
    have := (List.idxOf_inj (mul_mem_mats h hx hy)).1 hyz
    exact (closure_isUnit hu (h.mem x hx)).mul_left_cancel this
  refine (List.subperm_of_subset hnd ?_).perm_of_length_le (by rw [rowOf_eq h hx]; simp)
  intro i hi
  rw [rowOf_eq h hx, List.mem_map] at hi
  obtain ⟨y, hy, rfl⟩ := hi
  exact List.mem_range.2 (idxOf_lt (mul_mem_mats h hx hy))

theorem rowOf_injOn (h : LoopInv gens mats mats.length keys table) (hu : ∀ x ∈ gens, IsUnit x) {x y : M}
    (hx : x ∈ mats) (hy : y ∈ mats) (he : rowOf ⟨mats, table⟩ x = rowOf ⟨mats, table⟩ y) : x = y := by
  rw [rowOf_eq h hx, rowOf_eq h hy] at he
  have h1 := List.map_inj_left.1 he x hx
  have h2 := (List.idxOf_inj (mul_mem_mats h hx hx)).1 h1
  exact (closure_isUnit hu (h.mem x hx)).mul_right_cancel h2

theorem rowOf_mul (h : LoopInv gens mats mats.length keys table) {x y : M} (hx : x ∈ mats) (hy : y ∈ mats) :
    arrayMulList (rowOf ⟨mats, table⟩ x) (rowOf ⟨mats, table⟩ y) = rowOf ⟨mats, table⟩ (y * x) := by
  rw [rowOf_eq h hx, rowOf_eq h hy, rowOf_eq h (mul_mem_mats h hy hx), arrayMulList, List.map_map]
  refine List.map_congr_left fun z hz => ?_
  simp only [Function.comp]
  have hxz := mul_mem_mats h hx hz
  rw [List.getD_eq_getElem?_getD, List.getElem?_map, List.getElem?_eq_getElem (idxOf_lt hxz), getElem_idxOf' hxz]
  simp [mul_assoc]

theorem lift_rowOf (h : LoopInv gens mats mats.length keys table) (hu : ∀ x ∈ gens, IsUnit x) {x : M} (hx : x ∈ mats) :
    MatGroup.lift ⟨mats, table⟩ (rowOf ⟨mats, table⟩ x) = some x := by
  unfold MatGroup.lift
  cases hc : (List.range mats.length).reverse.find? fun a => MatGroup.row ⟨mats, table⟩ a = rowOf ⟨mats, table⟩ x with
  | none =>
    rw [List.find?_eq_none] at hc
    exact absurd (hc (mats.idxOf x) (List.mem_reverse.2 (List.mem_range.2 (idxOf_lt hx)))) (by simp [rowOf])
  | some a =>
    have h1 := List.find?_some hc
    have h2 := List.mem_of_find?_eq_some hc
    simp only [decide_eq_true_eq] at h1
    rw [List.mem_reverse, List.mem_range] at h2
    have h3 : rowOf ⟨mats, table⟩ mats[a] = rowOf ⟨mats, table⟩ x := by
      rw [← h1, rowOf, h.nodup.idxOf_getElem]
    have h4 := rowOf_injOn h hu (List.getElem_mem h2) hx h3
    simp only [Option.bind_some]
    rw [List.getElem?_eq_getElem h2, h4]

end Closed

theorem initial_inv {gens : List M} (hnd : gens.Nodup) : LoopInv gens gens 0 (matKeys gens) [] :=
  ⟨hnd, matKeys_eq hnd, by simp [TableSound], fun _ hx => Subsemigroup.subset_closure hx, List.prefix_rfl, by simp,
    by simp⟩

/-- Specification of the group that is built: `φ` numbers the matrices of the semigroup generated by `gens` by
permutations. -/
structure IsMatGroup (gens : List M) (g : MatGroup M) (rows : List (List ℕ)) (φ : M → List ℕ) : Prop where
  nodup : g.mats.Nodup
  mem : ∀ x, x ∈ g.mats ↔ x ∈ Subsemigroup.closure {x | x ∈ gens}
  perm : ∀ x ∈ g.mats, (φ x).Perm (List.range g.mats.length)
  inj : ∀ x ∈ g.mats, ∀ y ∈ g.mats, φ x = φ y → x = y
  rows_eq : rows = gens.map φ
  mul : ∀ x ∈ g.mats, ∀ y ∈ g.mats, φ (y * x) = arrayMulList (φ x) (φ y)
  lift : ∀ x ∈ g.mats, g.lift (φ x) = some x

/-- C40: if the loop of `from_generating_mats` ends for different invertible matrices, it does not raise, finds exactly
the matrices they generate, and represents them by permutations; the product of the permutations of `x` and `y` is the
permutation of `y @ x`, and the lift of the permutation of `x` is `x`. -/
theorem C40_mats {gens : List M} (hnd : gens.Nodup) (hu : ∀ x ∈ gens, IsUnit x) {fuel : ℕ}
    {r : Except String (MatGroup M × List (List ℕ))} (hr : fromGeneratingMats fuel gens = some r) :
    ∃ g rows φ, r = .ok (g, rows) ∧ IsMatGroup gens g rows φ := by
  unfold fromGeneratingMats at hr
  rw [Option.map_eq_some_iff] at hr
  obtain ⟨⟨mats, table⟩, hl, rfl⟩ := hr
  rw [List.range_eq_range'] at hl
  obtain ⟨keys, h⟩ := matLoop_spec fuel (initial_inv hnd) (by simpa using hl)
  simp only at h
  have hrow : ∀ a, (ha : a < mats.length) → MatGroup.row ⟨mats, table⟩ a = rowOf ⟨mats, table⟩ mats[a] := by
    intro a ha
    rw [rowOf, h.nodup.idxOf_getElem]
  have hlen := h.prefix_gens.length_le
  have hrows : (List.range gens.length).map (MatGroup.row ⟨mats, table⟩) = gens.map (rowOf ⟨mats, table⟩) := by
    apply List.ext_getElem
    · simp
    · intro i h1 h2
      simp only [List.length_map, List.length_range] at h1
      simp only [List.getElem_map, List.getElem_range]
      rw [hrow i (by omega), ← h.prefix_gens.getElem h1]
  refine ⟨⟨mats, table⟩, _, rowOf ⟨mats, table⟩, ?_, h.nodup, fun x => ⟨h.mem x, closure_subset_mats h⟩,
    fun x hx => rowOf_perm h hu hx, fun x hx y hy => rowOf_injOn h hu hx hy, hrows,
    fun x hx y hy => (rowOf_mul h hx hy).symm, fun x hx => lift_rowOf h hu hx⟩
  simp only
  rw [if_pos]
  rw [List.all_eq_true, hrows]
  intro p hp
  obtain ⟨x, hx, rfl⟩ := List.mem_map.1 hp
  have hperm := rowOf_perm h hu (h.prefix_gens.subset hx)
  rw [decide_eq_true_eq]
  refine ⟨hperm.nodup_iff.2 List.nodup_range, fun v hv => ?_⟩
  rw [hperm.length_eq, List.length_range]
  exact List.mem_range.1 (hperm.mem_iff.1 hv)

/-- C40: the loop ends if the matrices generate finitely many matrices. -/
theorem C40_mats_terminates {gens : List M} (hnd : gens.Nodup)
    (hfin : (Subsemigroup.closure {x | x ∈ gens} : Set M).Finite) :
    ∃ r, fromGeneratingMats ((Subsemigroup.closure {x | x ∈ gens} : Set M).ncard + 2) gens = some r := by
  obtain ⟨r, hr⟩ := matLoop_terminates (N := (Subsemigroup.closure {x | x ∈ gens} : Set M).ncard) (by
    intro l hl hmem
    rw [← List.toFinset_card_of_nodup hl, ← Set.ncard_coe_finset]
    refine Set.ncard_le_ncard ?_ hfin
    intro x hx
    exact hmem x (by simpa using hx))
    ((Subsemigroup.closure {x | x ∈ gens} : Set M).ncard + 2) (initial_inv hnd) (by omega) (by omega)
  rw [fromGeneratingMats, List.range_eq_range']
  simp only [Nat.sub_zero] at hr
  rw [hr]
  exact ⟨_, rfl⟩

/-- C40: sympy generates exactly the permutations of the matrices. -/
theorem C40_mats_generated {gens : List M} {g : MatGroup M} {rows : List (List ℕ)} {φ : M → List ℕ}
    (h : IsMatGroup gens g rows φ) (p : List ℕ) : PermGenerated rows p ↔ ∃ x ∈ g.mats, φ x = p := by
  have hmul : ∀ x ∈ g.mats, ∀ y ∈ g.mats, x * y ∈ g.mats := fun x hx y hy =>
    (h.mem _).2 (Subsemigroup.mul_mem _ ((h.mem x).1 hx) ((h.mem y).1 hy))
  constructor
  · intro hp
    induction hp with
    | base hp =>
      rw [h.rows_eq] at hp
      obtain ⟨x, hx, rfl⟩ := List.mem_map.1 hp
      exact ⟨x, (h.mem x).2 (Subsemigroup.subset_closure hx), rfl⟩
    | mul _ _ ihp ihq =>
      obtain ⟨x, hx, rfl⟩ := ihp
      obtain ⟨y, hy, rfl⟩ := ihq
      exact ⟨y * x, hmul y hy x hx, h.mul x hx y hy⟩
  · rintro ⟨x, hx, rfl⟩
    have hx' := (h.mem x).1 hx
    clear hx
    induction hx' using Subsemigroup.closure_induction with
    | mem x hx => exact .base (by rw [h.rows_eq]; exact List.mem_map_of_mem hx)
    | mul x y hx hy ihx ihy =>
      rw [h.mul y ((h.mem y).2 hy) x ((h.mem x).2 hx)]
      exact .mul ihy ihx

/-- C40: the lift reverses products: `lift(p * q) = lift(q) @ lift(p)`. -/
theorem C40_mats_lift_reverses {gens : List M} {g : MatGroup M} {rows : List (List ℕ)} {φ : M → List ℕ}
    (h : IsMatGroup gens g rows φ) {p q : List ℕ} (hp : PermGenerated rows p) (hq : PermGenerated rows q) :
    ∃ x y, g.lift p = some x ∧ g.lift q = some y ∧ g.lift (arrayMulList p q) = some (y * x) := by
  obtain ⟨x, hx, rfl⟩ := (C40_mats_generated h p).1 hp
  obtain ⟨y, hy, rfl⟩ := (C40_mats_generated h q).1 hq
  refine ⟨x, y, h.lift x hx, h.lift y hy, ?_⟩
  rw [← h.mul x hx y hy]
  exact h.lift _ ((h.mem _).2 (Subsemigroup.mul_mem _ ((h.mem y).1 hy) ((h.mem x).1 hx)))

/-- C40: the lift is a representation if the matrices commute. -/
theorem C40_mats_lift_partial {gens : List M} {g : MatGroup M} {rows : List (List ℕ)} {φ : M → List ℕ}
    (h : IsMatGroup gens g rows φ) (hc : ∀ x ∈ g.mats, ∀ y ∈ g.mats, x * y = y * x) {p q : List ℕ}
    (hp : PermGenerated rows p) (hq : PermGenerated rows q) :
    ∃ x y, g.lift p = some x ∧ g.lift q = some y ∧ g.lift (arrayMulList p q) = some (x * y) := by
  obtain ⟨x, hx, rfl⟩ := (C40_mats_generated h p).1 hp
  obtain ⟨y, hy, rfl⟩ := (C40_mats_generated h q).1 hq
  obtain ⟨a, b, h1, h2, h3⟩ := C40_mats_lift_reverses h hp hq
  refine ⟨a, b, h1, h2, ?_⟩
  rw [h.lift x hx] at h1
  rw [h.lift y hy] at h2
  obtain rfl := Option.some.inj h1
  obtain rfl := Option.some.inj h2
  rw [h3, hc x hx y hy]

/-- C40: the permutations are isomorphic to the group of the matrices, by mapping a matrix to the permutation of its
inverse. -/
theorem C40_mats_isomorphic {gens : List M} (hu : ∀ x ∈ gens, IsUnit x) {g : MatGroup M} {rows : List (List ℕ)}
    {φ : M → List ℕ} (h : IsMatGroup gens g rows φ) :
    ∃ ψ : M → List ℕ, (∀ x ∈ g.mats, ∀ y ∈ g.mats, ψ x = ψ y → x = y) ∧
      (∀ p, PermGenerated rows p ↔ ∃ x ∈ g.mats, ψ x = p) ∧
      ∀ x ∈ g.mats, ∀ y ∈ g.mats, ψ (x * y) = arrayMulList (ψ x) (ψ y) := by
  have hunit : ∀ x ∈ g.mats, IsUnit x := fun x hx => closure_isUnit hu ((h.mem x).1 hx)
  have hmul : ∀ x ∈ g.mats, ∀ y ∈ g.mats, x * y ∈ g.mats := fun x hx y hy =>
    (h.mem _).2 (Subsemigroup.mul_mem _ ((h.mem x).1 hx) ((h.mem y).1 hy))
  have hsurj : ∀ x ∈ g.mats, ∀ z ∈ g.mats, ∃ y ∈ g.mats, x * y = z := by
    intro x hx z hz
    have hnd : (g.mats.map fun y => x * y).Nodup := h.nodup.map_on fun y _ z _ e => (hunit x hx).mul_left_cancel e
    have hp : (g.mats.map fun y => x * y).Perm g.mats :=
      (List.subperm_of_subset hnd (by
        intro w hw
        obtain ⟨y, hy, rfl⟩ := List.mem_map.1 hw
        exact hmul x hx y hy)).perm_of_length_le (by simp)
    exact List.mem_map.1 (hp.mem_iff.2 hz)
  have hone : ∀ x ∈ g.mats, (1 : M) ∈ g.mats := by
    intro x hx
    obtain ⟨y, hy, hxy⟩ := hsurj x hx x hx
    have : y = 1 := (hunit x hx).mul_left_cancel (by rw [hxy, mul_one])
    exact this ▸ hy
  have hinv : ∀ x, ∃ y, x ∈ g.mats → y ∈ g.mats ∧ x * y = 1 := by
    intro x
    by_cases hx : x ∈ g.mats
    · obtain ⟨y, hy, hxy⟩ := hsurj x hx 1 (hone x hx)
      exact ⟨y, fun _ => ⟨hy, hxy⟩⟩
    · exact ⟨x, fun hc => absurd hc hx⟩
  choose inv hinv using hinv
  have hinv' : ∀ x ∈ g.mats, inv x * x = 1 := by
    intro x hx
    obtain ⟨hi, h1⟩ := hinv x hx
    refine (hunit x hx).mul_left_cancel ?_
    rw [← mul_assoc, h1, one_mul, mul_one]
  have hinvinv : ∀ x ∈ g.mats, inv (inv x) = x := by
    intro x hx
    obtain ⟨hi, -⟩ := hinv x hx
    refine (hunit _ hi).mul_left_cancel ?_
    rw [(hinv _ hi).2, hinv' x hx]
  refine ⟨fun x => φ (inv x), ?_, ?_, ?_⟩
  · intro x hx y hy he
    have := h.inj _ (hinv x hx).1 _ (hinv y hy).1 he
    rw [← hinvinv x hx, this, hinvinv y hy]
  · intro p
    rw [C40_mats_generated h p]
    constructor
    · rintro ⟨x, hx, rfl⟩
      exact ⟨inv x, (hinv x hx).1, by simp only [hinvinv x hx]⟩
    · rintro ⟨x, hx, rfl⟩
      exact ⟨inv x, (hinv x hx).1, rfl⟩
  · intro x hx y hy
    simp only
    rw [← h.mul _ (hinv x hx).1 _ (hinv y hy).1]
    congr 1
    refine (hunit _ (hmul x hx y hy)).mul_left_cancel ?_
    rw [(hinv _ (hmul x hx y hy)).2, mul_assoc, ← mul_assoc y, (hinv y hy).2, one_mul, (hinv x hx).2]

end Mats

/-! ### `QuaternionGroup` -/

/-- C40: the table of `QuaternionGroup` is that of a group (an associative product with a unit and inverses) ... -/
theorem C40_quaternion_table :
    (∀ a b c, quaternionTable (quaternionTable a b) c = quaternionTable a (quaternionTable b c)) ∧
    (∀ a, quaternionTable 0 a = a ∧ quaternionTable a 0 = a) ∧
    (∀ a, ∃ b, quaternionTable a b = 0 ∧ quaternionTable b a = 0) := by
  decide +kernel

/-- ... of quaternions: with `i = 1`, `j = 2`, `k = 3`, `-1 = 4`, it satisfies `i² = j² = k² = ijk = -1`, and `-1` is
central of order two. -/
theorem C40_quaternion_relations :
    quaternionTable 1 1 = 4 ∧ quaternionTable 2 2 = 4 ∧ quaternionTable 3 3 = 4 ∧
    quaternionTable (quaternionTable 1 2) 3 = 4 ∧ quaternionTable 4 4 = 0 ∧
    ∀ a, quaternionTable 4 a = quaternionTable a 4 := by
  decide +kernel

/-- C40: the lift of `QuaternionGroup` is a representation: `lift(p * q) = lift(p) @ lift(q)`, the identity is mapped to
the identity matrix, and different members to different matrices. -/
theorem C40_quaternion_lift :
    (∀ a b x y, tableLift quaternionTable quaternionLift (tableRow quaternionTable a) = some x →
      tableLift quaternionTable quaternionLift (tableRow quaternionTable b) = some y →
      tableLift quaternionTable quaternionLift
        (arrayMul (tableRow quaternionTable a) (tableRow quaternionTable b)) = some (x * y)) ∧
    quaternionLift 0 = 1 ∧ Function.Injective quaternionLift := by
  have h1 : ∀ a, tableLift quaternionTable quaternionLift (tableRow quaternionTable a) = some (quaternionLift a) := by
    decide +kernel
  have h2 : ∀ a b, arrayMul (tableRow quaternionTable a) (tableRow quaternionTable b) =
      tableRow quaternionTable (quaternionTable b a) := by decide +kernel
  have h3 : ∀ a b, quaternionLift (quaternionTable b a) = quaternionLift a * quaternionLift b := by decide +kernel
  refine ⟨?_, by decide +kernel, ?_⟩
  · intro a b x y hx hy
    rw [h1, Option.some.injEq] at hx hy
    rw [h2, h1, h3, hx, hy]
  · have : ∀ a b, quaternionLift a = quaternionLift b → a = b := by decide +kernel
    exact fun a b h => this a b h

/-! ### Cases that meet the hypotheses, and a case against the claim -/

/-- The members of the symmetric group on three points: numbered as the identity, two rotations, three reflections. -/
def s3Perm : Fin 6 → Equiv.Perm (Fin 3) :=
  ![1, Equiv.swap 0 1 * Equiv.swap 1 2, Equiv.swap 1 2 * Equiv.swap 0 1, Equiv.swap 0 1, Equiv.swap 1 2, Equiv.swap 0 2]

/-- Number of a member. -/
def s3Index (p : Equiv.Perm (Fin 3)) : Fin 6 := ((List.finRange 6).find? fun a => ∀ i, s3Perm a i = p i).getD 0

/-- The numbering. -/
def s3Equiv : Equiv.Perm (Fin 3) ≃ Fin 6 where
  toFun := s3Index
  invFun := s3Perm
  left_inv := by unfold Function.LeftInverse; decide +kernel
  right_inv := by unfold Function.RightInverse Function.LeftInverse; decide +kernel

/-- The multiplication table. -/
def s3Table (a b : Fin 6) : Fin 6 := s3Index (s3Perm a * s3Perm b)

theorem s3Table_isCayley : IsCayleyTable s3Equiv s3Table := by
  intro a b
  show s3Index (s3Perm (s3Index a) * s3Perm (s3Index b)) = s3Index (a * b)
  rw [show s3Perm (s3Index a) = a from s3Equiv.left_inv a, show s3Perm (s3Index b) = b from s3Equiv.left_inv b]

/-- A representation of the table: permutation matrices, `ρ(a) e_i = e_{a(i)}`. -/
def s3Lift (a : Fin 6) : Matrix (Fin 3) (Fin 3) ℤ := fun i j => if s3Perm a j = i then 1 else 0

theorem s3Lift_mul : ∀ a b, s3Lift (s3Table a b) = s3Lift a * s3Lift b := by decide +kernel

/-- Disagreement: given the table of a group and a representation of it, the lift of `from_table` need not be a
representation: for the rows `p`, `q` of two reflections, `lift(p * q) ≠ lift(p) @ lift(q)`. -/
theorem C40_table_disagreement :
    ¬ ∀ a b x y, tableLift s3Table s3Lift (tableRow s3Table a) = some x →
      tableLift s3Table s3Lift (tableRow s3Table b) = some y →
      tableLift s3Table s3Lift (arrayMul (tableRow s3Table a) (tableRow s3Table b)) = some (x * y) := by
  rw [C40_table_lift_iff s3Table_isCayley]
  decide +kernel

/-- Rotation and reflection matrices that generate the symmetries of a triangle. -/
def triMats : List (Matrix (Fin 2) (Fin 2) ℤ) := [!![0, -1; 1, -1], !![0, 1; 1, 0]]

theorem triMats_nodup : triMats.Nodup := by decide +kernel

theorem triMats_unit : ∀ x ∈ triMats, IsUnit x := by
  intro x hx
  simp only [triMats, List.mem_cons, List.not_mem_nil, or_false] at hx
  rcases hx with rfl | rfl
  · exact ⟨⟨_, !![-1, 1; -1, 0], by decide +kernel, by decide +kernel⟩, rfl⟩
  · exact ⟨⟨_, !![0, 1; 1, 0], by decide +kernel, by decide +kernel⟩, rfl⟩

/-- The group that is built, with its six members. -/
def triGroup : Option (Except String (MatGroup (Matrix (Fin 2) (Fin 2) ℤ) × List (List ℕ))) :=
  fromGeneratingMats 8 triMats

example : (triGroup.map fun r => match r with | .ok g => g.1.mats.length | .error _ => 0) = some 6 := by
  decide +kernel

/-- Disagreement: the lift of a group built from matrices that do not commute need not be a representation. -/
theorem C40_mats_disagreement :
    (triGroup.map fun r => match r with
      | .ok (g, [p, q]) => match g.lift p, g.lift q with
        | some x, some y => decide (g.lift (arrayMulList p q) = some (x * y))
        | _, _ => true
      | _ => true) = some false := by
  decide +kernel

/-- Disagreement: a matrix given twice makes `from_generating_mats` raise, though the matrices generate a group: the
number of known hashes is used as the next index, and overwrites a member. -/
theorem C40_duplicate_disagreement :
    (fromGeneratingMats 8 [!![0, 1; 1, 0], (!![0, 1; 1, 0] : Matrix (Fin 2) (Fin 2) ℤ)]).map
      (fun r => match r with | .ok _ => "group" | .error e => e) = some "ValueError" := by
  decide +kernel

#print axioms C40_table_rows
#print axioms C40_table_isomorphic
#print axioms C40_table_lift_reverses
#print axioms C40_table_lift_iff
#print axioms C40_mats
#print axioms C40_mats_terminates
#print axioms C40_mats_generated
#print axioms C40_mats_lift_reverses
#print axioms C40_mats_lift_partial
#print axioms C40_mats_isomorphic
#print axioms C40_quaternion_table
#print axioms C40_quaternion_relations
#print axioms C40_quaternion_lift
#print axioms C40_table_disagreement
#print axioms C40_mats_disagreement
#print axioms C40_duplicate_disagreement

/-! ### Instances of the theorems: concrete cases meet the hypotheses -/

example := C40_table_rows s3Table_isCayley 3
example := C40_table_isomorphic s3Table_isCayley
example := C40_table_lift_reverses s3Table_isCayley s3Lift_mul 3 4
example := C40_table_lift_iff s3Table_isCayley s3Lift
example : True := by
  obtain ⟨r, hr⟩ := Option.isSome_iff_exists.1 (show triGroup.isSome = true by decide +kernel)
  have h := C40_mats triMats_nodup triMats_unit hr
  trivial

example : True := by
  obtain ⟨r, hr⟩ := Option.isSome_iff_exists.1 (show triGroup.isSome = true by decide +kernel)
  obtain ⟨g, rows, φ, -, h⟩ := C40_mats triMats_nodup triMats_unit hr
  have h1 := C40_mats_generated h
  have h2 := C40_mats_isomorphic triMats_unit h
  have hx : triMats.head (by decide) ∈ g.mats := (h.mem _).2 (Subsemigroup.subset_closure (by simp))
  have h3 := C40_mats_lift_reverses h ((h1 _).2 ⟨_, hx, rfl⟩) ((h1 _).2 ⟨_, hx, rfl⟩)
  trivial
example : True := by
  obtain ⟨r, hr⟩ := Option.isSome_iff_exists.1 (show (fromGeneratingMats 8 [(2 : ZMod 5)]).isSome = true by decide +kernel)
  obtain ⟨g, rows, φ, -, h⟩ := C40_mats (by simp) (by intro x hx; simp at hx; subst hx; exact ⟨⟨2, 3, by decide, by decide⟩, rfl⟩) hr
  have hx : (2 : ZMod 5) ∈ g.mats := (h.mem _).2 (Subsemigroup.subset_closure (by simp))
  have h1 := C40_mats_lift_partial h (fun x _ y _ => mul_comm x y) ((C40_mats_generated h _).2 ⟨_, hx, rfl⟩) ((C40_mats_generated h _).2 ⟨_, hx, rfl⟩)
  trivial
example := C40_mats_terminates (gens := [(2 : ZMod 5), 3]) (by decide) (Set.toFinite _)

end QLDPC.Props
