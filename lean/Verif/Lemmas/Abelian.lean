import Verif.Model.GroupBuild
import Mathlib.Algebra.BigOperators.Group.List.Basic
import Mathlib.Data.List.Nodup
import Mathlib.Logic.Function.Iterate
import Mathlib.Tactic.Ring
import Mathlib.Tactic.Linarith

/-!
# Lemmas about `AbelianGroup`
-/

namespace QLDPC

/-- Specification: the permutation of blocks of `orders` points that moves the points of each block cyclically by an
exponent. -/
def shiftBlocks (offset : ℕ) : List ℕ → List ℕ → ℕ → ℕ
  | n :: ns, a :: as, x =>
    if offset ≤ x ∧ x < offset + n then offset + (x - offset + a) % n else shiftBlocks (offset + n) ns as x
  | _, _, x => x

theorem shiftBlocks_low {orders exps : List ℕ} {offset x : ℕ} (h : x < offset) :
    shiftBlocks offset orders exps x = x := by
  induction orders generalizing offset exps with
  | nil => cases exps <;> rfl
  | cons n ns ih =>
    cases exps with
    | nil => rfl
    | cons a as =>
      rw [shiftBlocks, if_neg (by omega)]
      exact ih (by omega)

theorem shiftBlocks_cons (offset n a : ℕ) (ns as : List ℕ) (x : ℕ) : shiftBlocks offset (n :: ns) (a :: as) x =
    if offset ≤ x ∧ x < offset + n then offset + (x - offset + a) % n else shiftBlocks (offset + n) ns as x := rfl

theorem shiftBlocks_high (orders exps : List ℕ) {offset x : ℕ} (h : offset ≤ x) :
    offset ≤ shiftBlocks offset orders exps x := by
  induction orders generalizing exps offset with
  | nil => cases exps <;> exact h
  | cons m ms ih =>
    cases exps with
    | nil => exact h
    | cons c cs =>
      rw [shiftBlocks_cons]
      split_ifs with hc
      · omega
      · by_cases hm : offset + m ≤ x
        · have := ih cs hm
          omega
        · rw [shiftBlocks_low (by omega)]; exact h

theorem cyclicGen_iterate {offset n : ℕ} (hn : 0 < n) (k x : ℕ) :
    (cyclicGen offset n)^[k] x = if offset ≤ x ∧ x < offset + n then offset + (x - offset + k) % n else x := by
  induction k generalizing x with
  | zero =>
    simp only [Function.iterate_zero, id_eq, Nat.add_zero]
    split_ifs with h
    · rw [Nat.mod_eq_of_lt (by omega)]; omega
    · rfl
  | succ k ih =>
    rw [Function.iterate_succ_apply, ih]
    by_cases h : offset ≤ x ∧ x < offset + n
    · rw [if_pos h]
      unfold cyclicGen
      rw [if_pos h]
      by_cases hx : x + 1 = offset + n
      · rw [if_pos hx, if_pos (by omega)]
        have : x - offset + (k + 1) = (offset - offset + k) + n := by omega
        rw [this, Nat.add_mod_right]
      · rw [if_neg hx, if_pos (by omega)]
        have : x + 1 - offset + k = x - offset + (k + 1) := by omega
        rw [this]
    · have hc : cyclicGen offset n x = x := by unfold cyclicGen; rw [if_neg h]
      rw [hc, if_neg h, if_neg h]

theorem foldl_comp (l : List (ℕ → ℕ)) (p : ℕ → ℕ) (x : ℕ) :
    l.foldl (fun p q x => q (p x)) p x = l.foldl (fun p q x => q (p x)) id (p x) := by
  induction l generalizing p x with
  | nil => rfl
  | cons q l ih =>
    rw [List.foldl_cons, List.foldl_cons, ih, ih (fun x => q (id x))]
    rfl

theorem powerProduct_gens {orders exps : List ℕ} (hpos : ∀ n ∈ orders, 0 < n) (offset : ℕ) :
    powerProduct (abelianGens offset orders) exps = shiftBlocks offset orders exps := by
  induction orders generalizing offset exps with
  | nil => cases exps <;> rfl
  | cons n ns ih =>
    cases exps with
    | nil => rfl
    | cons a as =>
      funext x
      have hn := hpos n List.mem_cons_self
      have := congrFun (ih (exps := as) (fun m hm => hpos m (List.mem_cons_of_mem _ hm)) (offset + n))
      rw [powerProduct, abelianGens, List.zipWith_cons_cons, List.foldl_cons, foldl_comp]
      simp only [id_eq]
      rw [← powerProduct, this, cyclicGen_iterate hn, shiftBlocks]
      by_cases h : offset ≤ x ∧ x < offset + n
      · rw [if_pos h, if_pos h]
        have := Nat.mod_lt (x - offset + a) hn
        exact shiftBlocks_low (by omega)
      · rw [if_neg h, if_neg h]

/-- Specification: exponents are added modulo the orders. -/
def addExps : List ℕ → List ℕ → List ℕ → List ℕ
  | n :: ns, a :: as, b :: bs => (a + b) % n :: addExps ns as bs
  | _, _, _ => []

/-- Specification: exponents between zero and the orders. -/
def IsExps (orders exps : List ℕ) : Prop := List.Forall₂ (fun a n => a < n) exps orders

theorem shiftBlocks_mul {orders as bs : List ℕ} (hpos : ∀ n ∈ orders, 0 < n) (ha : as.length = orders.length)
    (hb : bs.length = orders.length) (offset x : ℕ) :
    shiftBlocks offset orders bs (shiftBlocks offset orders as x) =
      shiftBlocks offset orders (addExps orders as bs) x := by
  induction orders generalizing offset as bs with
  | nil => cases as <;> cases bs <;> simp_all [shiftBlocks]
  | cons n ns ih =>
    match as, bs, ha, hb with
    | a :: as, b :: bs, ha, hb =>
      have hn := hpos n List.mem_cons_self
      rw [addExps, shiftBlocks_cons _ _ a, shiftBlocks_cons _ _ b, shiftBlocks_cons _ _ ((a + b) % n)]
      by_cases h : offset ≤ x ∧ x < offset + n
      · have := Nat.mod_lt (x - offset + a) hn
        simp only [if_pos h]
        rw [if_pos (by omega)]
        congr 1
        rw [Nat.add_sub_cancel_left, Nat.mod_add_mod, Nat.add_mod_mod, Nat.add_assoc]
      · simp only [if_neg h]
        have hx : ¬ (offset ≤ shiftBlocks (offset + n) ns as x ∧ shiftBlocks (offset + n) ns as x < offset + n) := by
          by_cases hlow : x < offset + n
          · rw [shiftBlocks_low hlow]; exact h
          · have := shiftBlocks_high ns as (show offset + n ≤ x by omega)
            omega
        rw [if_neg hx]
        exact ih (fun k hk => hpos k (List.mem_cons_of_mem _ hk)) (by simpa using ha) (by simpa using hb) _

theorem blockShifts_eq {orders exps : List ℕ} (h : IsExps orders exps) (offset : ℕ) :
    blockShifts offset (shiftBlocks offset orders exps) orders = exps := by
  have key : ∀ (orders exps : List ℕ), IsExps orders exps → ∀ (offset : ℕ) (p : ℕ → ℕ),
      (∀ x, offset ≤ x → p x = shiftBlocks offset orders exps x) → blockShifts offset p orders = exps := by
    intro orders exps h
    induction h with
    | nil => intros; rfl
    | @cons a n as ns han _ ih =>
      intro offset p hp
      rw [blockShifts]
      congr 1
      · rw [hp offset le_rfl, shiftBlocks, if_pos (by omega)]
        simp [Nat.mod_eq_of_lt han]
      · refine ih (offset + n) p fun x hx => ?_
        rw [hp x (by omega), shiftBlocks, if_neg (by omega)]
  exact key orders exps h offset _ fun _ _ => rfl

theorem IsExps.pos {orders exps : List ℕ} (h : IsExps orders exps) : ∀ n ∈ orders, 0 < n := by
  induction h with
  | nil => simp
  | cons h _ ih =>
    intro n hn
    rcases List.mem_cons.1 hn with rfl | hn
    · omega
    · exact ih n hn

theorem IsExps.addExps {orders as bs : List ℕ} (hpos : ∀ n ∈ orders, 0 < n) (ha : as.length = orders.length)
    (hb : bs.length = orders.length) : IsExps orders (addExps orders as bs) := by
  induction orders generalizing as bs with
  | nil => exact .nil
  | cons n ns ih =>
    match as, bs, ha, hb with
    | a :: as, b :: bs, ha, hb =>
      exact .cons (Nat.mod_lt _ (hpos n List.mem_cons_self))
        (ih (fun k hk => hpos k (List.mem_cons_of_mem _ hk)) (by simpa using ha) (by simpa using hb))

/-- Different exponents give different array forms. -/
theorem shiftBlocks_inj {orders as bs : List ℕ} (ha : IsExps orders as) (hb : IsExps orders bs)
    (h : arrayForm orders.sum (shiftBlocks 0 orders as) = arrayForm orders.sum (shiftBlocks 0 orders bs)) : as = bs := by
  have h' : ∀ x < orders.sum, shiftBlocks 0 orders as x = shiftBlocks 0 orders bs x := by
    intro x hx
    have := List.map_inj_left.1 h x (List.mem_range.2 hx)
    exact this
  have key : ∀ (orders as : List ℕ), IsExps orders as → ∀ bs, IsExps orders bs → ∀ offset,
      (∀ x, offset ≤ x → x < offset + orders.sum →
        shiftBlocks offset orders as x = shiftBlocks offset orders bs x) → as = bs := by
    intro orders as ha
    induction ha with
    | nil => intro bs hb _ _; cases hb; rfl
    | @cons a n as ns han _ ih =>
      intro bs hb offset hh
      cases hb with
      | @cons b _ bs _ hbn hbs =>
        rw [List.sum_cons] at hh
        congr 1
        · have := hh offset le_rfl (by omega)
          rw [shiftBlocks, shiftBlocks, if_pos (by omega), if_pos (by omega)] at this
          simpa [Nat.mod_eq_of_lt han, Nat.mod_eq_of_lt hbn] using this
        · refine ih bs hbs (offset + n) fun x h1 h2 => ?_
          have := hh x (by omega) (by omega)
          rwa [shiftBlocks, shiftBlocks, if_neg (by omega), if_neg (by omega)] at this
  exact key orders as ha bs hb 0 fun x _ hx => h' x (by simpa using hx)

theorem mem_allPowers {orders exps : List ℕ} : exps ∈ allPowers orders ↔ IsExps orders exps := by
  induction orders generalizing exps with
  | nil => simp [allPowers, IsExps]
  | cons n ns ih =>
    simp only [allPowers, List.mem_flatMap, List.mem_range, List.mem_map, ih]
    constructor
    · rintro ⟨a, ha, as, has, rfl⟩
      exact .cons ha has
    · intro h
      cases h with
      | cons ha has => exact ⟨_, ha, _, has, rfl⟩

theorem allPowers_nodup (orders : List ℕ) : (allPowers orders).Nodup := by
  induction orders with
  | nil => simp [allPowers]
  | cons n ns ih =>
    rw [allPowers, List.nodup_flatMap]
    refine ⟨fun a _ => ih.map (fun x y h => (List.cons.inj h).2), ?_⟩
    refine List.nodup_range.imp ?_
    intro a b hab x hx hy
    simp only [List.mem_map] at hx hy
    obtain ⟨_, _, rfl⟩ := hx
    obtain ⟨_, _, h⟩ := hy
    exact hab (List.cons.inj h).1.symm

theorem allPowers_length (orders : List ℕ) : (allPowers orders).length = orders.prod := by
  induction orders with
  | nil => rfl
  | cons n ns ih => simp [allPowers, List.length_flatMap, ih]

theorem allPowers_getElem? {n : ℕ} {ns : List ℕ} {i : ℕ} (hi : i < (n :: ns).prod) :
    (allPowers (n :: ns))[i]? = ((allPowers ns)[i % ns.prod]?).map fun p => (i / ns.prod) :: p := by
  rw [List.prod_cons] at hi
  have hP : 0 < ns.prod := Nat.pos_of_ne_zero fun h => by rw [h] at hi; omega
  have hd : i / ns.prod < n := (Nat.div_lt_iff_lt_mul hP).2 hi
  rw [allPowers]
  have key : ∀ (m s : ℕ), (h : i / ns.prod < s + m) → (hs : s ≤ i / ns.prod) →
      ((List.range' s m).flatMap fun a => (allPowers ns).map fun p => a :: p)[i - s * ns.prod]? =
        ((allPowers ns)[i % ns.prod]?).map fun p => (i / ns.prod) :: p := by
    intro m
    induction m with
    | zero => intro s h hs; omega
    | succ m ih =>
      intro s h hs
      rw [List.range'_succ, List.flatMap_cons]
      have hdm := Nat.div_add_mod i ns.prod
      have hml := Nat.mod_lt i hP
      by_cases he : s = i / ns.prod
      · have hidx : i - s * ns.prod = i % ns.prod := by rw [he, Nat.mul_comm]; omega
        rw [hidx, List.getElem?_append_left (by rw [List.length_map, allPowers_length]; exact hml), List.getElem?_map, he]
      · have h2 : (s + 1) * ns.prod ≤ i := by
          calc (s + 1) * ns.prod ≤ (i / ns.prod) * ns.prod := Nat.mul_le_mul_right _ (by omega)
            _ ≤ i := Nat.div_mul_le_self i _
        have h3 : s * ns.prod + ns.prod ≤ i := by rw [← Nat.succ_mul]; exact h2
        rw [List.getElem?_append_right (by rw [List.length_map, allPowers_length]; omega), List.length_map,
          allPowers_length, ← ih (s + 1) (by omega) (by omega)]
        congr 1
        rw [Nat.succ_mul]
        omega
  have := key n 0 (by omega) (Nat.zero_le _)
  rwa [← List.range_eq_range', Nat.zero_mul, Nat.sub_zero] at this

theorem kronAll_eq (orders shifts : List ℕ) (h : shifts.length = orders.length) (hpos : ∀ n ∈ orders, 0 < n) :
    ∀ (acc : ℕ → ℕ → ℤ) (i j : ℕ), kronAll acc orders shifts i j =
      acc (i / orders.prod) (j / orders.prod) *
        kronAll (fun _ _ => 1) orders shifts (i % orders.prod) (j % orders.prod) := by
  induction orders generalizing shifts with
  | nil => intro acc i j; cases shifts <;> simp [kronAll]
  | cons n ns ih =>
    match shifts, h with
    | s :: ss, h =>
      intro acc i j
      have hn := hpos n List.mem_cons_self
      have ih' := ih ss (by simpa using h) fun k hk => hpos k (List.mem_cons_of_mem _ hk)
      rw [kronAll, kronAll, ih', ih' (kronMat n (fun _ _ => 1) (rollEye n s))]
      simp only [kronMat, List.prod_cons]
      have hdvd : ns.prod ∣ n * ns.prod := Dvd.intro_left n rfl
      rw [Nat.mod_mod_of_dvd _ hdvd, Nat.mod_mod_of_dvd _ hdvd, Nat.div_div_eq_div_mul, Nat.div_div_eq_div_mul,
        Nat.mul_comm ns.prod n, Nat.mod_mul_left_div_self, Nat.mod_mul_left_div_self]
      simp only [Nat.mod_mod]
      ring

/-- The Kronecker product of shift matrices is the permutation matrix that adds the shifts to the digits. -/
theorem kronAll_apply (orders shifts : List ℕ) (h : shifts.length = orders.length) (hpos : ∀ n ∈ orders, 0 < n) :
    ∀ {i j : ℕ} {I J : List ℕ}, (allPowers orders)[i]? = some I → (allPowers orders)[j]? = some J →
      kronAll (fun _ _ => 1) orders shifts i j = if I = addExps orders J shifts then 1 else 0 := by
  induction orders generalizing shifts with
  | nil =>
    intro i j I J hI hJ
    cases shifts <;> simp_all [kronAll, addExps, allPowers]
    rw [List.getElem?_eq_some_iff] at hI
    obtain ⟨hi, rfl⟩ := hI
    simp at hi
    simp
  | cons n ns ih =>
    match shifts, h with
    | s :: ss, h =>
      intro i j I J hI hJ
      have hlt : ∀ {k : ℕ} {K : List ℕ}, (allPowers (n :: ns))[k]? = some K → k < (n :: ns).prod := by
        intro k K hk
        rw [← allPowers_length]
        exact (List.getElem?_eq_some_iff.1 hk).1
      have hi := hlt hI
      have hj := hlt hJ
      rw [allPowers_getElem? hi, Option.map_eq_some_iff] at hI
      rw [allPowers_getElem? hj, Option.map_eq_some_iff] at hJ
      obtain ⟨I', hI', rfl⟩ := hI
      obtain ⟨J', hJ', rfl⟩ := hJ
      have hpos' : ∀ k ∈ ns, 0 < k := fun k hk => hpos k (List.mem_cons_of_mem _ hk)
      rw [kronAll, kronAll_eq ns ss (by simpa using h) hpos', ih ss (by simpa using h) hpos' hI' hJ', kronMat]
      have hP : 0 < ns.prod := Nat.pos_of_ne_zero fun h => by rw [List.prod_cons, h] at hi; simp at hi
      rw [List.prod_cons] at hi hj
      have hdi : i / ns.prod < n := (Nat.div_lt_iff_lt_mul hP).2 hi
      have hdj : j / ns.prod < n := (Nat.div_lt_iff_lt_mul hP).2 hj
      rw [Nat.mod_eq_of_lt hdi, Nat.mod_eq_of_lt hdj, rollEye, addExps]
      by_cases h1 : i / ns.prod = (j / ns.prod + s) % n
      · by_cases h2 : I' = addExps ns J' ss
        · rw [if_pos h1, if_pos h2, if_pos (by rw [h1, h2])]; ring
        · have h3 : i / ns.prod :: I' ≠ (j / ns.prod + s) % n :: addExps ns J' ss :=
            fun hc => h2 (List.cons.inj hc).2
          rw [if_neg h2, if_neg h3]; ring
      · have h3 : i / ns.prod :: I' ≠ (j / ns.prod + s) % n :: addExps ns J' ss :=
          fun hc => h1 (List.cons.inj hc).1
        rw [if_neg h1, if_neg h3]; ring

theorem blockDiagRolls_cons (n s : ℕ) (ns ss : List ℕ) (i j : ℕ) : blockDiagRolls (n :: ns) (s :: ss) i j =
    if i < n ∧ j < n then rollEye n s i j
    else if n ≤ i ∧ n ≤ j then blockDiagRolls ns ss (i - n) (j - n) else 0 := rfl

theorem blockDiagRolls_apply {orders shifts : List ℕ} (h : IsExps orders shifts) {x y : ℕ} (hx : x < orders.sum)
    (hy : y < orders.sum) : blockDiagRolls orders shifts y x = if y = shiftBlocks 0 orders shifts x then 1 else 0 := by
  have key : ∀ (orders shifts : List ℕ), IsExps orders shifts → ∀ (o x y : ℕ), x < orders.sum → y < orders.sum →
      blockDiagRolls orders shifts y x = if o + y = shiftBlocks o orders shifts (o + x) then 1 else 0 := by
    intro orders shifts h
    induction h with
    | nil => intro o x y hx; simp at hx
    | @cons s n ss ns hs _ ih =>
      intro o x y hx hy
      rw [List.sum_cons] at hx hy
      rw [blockDiagRolls_cons, shiftBlocks_cons]
      by_cases hxn : x < n
      · rw [if_pos (show o ≤ o + x ∧ o + x < o + n by omega), Nat.add_sub_cancel_left]
        have hm := Nat.mod_lt (x + s) (show 0 < n by omega)
        by_cases hyn : y < n
        · rw [if_pos ⟨hyn, hxn⟩, rollEye]
          simp only [Nat.add_left_cancel_iff]
        · rw [if_neg (by omega), if_neg (by omega), if_neg (by omega)]
      · rw [if_neg (show ¬ (o ≤ o + x ∧ o + x < o + n) by omega)]
        by_cases hyn : y < n
        · rw [if_neg (by omega), if_neg (by omega)]
          have hge := shiftBlocks_high ns ss (show o + n ≤ o + x by omega)
          rw [if_neg (by omega)]
        · rw [if_neg (by omega), if_pos (by omega), ih (o + n) (x - n) (y - n) (by omega) (by omega)]
          rw [show o + n + (y - n) = o + y by omega, show o + n + (x - n) = o + x by omega]
  have := key orders shifts h 0 x y hx hy
  simpa using this

theorem uniqGens_eq (degree : ℕ) (gens : List (ℕ → ℕ)) (h : (gens.map (arrayForm degree)).Nodup) :
    uniqGens degree gens = gens := by
  have key : ∀ (l acc : List (ℕ → ℕ)), ((acc ++ l).map (arrayForm degree)).Nodup →
      l.foldl (fun acc g => if acc.any fun h => arrayForm degree h = arrayForm degree g then acc else acc ++ [g]) acc =
        acc ++ l := by
    intro l
    induction l with
    | nil => simp
    | cons g l ih =>
      intro acc h
      rw [List.foldl_cons]
      have hany : (acc.any fun h => decide (arrayForm degree h = arrayForm degree g)) = false := by
        rw [List.any_eq_false]
        intro p hp
        rw [decide_eq_true_eq]
        intro he
        rw [List.map_append, List.nodup_append] at h
        exact h.2.2 _ (List.mem_map_of_mem hp) _ (List.mem_map_of_mem List.mem_cons_self) he
      rw [hany]
      simp only [Bool.false_eq_true, if_false]
      rw [ih (acc ++ [g]) (by simpa using h)]
      simp
  exact key gens [] (by simpa using h)

theorem abelianGens_nodup {orders : List ℕ} (hpos : ∀ n ∈ orders, 0 < n)
    (h : orders.Pairwise fun n m => ¬ (n = 1 ∧ m = 1)) (offset degree : ℕ) (hd : offset + orders.sum ≤ degree) :
    ((abelianGens offset orders).map (arrayForm degree)).Nodup := by
  have mem : ∀ (orders : List ℕ) (offset : ℕ) (g : ℕ → ℕ), g ∈ abelianGens offset orders →
      ∃ o, ∃ n ∈ orders, g = cyclicGen o n ∧ offset ≤ o ∧ o + n ≤ offset + orders.sum := by
    intro orders
    induction orders with
    | nil => intro _ _ hg; simp [abelianGens] at hg
    | cons n ns ih =>
      intro offset g hg
      rw [List.sum_cons]
      rcases List.mem_cons.1 hg with rfl | hg
      · exact ⟨offset, n, List.mem_cons_self, rfl, le_rfl, by omega⟩
      · obtain ⟨o, m, hm, h1, h2, h3⟩ := ih _ _ hg
        exact ⟨o, m, List.mem_cons_of_mem _ hm, h1, by omega, by omega⟩
  induction orders generalizing offset with
  | nil => simp [abelianGens]
  | cons n ns ih =>
    rw [List.sum_cons] at hd
    rw [List.pairwise_cons] at h
    rw [abelianGens, List.map_cons, List.nodup_cons]
    refine ⟨?_, ih (fun k hk => hpos k (List.mem_cons_of_mem _ hk)) h.2 _ (by omega)⟩
    intro hm
    obtain ⟨g, hg, he⟩ := List.mem_map.1 hm
    obtain ⟨o, m, hmem, rfl, h1, h2⟩ := mem _ _ _ hg
    have hn := hpos n List.mem_cons_self
    have hm0 := hpos m (List.mem_cons_of_mem _ hmem)
    have hne := h.1 m hmem
    have hval : ∀ x < degree, cyclicGen o m x = cyclicGen offset n x := fun x hx =>
      List.map_inj_left.1 he x (List.mem_range.2 hx)
    have e1 := hval offset (by omega)
    have e2 := hval o (by omega)
    unfold cyclicGen at e1 e2
    split_ifs at e1 e2 <;> omega

/-- The orders for which the generators of sympy match the orders: none is 1, or, if identities are kept, at most one. -/
def GoodOrders (drop : Bool) (orders : List ℕ) : Prop :=
  (∀ n ∈ orders, 1 < n) ∨ (drop = false ∧ (∀ n ∈ orders, 0 < n) ∧ orders.Pairwise fun n m => ¬ (n = 1 ∧ m = 1))

theorem GoodOrders.pos {drop : Bool} {orders : List ℕ} (h : GoodOrders drop orders) : ∀ n ∈ orders, 0 < n := by
  rcases h with h | h
  · exact fun n hn => Nat.lt_trans Nat.zero_lt_one (h n hn)
  · exact h.2.1

theorem cyclicGen_ne_id {offset n degree : ℕ} (hn : 1 < n) (hd : offset + n ≤ degree) :
    arrayForm degree (cyclicGen offset n) ≠ List.range degree := by
  intro h
  have : List.map (cyclicGen offset n) (List.range degree) = List.map id (List.range degree) := by
    rw [List.map_id]; exact h
  have := List.map_inj_left.1 this offset (List.mem_range.2 (by omega))
  unfold cyclicGen at this
  rw [if_pos (by omega)] at this
  split_ifs at this
  · omega
  · simp at this

theorem sympyGens_eq {drop : Bool} {orders : List ℕ} (h : GoodOrders drop orders) :
    sympyGens drop orders.sum (abelianGens 0 orders) = abelianGens 0 orders := by
  have hpair : orders.Pairwise fun n m => ¬ (n = 1 ∧ m = 1) := by
    rcases h with h | h
    · exact List.Pairwise.imp_of_mem (R := fun _ _ => True)
        (fun {a b} ha _ _ hc => by have := h a ha; omega) (List.pairwise_of_forall fun _ _ => trivial)
    · exact h.2.2
  unfold sympyGens
  rw [uniqGens_eq _ _ (abelianGens_nodup h.pos hpair 0 _ (by omega))]
  simp only
  split_ifs with hc
  · rcases h with h | h
    · rw [List.filter_eq_self]
      have key : ∀ (orders : List ℕ) (offset degree : ℕ), (∀ n ∈ orders, 1 < n) → offset + orders.sum ≤ degree →
          ∀ g ∈ abelianGens offset orders, arrayForm degree g ≠ List.range degree := by
        intro orders
        induction orders with
        | nil => intro _ _ _ _ g hg; simp [abelianGens] at hg
        | cons n ns ih =>
          intro offset degree h1 hd g hg
          rw [List.sum_cons] at hd
          rcases List.mem_cons.1 hg with rfl | hg
          · exact cyclicGen_ne_id (h1 n List.mem_cons_self) (by omega)
          · exact ih (offset + n) degree (fun k hk => h1 k (List.mem_cons_of_mem _ hk)) (by omega) g hg
      intro g hg
      simpa using key orders 0 _ h (by omega) g hg
    · rw [h.1] at hc
      simp at hc
  · rfl

end QLDPC
