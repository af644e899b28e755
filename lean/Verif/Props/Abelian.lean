import Verif.Lemmas.Abelian
import Verif.Props.Groups

/-!
# C42: abelian and cyclic groups

The permutation with exponents `a_1, ..., a_m` is specified by `shiftBlocks 0 orders exps`: it moves the points of the
`i`-th block cyclically by `a_i`.
-/

namespace QLDPC.Props

open QLDPC

/-- Specification: the product of sympy, first `p` and then `q`. -/
def permThen (p q : ℕ → ℕ) : ℕ → ℕ := fun x => q (p x)

variable {orders : List ℕ}

theorem generate_eq {drop : Bool} (h : GoodOrders drop orders) :
    abelianGenerate drop orders = (allPowers orders).map (shiftBlocks 0 orders) := by
  rw [abelianGenerate, sympyGens_eq h]
  refine List.map_congr_left fun exps _ => ?_
  exact powerProduct_gens h.pos 0

/-- C42: the product of the generators to the powers `exps` is the permutation that moves each block by its exponent. -/
theorem C42_power_product {drop : Bool} (h : GoodOrders drop orders)
    (exps : List ℕ) :
    powerProduct (sympyGens drop orders.sum (abelianGens 0 orders)) exps = shiftBlocks 0 orders exps := by
  rw [sympyGens_eq h, powerProduct_gens h.pos]

/-- C42: members are multiplied by adding exponents modulo the orders. -/
theorem C42_multiplication (hpos : ∀ n ∈ orders, 0 < n) {as bs : List ℕ} (ha : as.length = orders.length)
    (hb : bs.length = orders.length) :
    permThen (shiftBlocks 0 orders as) (shiftBlocks 0 orders bs) = shiftBlocks 0 orders (addExps orders as bs) :=
  funext fun x => shiftBlocks_mul hpos ha hb 0 x

/-- C42: `generate()` lists every member exactly once: the array forms are different, there are as many as the product of
the orders, and every list of exponents gives a member of the list. -/
theorem C42_generate_partial {drop : Bool} (h : GoodOrders drop orders) :
    ((abelianGenerate drop orders).map (arrayForm orders.sum)).Nodup ∧
    (abelianGenerate drop orders).length = orders.prod ∧
    ∀ exps : List ℕ, exps.length = orders.length → shiftBlocks 0 orders exps ∈ abelianGenerate drop orders := by
  rw [generate_eq h]
  refine ⟨?_, by rw [List.length_map, allPowers_length], ?_⟩
  · rw [List.map_map]
    refine (allPowers_nodup orders).map_on fun a ha b hb h => ?_
    exact shiftBlocks_inj (mem_allPowers.1 ha) (mem_allPowers.1 hb) h
  · intro exps he
    have hz : ∀ (orders exps : List ℕ), exps.length = orders.length →
        ∀ o, shiftBlocks o orders exps = shiftBlocks o orders (addExps orders exps (orders.map fun _ => 0)) := by
      intro orders
      induction orders with
      | nil => intro exps _ o; cases exps <;> rfl
      | cons n ns ih =>
        intro exps he o
        match exps, he with
        | a :: as, he =>
          funext x
          rw [List.map_cons, addExps, shiftBlocks_cons, shiftBlocks_cons, ← ih as (by simpa using he)]
          simp
    rw [hz orders exps he]
    exact List.mem_map_of_mem (mem_allPowers.2 (IsExps.addExps h.pos he (by simp)))

/-- C42: the first member that `generate()` yields is the identity. -/
theorem C42_identity_first_partial {drop : Bool} (h : GoodOrders drop orders) :
    ∃ p, (abelianGenerate drop orders)[0]? = some p ∧ ∀ x < orders.sum, p x = x := by
  rw [generate_eq h]
  have hfirst : ∀ orders : List ℕ, (∀ n ∈ orders, 0 < n) → (allPowers orders)[0]? = some (orders.map fun _ => 0) := by
    intro orders
    induction orders with
    | nil => intro _; rfl
    | cons n ns ih =>
      intro hpos
      have hP : 0 < (n :: ns).prod := List.prod_pos hpos
      rw [allPowers_getElem? hP, Nat.zero_mod, ih fun k hk => hpos k (List.mem_cons_of_mem _ hk)]
      simp
  have hid : ∀ (orders : List ℕ) (o x : ℕ), x < o + orders.sum → shiftBlocks o orders (orders.map fun _ => 0) x = x := by
    intro orders
    induction orders with
    | nil => intros; rfl
    | cons n ns ih =>
      intro o x hx
      rw [List.sum_cons] at hx
      rw [List.map_cons, shiftBlocks_cons]
      split_ifs with h
      · rw [Nat.add_zero, Nat.mod_eq_of_lt (by omega)]
        omega
      · exact ih _ x (by omega)
  refine ⟨shiftBlocks 0 orders (orders.map fun _ => 0), ?_, fun x hx => hid orders 0 x (by omega)⟩
  rw [List.getElem?_map, hfirst orders h.pos]
  rfl

/-- C42: the lift reads the exponents off the permutation, and is the matrix of the Kronecker product of cyclic shifts:
in the basis of the members in the order of `generate()`, it maps the member with exponents `J` to the one with exponents
`J + exps`. -/
theorem C42_lift {exps : List ℕ} (he : IsExps orders exps) {i j : ℕ} {I J : List ℕ}
    (hI : (allPowers orders)[i]? = some I) (hJ : (allPowers orders)[j]? = some J) :
    abelianLift orders (shiftBlocks 0 orders exps) i j = if I = addExps orders J exps then 1 else 0 := by
  rw [abelianLift, blockShifts_eq he]
  exact kronAll_apply orders exps he.length_eq he.pos hI hJ

/-- C42: so it is the regular lift for the order of `generate()`: the entry at `i`, `j` is one if the `i`-th member is the
product of the `j`-th one and the lifted one, and zero otherwise. -/
theorem C42_lift_regular_partial {drop : Bool} (h1 : GoodOrders drop orders) {exps : List ℕ}
    (he : IsExps orders exps) {i j : ℕ} {p q : ℕ → ℕ} (hp : (abelianGenerate drop orders)[i]? = some p)
    (hq : (abelianGenerate drop orders)[j]? = some q) :
    abelianLift orders (shiftBlocks 0 orders exps) i j =
      if arrayForm orders.sum p = arrayForm orders.sum (permThen q (shiftBlocks 0 orders exps)) then 1 else 0 := by
  rw [generate_eq h1, List.getElem?_map, Option.map_eq_some_iff] at hp hq
  obtain ⟨I, hI, rfl⟩ := hp
  obtain ⟨J, hJ, rfl⟩ := hq
  have hIe := mem_allPowers.1 (List.mem_of_getElem? hI)
  have hJe := mem_allPowers.1 (List.mem_of_getElem? hJ)
  rw [C42_lift he hI hJ, C42_multiplication he.pos hJe.length_eq he.length_eq]
  have hadd := IsExps.addExps he.pos hJe.length_eq he.length_eq
  by_cases h : I = addExps orders J exps
  · rw [if_pos h, if_pos (by rw [h])]
  · rw [if_neg h, if_neg fun hc => h (shiftBlocks_inj hIe hadd hc)]

/-- C42: with `direct_sum=True` the lift is the permutation matrix of the member: it maps the basis vector of a point to
that of its image. -/
theorem C42_lift_direct_sum {exps : List ℕ} (he : IsExps orders exps) {x y : ℕ} (hx : x < orders.sum)
    (hy : y < orders.sum) :
    abelianLiftSum orders (shiftBlocks 0 orders exps) y x = if y = shiftBlocks 0 orders exps x then 1 else 0 := by
  rw [abelianLiftSum, blockShifts_eq he]
  exact blockDiagRolls_apply he hx hy

/-- C42: the lift of `g^p` in `CyclicGroup(n)` is the identity matrix with rows moved down by `p`: its column `j` is the
basis vector `j + p`. -/
theorem C42_cyclic_lift {n p : ℕ} (hp : p < n) (i j : ℕ) :
    cyclicLift n ((cyclicGen 0 n)^[p]) i j = if i = (j + p) % n then 1 else 0 := by
  have h0 : (cyclicGen 0 n)^[p] 0 = p := by
    rw [cyclicGen_iterate (by omega), if_pos (by omega)]
    simp [Nat.mod_eq_of_lt hp]
  rw [cyclicLift, h0, rollEye]

/-- C42: the lift of a cyclic group is a representation. -/
theorem C42_cyclic_lift_mul {n p q : ℕ} (hp : p < n) (hq : q < n) {i j : ℕ} (hi : i < n) (hj : j < n) :
    cyclicLift n ((cyclicGen 0 n)^[(p + q) % n]) i j =
      ∑ k ∈ Finset.range n, cyclicLift n ((cyclicGen 0 n)^[p]) i k * cyclicLift n ((cyclicGen 0 n)^[q]) k j := by
  have hn : 0 < n := by omega
  simp only [C42_cyclic_lift hp, C42_cyclic_lift hq, C42_cyclic_lift (Nat.mod_lt (p + q) hn)]
  rw [Finset.sum_eq_single ((j + q) % n)]
  · simp only [if_true, mul_one, Nat.mod_add_mod, Nat.add_mod_mod]
    rw [show j + q + p = j + (p + q) by omega]
  · intro k hk hne
    rw [if_neg hne, mul_zero]
  · intro h
    exact absurd (Finset.mem_range.2 (Nat.mod_lt _ hn)) h

/-! ### Cases that meet the hypotheses, and a case against the claim -/

example : GoodOrders true [2, 4, 3] ∧ GoodOrders false [2, 1, 3] ∧ IsExps [2, 1, 3] [1, 0, 2] := by
  refine ⟨Or.inl (by decide), Or.inr ⟨rfl, by decide, by decide⟩, ?_⟩
  exact .cons (by decide) (.cons (by decide) (.cons (by decide) .nil))

/-- The five points of `AbelianGroup(2, 3)`: the member with exponents 1 and 2. -/
example : arrayForm 5 (shiftBlocks 0 [2, 3] [1, 2]) = [1, 0, 4, 2, 3] := by decide +kernel

example : (abelianGenerate true [2, 3]).map (arrayForm 5) =
    [[0, 1, 2, 3, 4], [0, 1, 3, 4, 2], [0, 1, 4, 2, 3], [1, 0, 2, 3, 4], [1, 0, 3, 4, 2], [1, 0, 4, 2, 3]] := by
  decide +kernel

/-- Disagreement: sympy drops the second of two equal generators, so that the exponents of `AbelianGroup(1, 1, 3)` are
matched with the wrong generators: `generate()` yields the identity three times, whether or not sympy drops
identities. -/
theorem C42_disagreement (drop : Bool) :
    (abelianGenerate drop [1, 1, 3]).map (arrayForm 5) =
      [[0, 1, 2, 3, 4], [0, 1, 2, 3, 4], [0, 1, 2, 3, 4]] := by
  revert drop
  decide +kernel

/-- If sympy drops identities, the same happens for `AbelianGroup(1, 3)`. -/
example : (abelianGenerate true [1, 3]).map (arrayForm 4) = [[0, 1, 2, 3], [0, 1, 2, 3], [0, 1, 2, 3]] := by
  decide +kernel

/-- Disagreement: the docstring of `CyclicGroup` says `<i| L(g^p) = <i + p mod R|`; row `i` of the lift of `g` for
`R = 3` has its one in column `i - 1`. -/
theorem C42_docstring_disagreement :
    ¬ ∀ i < 3, ∀ j < 3, cyclicLift 3 ((cyclicGen 0 3)^[1]) i j = if j = (i + 1) % 3 then 1 else 0 := by
  decide +kernel

#print axioms C42_power_product
#print axioms C42_multiplication
#print axioms C42_generate_partial
#print axioms C42_identity_first_partial
#print axioms C42_lift
#print axioms C42_lift_regular_partial
#print axioms C42_lift_direct_sum
#print axioms C42_cyclic_lift
#print axioms C42_cyclic_lift_mul
#print axioms C42_disagreement
#print axioms C42_docstring_disagreement

/-! ### Instances of the theorems: concrete cases meet the hypotheses -/

example := C42_power_product (orders := [2, 3, 4]) (drop := true) (Or.inl (by decide)) [1, 5, 3]
example := C42_multiplication (orders := [2, 1, 3]) (by decide) (as := [1, 0, 2]) (bs := [1, 0, 2]) rfl rfl
example := C42_generate_partial (orders := [2, 1, 3]) (drop := false) (Or.inr ⟨rfl, by decide, by decide⟩)
example := C42_identity_first_partial (orders := [2, 3, 4]) (drop := true) (Or.inl (by decide))
example := C42_lift (orders := [2, 3]) (exps := [1, 2]) (by simp [IsExps]) (i := 4) (j := 5) (I := [1, 1]) (J := [1, 2])
  (by decide +kernel) (by decide +kernel)
example := C42_lift_regular_partial (orders := [2, 3]) (drop := true) (Or.inl (by decide)) (exps := [1, 2]) (by simp [IsExps])
  (i := 1) (j := 2) (List.getElem?_eq_getElem (by decide +kernel)) (List.getElem?_eq_getElem (by decide +kernel))
example := C42_lift_direct_sum (orders := [2, 3]) (exps := [1, 2]) (by simp [IsExps]) (x := 1) (y := 4) (by decide) (by decide)
example := C42_cyclic_lift (n := 5) (p := 3) (by decide) 1 4
example := C42_cyclic_lift_mul (n := 5) (p := 3) (q := 4) (by decide) (by decide) (i := 1) (j := 4) (by decide) (by decide)

end QLDPC.Props
