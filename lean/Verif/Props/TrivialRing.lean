import Verif.Model.TrivialRing
import Verif.Props.LiftedProduct
import Verif.Props.Text
import Verif.Props.Idempotents
import Mathlib.Data.ZMod.Basic
import Mathlib.Algebra.CharP.Lemmas
import Mathlib.SetTheory.Cardinal.Finite

/-!
# C92: matrices as arrays over the trivial group
-/

namespace QLDPC.Props

open QLDPC QLDPC.Spec Matrix

variable {F : Type} [Field F] [DecidableEq F] {n m : ℕ}

theorem trivialEntry_get (v : ℤ) (u : Unit) : (trivialEntry v : RMember F Unit).get u = (v : F) := by
  cases u
  unfold trivialEntry
  by_cases h : v = 0
  · subst h
    simp [RMember.zero, RMember.ofTerms, RMember.get]
  · rw [if_pos h]
    simp [RMember.one, RMember.ofTerms, RMember.addAt, RMember.mulInt, RMember.setAt, RMember.zero, RMember.get]

theorem trivialEntry_lift (v : ℤ) : RMember.lift trivialLift (trivialEntry v : RMember F Unit) = fun _ _ => (v : F) := by
  funext s t
  unfold trivialEntry
  by_cases h : v = 0
  · subst h
    simp [RMember.zero, RMember.ofTerms, RMember.lift]
  · rw [if_pos h]
    by_cases hv : (v : F) = 0
    · simp [RMember.one, RMember.ofTerms, RMember.addAt, RMember.mulInt, RMember.setAt, RMember.zero, RMember.lift, hv]
    · simp [RMember.one, RMember.ofTerms, RMember.addAt, RMember.mulInt, RMember.setAt, RMember.zero, RMember.lift, hv,
        trivialLift]

/-- **C92**: the lift of `to_ring_array(data)` has the shape of the data, and its entries are the integers of the data
as multiples of 1. -/
theorem C92_lift (M : List (Fin n → ℤ)) (i : Fin ((toRingArray M : RingRows (RMember F Unit) n).length * 1)) (j : Fin (n * 1)) :
    (toRingArray M : RingRows (RMember F Unit) n).length * 1 = M.length ∧
    ∃ (hi : i.val < M.length) (hj : j.val < n),
      liftArray (RMember.lift trivialLift) (asMatrix (toRingArray M : RingRows (RMember F Unit) n)) i j =
        (M[i.val] ⟨j.val, hj⟩ : F) := by
  have hl : (toRingArray M : RingRows (RMember F Unit) n).length * 1 = M.length := by simp [toRingArray]
  refine ⟨hl, by omega, by omega, ?_⟩
  unfold liftArray
  have e : asMatrix (toRingArray M : RingRows (RMember F Unit) n) i.divNat j.divNat = trivialEntry ((M[i.val]'(by omega)) ⟨j.val, by omega⟩) := by
    unfold asMatrix toRingArray
    simp [Fin.divNat]
  rw [e, trivialEntry_lift]

/-- `to_ring_array` of a field array, lifted. -/
def roundTrip (fi : FieldInts F) (A : Rows F n) : Rows F (n * 1) :=
  rowsOf (liftArray (RMember.lift trivialLift) (asMatrix (toRingArray (arrayInts fi A) : RingRows (RMember F Unit) n)))

theorem roundTrip_entry (fi : FieldInts F) (A : Rows F n) (i j : ℕ) (hi : i < A.length) (hj : j < n) :
    matEntry (roundTrip fi A) i j = ((fi.toInt (matEntry A i j) : ℤ) : F) := by
  have hl : (toRingArray (arrayInts fi A) : RingRows (RMember F Unit) n).length * 1 = A.length := by
    simp [toRingArray, arrayInts]
  have h1 := matEntry_rowsOf (liftArray (RMember.lift trivialLift)
    (asMatrix (toRingArray (arrayInts fi A) : RingRows (RMember F Unit) n))) ⟨i, by omega⟩ ⟨j, by omega⟩
  obtain ⟨-, hi', hj', h2⟩ := C92_lift (F := F) (arrayInts fi A) ⟨i, by omega⟩ ⟨j, by omega⟩
  rw [roundTrip]
  simp only at h1 h2
  rw [h1, h2]
  have h3 := matEntry_of_getElem? (List.getElem?_eq_getElem hi) ⟨j, hj⟩
  simp only at h3
  rw [h3]
  have h4 : (arrayInts fi A)[i]'hi' = fun j => fi.toInt (A[i] j) :=
    List.getElem_map (fun (r : Fin n → F) j => fi.toInt (r j))
  simp only [h4]

/-- The lift gives back every field array exactly if every element of the field is a multiple of 1, namely by its own
number. -/
theorem C92_round_trip (fi : FieldInts F) :
    (∀ (n : ℕ) (A : Rows F n), (roundTrip fi A).length = A.length ∧ ∀ i j, matEntry (roundTrip fi A) i j = matEntry A i j) ↔
      ∀ x : F, ((fi.toInt x : ℤ) : F) = x := by
  have hlen : ∀ (n : ℕ) (A : Rows F n), (roundTrip fi A).length = A.length := by
    intro n A
    rw [roundTrip, length_rowsOf]
    simp [toRingArray, arrayInts]
  constructor
  · intro h x
    have h1 := (h 1 [fun _ => x]).2 0 0
    rw [roundTrip_entry fi _ 0 0 (by simp) (by omega)] at h1
    have h2 : matEntry [fun _ : Fin 1 => x] 0 0 = x := matEntry_of_getElem? (A := [fun _ : Fin 1 => x]) (i := 0) rfl 0
    rwa [h2] at h1
  · intro h n A
    refine ⟨hlen n A, fun i j => ?_⟩
    by_cases hij : i < A.length ∧ j < n
    · rw [roundTrip_entry fi A i j hij.1 hij.2, h]
    · rw [matEntry_out _ (by rw [hlen]; omega), matEntry_out _ (by omega)]

/-- **C92** over prime fields: the lift of `to_ring_array(A)` is `A`. -/
theorem C92_prime (p : ℕ) [Fact p.Prime] (A : Rows (ZMod p) n) :
    (roundTrip (primeInts p) A).length = A.length ∧ ∀ i j, matEntry (roundTrip (primeInts p) A) i j = matEntry A i j :=
  (C92_round_trip (primeInts p)).2 (fun x => by simp [primeInts]) n A

/-- **C92** for matrices of 0s and 1s, as in the docstring: the lift is the matrix, over every field. -/
theorem C92_bits (fi : FieldInts F) (hfi : FieldInts.Ok fi) (A : Rows F n) (hA : ∀ i j, matEntry A i j = 0 ∨ matEntry A i j = 1) :
    ∀ i j, i < A.length → j < n → matEntry (roundTrip fi A) i j = matEntry A i j := by
  intro i j hi hj
  rw [roundTrip_entry fi A i j hi hj]
  rcases hA i j with h | h
  · rw [h, hfi.zero]; simp
  · rw [h, hfi.one]; simp

/-- **C92** fails over every finite field whose order is not prime: some 1 × 1 array is not given back, whatever the numbers
of the field elements. -/
theorem C92_disagreement [Finite F] (h : ¬ (Nat.card F).Prime) (fi : FieldInts F) :
    ∃ x : F, matEntry (roundTrip fi [fun _ : Fin 1 => x]) 0 0 ≠ matEntry [fun _ : Fin 1 => x] 0 0 := by
  by_contra hcon
  push Not at hcon
  have hx : ∀ x : F, ((fi.toInt x : ℤ) : F) = x := by
    intro x
    have h1 := hcon x
    rw [roundTrip_entry fi _ 0 0 (by simp) (by omega)] at h1
    have h2 : matEntry [fun _ : Fin 1 => x] 0 0 = x := matEntry_of_getElem? (A := [fun _ : Fin 1 => x]) (i := 0) rfl 0
    rwa [h2] at h1
  obtain ⟨p, hp⟩ := CharP.exists F
  have hp0 : p ≠ 0 := CharP.char_ne_zero_of_finite F p
  have hpp : p.Prime := (CharP.char_is_prime_or_zero F p).resolve_right hp0
  have hbij : Function.Bijective (ZMod.castHom (dvd_refl p) F) := by
    refine ⟨ZMod.castHom_injective F, fun x => ⟨(fi.toInt x : ZMod p), ?_⟩⟩
    rw [map_intCast]
    exact hx x
  have hc := Nat.card_congr (Equiv.ofBijective _ hbij)
  rw [Nat.card_zmod] at hc
  exact h (hc ▸ hpp)

/-- `to_ring_array` with entries as coefficient functions. -/
def toRingRows (fi : FieldInts F) (A : Rows F n) : Rows (GAlg F Unit) n :=
  (toRingArray (arrayInts fi A) : RingRows (RMember F Unit) n).map fun r j => (r j).toGAlg

/-- **C92** for lifted products: over a field all of whose elements are multiples of 1 by their numbers, the lifted product
of `to_ring_array(A)` and `to_ring_array(B)` is the hypergraph product of `A` and `B`, the subsystem lifted product is their
subsystem hypergraph product. -/
theorem C92_products (fi : FieldInts F) (hfi : ∀ x : F, ((fi.toInt x : ℤ) : F) = x) (A : Rows F n) (B : Rows F m) :
    (∀ i j, matEntry (lpMatrices GAlg.transpose (scalarLift fun x : GAlg F Unit => x.coef ()) (toRingRows fi A) (toRingRows fi B)).1 i j =
        matEntry (hgpX id A B) i j ∧
      matEntry (lpMatrices GAlg.transpose (scalarLift fun x : GAlg F Unit => x.coef ()) (toRingRows fi A) (toRingRows fi B)).2 i j =
        matEntry (hgpZ id A B) i j) ∧
    (∀ i j, matEntry (slpMatrices (scalarLift fun x : GAlg F Unit => x.coef ()) (toRingRows fi A) (toRingRows fi B)).1 i j =
        matEntry (shpX A B) i j ∧
      matEntry (slpMatrices (scalarLift fun x : GAlg F Unit => x.coef ()) (toRingRows fi A) (toRingRows fi B)).2 i j =
        matEntry (shpZ A B) i j) := by
  have back : ∀ {k : ℕ} (C : Rows F k), ((toRingRows fi C).map fun r j => (r j).coef ()) = C := by
    intro k C
    unfold toRingRows toRingArray arrayInts
    simp only [List.map_map]
    conv_rhs => rw [← List.map_id C]
    apply List.map_congr_left
    intro r _
    funext j
    simp only [Function.comp, RMember.toGAlg, GAlg.coef, trivialEntry_get, hfi, id]
  have h := C89_scalar GAlg.transpose (fun x : GAlg F Unit => x.coef ()) rfl rfl (fun _ => rfl) (fun _ => rfl) (toRingRows fi A)
    (toRingRows fi B)
  rw [back A, back B] at h
  exact ⟨h.1, h.2.1⟩

/-- The lift in `C92_products` is the one of the ring, on the entries that occur. -/
theorem C92_products_lift (v : ℤ) : scalarLift (fun x : GAlg F Unit => x.coef ()) (trivialEntry v : RMember F Unit).toGAlg =
    RMember.lift trivialLift (trivialEntry v : RMember F Unit) := by
  rw [trivialEntry_lift]
  funext s t
  simp [scalarLift, RMember.toGAlg, GAlg.coef, trivialEntry_get]

section Examples

example : ∀ i j, matEntry (roundTrip (primeInts 3) [![1, 2, 0], ![2, 2, 1]]) i j = matEntry [![1, 2, 0], ![2, 2, 1]] i j :=
  (C92_prime 3 _).2

/-- The field with 16 elements meets the hypotheses of `C92_disagreement`. -/
example : ∃ x : GF16, matEntry (roundTrip gf16Ints [fun _ : Fin 1 => x]) 0 0 ≠ matEntry [fun _ : Fin 1 => x] 0 0 :=
  C92_disagreement (by
    have : Nat.card GF16 = 16 := by
      rw [Nat.card_eq_fintype_card]
      decide +kernel
    rw [this]
    decide) gf16Ints

example : FieldInts.Ok gf16Ints ∧ ∀ i j, matEntry ([![1, 0], ![1, 1]] : Rows GF16 2) i j = 0 ∨
    matEntry ([![1, 0], ![1, 1]] : Rows GF16 2) i j = 1 := by
  refine ⟨gf16Ints_ok, fun i j => ?_⟩
  by_cases h : i < 2 ∧ j < 2
  · obtain ⟨h1, h2⟩ := h
    interval_cases i <;> interval_cases j <;> decide +kernel
  · left
    apply matEntry_out
    simp only [List.length_cons, List.length_nil]
    omega

example : ∀ x : ZMod 5, (((primeInts 5).toInt x : ℤ) : ZMod 5) = x := fun x => by simp [primeInts]

end Examples

#print axioms C92_lift
#print axioms C92_round_trip
#print axioms C92_prime
#print axioms C92_bits
#print axioms C92_disagreement
#print axioms C92_products
#print axioms C92_products_lift

/-! ### Instances of the theorems: concrete cases meet the hypotheses -/

private def bitRows : Rows (ZMod 3) 2 := [![1, 0], ![1, 1]]
example := C92_products (primeInts 3) (by decide) bitRows bitRows

example := C92_bits (primeInts 3) (primeInts_ok 3 (by decide)) [![1, 0], ![1, 1]] (by
  intro i j
  by_cases hi : i < 2
  · by_cases hj : j < 2
    · interval_cases i <;> interval_cases j <;> decide
    · left; interval_cases i <;> simp [matEntry, entryAt, hj]
  · left; simp [matEntry, List.getElem?_eq_none (show ([![1, 0], ![1, 1]] : Rows (ZMod 3) 2).length ≤ i by simp; omega)]) 1 0 (by decide) (by decide)

end QLDPC.Props
