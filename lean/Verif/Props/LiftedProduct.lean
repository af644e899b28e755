import Verif.Model.LiftedProduct
import Verif.Props.Product
import Verif.Lemmas.GraphMatrix

/-!
# C89: how product codes are related
-/

namespace QLDPC.Props

open QLDPC QLDPC.Spec Matrix

variable {F : Type} [Field F] [DecidableEq F] {n m d : ℕ}

/-! ### Entries of lifted matrices -/

theorem length_rowsOf {r c : ℕ} (M : Matrix (Fin r) (Fin c) F) : (rowsOf M).length = r := by simp [rowsOf]

theorem matEntry_rowsOf {r c : ℕ} (M : Matrix (Fin r) (Fin c) F) (i : Fin r) (j : Fin c) :
    matEntry (rowsOf M) i j = M i j := by
  refine (matEntry_of_getElem? (r := fun j => M i j) ?_ j)
  simp [rowsOf]

theorem matEntry_out {c : ℕ} (M : Rows F c) {i j : ℕ} (h : M.length ≤ i ∨ c ≤ j) : matEntry M i j = 0 := by
  by_contra hne
  have := matEntry_bound hne
  omega

section Ring

variable {R : Type} [Ring R]

/-- Entries of lifted arrays. -/
theorem lifted_entry {c : ℕ} (Λ : R → Matrix (Fin d) (Fin d) F) (M : Rows R c) {i : ℕ} {r : Fin c → R} (h : M[i]? = some r)
    (j : Fin c) (s t : Fin d) :
    matEntry (rowsOf (liftArray Λ (asMatrix M))) (i * d + s) (j * d + t) = Λ (r j) s t := by
  have hi : i < M.length := by
    by_contra hi
    rw [List.getElem?_eq_none (by omega)] at h
    cases h
  have e1 : i * d + s = (flat (⟨i, hi⟩ : Fin M.length) s).val := by rw [flat_val]
  have e2 : j.val * d + t = (flat j t).val := by rw [flat_val]
  rw [e1, e2, matEntry_rowsOf, liftArray, divNat_flat, divNat_flat, modNat_flat, modNat_flat]
  rw [List.getElem?_eq_getElem hi, Option.some.injEq] at h
  unfold asMatrix
  rw [List.get_eq_getElem]
  simp only [h]

theorem getElem?_hgpX (star : R → R) (A : Rows R n) (B : Rows R m) (i : Fin A.length) (j : Fin m) :
    (hgpX star A B)[i * m + j]? = some (hgpRowX star A B i j) := by
  have := getElem?_flatMap_map (hgpRowX star A B) (List.finRange A.length) (List.finRange m) i j (by simp)
  rw [hgpX_eq]
  simp only [List.length_finRange] at this
  rw [this]
  simp

theorem getElem?_hgpZ (star : R → R) (A : Rows R n) (B : Rows R m) (k : Fin n) (l : Fin B.length) :
    (hgpZ star A B)[k * B.length + l]? = some (hgpRowZ star A B k l) := by
  have := getElem?_flatMap_map (hgpRowZ star A B) (List.finRange n) (List.finRange B.length) k l (by simp)
  rw [hgpZ_eq]
  simp only [List.length_finRange] at this
  rw [this]
  simp

theorem length_hgpX (star : R → R) (A : Rows R n) (B : Rows R m) : (hgpX star A B).length = A.length * m := by
  rw [hgpX_eq, length_flatMap_map]; simp

theorem length_hgpZ (star : R → R) (A : Rows R n) (B : Rows R m) : (hgpZ star A B).length = n * B.length := by
  rw [hgpZ_eq, length_flatMap_map]; simp

theorem ite_mul_apply (Λ : R → Matrix (Fin d) (Fin d) F) (h0 : Λ 0 = 0) (p : Prop) [Decidable p] (x : R) (s t : Fin d) :
    Λ (if p then x else 0) s t = if p then Λ x s t else 0 := by
  split <;> simp [h0]

/-- **C89**: the entries of the parity checks of a lifted product, for arrays of any shape and lifts of any dimension. -/
theorem C89_lifted (star : R → R) (Λ : R → Matrix (Fin d) (Fin d) F) (h0 : Λ 0 = 0) (hs0 : star 0 = 0)
    (A : Rows R n) (B : Rows R m) :
    (lpMatrices star Λ A B).1.length = A.length * m * d ∧ (lpMatrices star Λ A B).2.length = n * B.length * d ∧
    (∀ (i : Fin A.length) (j : Fin m) (s t : Fin d),
      (∀ (p : Fin n) (q : Fin m), matEntry (lpMatrices star Λ A B).1 ((i * m + j) * d + s) ((p * m + q) * d + t) =
        if j = q then Λ (A.get i p) s t else 0) ∧
      (∀ (k : Fin A.length) (l : Fin B.length),
        matEntry (lpMatrices star Λ A B).1 ((i * m + j) * d + s) ((n * m + (k * B.length + l)) * d + t) =
          if i = k then Λ (star (B.get l j)) s t else 0)) ∧
    (∀ (k : Fin n) (l : Fin B.length) (s t : Fin d),
      (∀ (p : Fin n) (q : Fin m), matEntry (lpMatrices star Λ A B).2 ((k * B.length + l) * d + s) ((p * m + q) * d + t) =
        if k = p then Λ (- B.get l q) s t else 0) ∧
      (∀ (i : Fin A.length) (j : Fin B.length),
        matEntry (lpMatrices star Λ A B).2 ((k * B.length + l) * d + s) ((n * m + (i * B.length + j)) * d + t) =
          if l = j then Λ (star (A.get i k)) s t else 0)) := by
  refine ⟨by rw [lpMatrices, lpCode]; simp only; rw [length_rowsOf, length_hgpX],
    by rw [lpMatrices, lpCode]; simp only; rw [length_rowsOf, length_hgpZ], fun i j s t => ⟨fun p q => ?_, fun k l => ?_⟩,
    fun k l s t => ⟨fun p q => ?_, fun i j => ?_⟩⟩
  · have := lifted_entry Λ _ (getElem?_hgpX star A B i j) (Fin.castAdd _ (flat p q)) s t
    rw [Fin.val_castAdd, flat_val] at this
    unfold lpMatrices lpCode
    simp only
    rw [this, hgpRowX, Fin.append_left, kronRow_flat', unitRow, mul_ite, mul_one, mul_zero, ite_mul_apply _ h0]
    simp only [eq_comm]
  · have := lifted_entry Λ _ (getElem?_hgpX star A B i j) (Fin.natAdd _ (flat k l)) s t
    rw [Fin.val_natAdd, flat_val] at this
    unfold lpMatrices lpCode
    simp only
    rw [this, hgpRowX, Fin.append_right, kronRow_flat', unitRow, ite_mul, one_mul, zero_mul, ite_mul_apply _ h0]
    simp only [eq_comm]
  · have := lifted_entry Λ _ (getElem?_hgpZ star A B k l) (Fin.castAdd _ (flat p q)) s t
    rw [Fin.val_castAdd, flat_val] at this
    unfold lpMatrices lpCode
    simp only
    rw [this, hgpRowZ, Fin.append_left, kronRow_flat', unitRow, ite_mul, one_mul, zero_mul, apply_ite Neg.neg, neg_zero,
      ite_mul_apply _ h0]
    simp only [eq_comm]
  · have := lifted_entry Λ _ (getElem?_hgpZ star A B k l) (Fin.natAdd _ (flat i j)) s t
    rw [Fin.val_natAdd, flat_val] at this
    unfold lpMatrices lpCode
    simp only
    rw [this, hgpRowZ, Fin.append_right, kronRow_flat', unitRow, mul_ite, mul_one, mul_zero, ite_mul_apply _ h0]
    simp only [eq_comm]

/-- **C89**: the entries of the gauge generators of a subsystem lifted product. -/
theorem C89_subsystem_lifted (Λ : R → Matrix (Fin d) (Fin d) F) (h0 : Λ 0 = 0) (A : Rows R n) (B : Rows R m) :
    (slpMatrices Λ A B).1.length = A.length * m * d ∧ (slpMatrices Λ A B).2.length = n * B.length * d ∧
    (∀ (i : Fin A.length) (j : Fin m) (s t : Fin d) (p : Fin n) (q : Fin m),
      matEntry (slpMatrices Λ A B).1 ((i * m + j) * d + s) ((p * m + q) * d + t) =
        if j = q then Λ (A.get i p) s t else 0) ∧
    (∀ (k : Fin n) (l : Fin B.length) (s t : Fin d) (p : Fin n) (q : Fin m),
      matEntry (slpMatrices Λ A B).2 ((k * B.length + l) * d + s) ((p * m + q) * d + t) =
        if k = p then Λ (B.get l q) s t else 0) := by
  have lx : (shpX A B).length = A.length * m := by rw [shpX, kron, length_flatMap_map]; simp [eyeRows]
  have lz : (shpZ A B).length = n * B.length := by rw [shpZ, kron, length_flatMap_map]; simp [eyeRows]
  refine ⟨by rw [slpMatrices]; simp only; rw [length_rowsOf, lx], by rw [slpMatrices]; simp only; rw [length_rowsOf, lz],
    fun i j s t p q => ?_, fun k l s t p q => ?_⟩
  · have hrow : (shpX A B)[i * m + j]? = some (kronRow (A.get i) (unitRow R j)) := by
      have := getElem?_flatMap_map (fun a b => kronRow a b) A (eyeRows R m) i j (by simp [eyeRows])
      have he : (eyeRows R m).length = m := by simp [eyeRows]
      simp only [he] at this
      rw [shpX, kron, this]
      simp [eyeRows_eq]
    have := lifted_entry Λ _ hrow (flat p q) s t
    rw [flat_val] at this
    unfold slpMatrices
    simp only
    rw [this, kronRow_flat', unitRow, mul_ite, mul_one, mul_zero, ite_mul_apply _ h0]
    simp only [eq_comm]
  · have hrow : (shpZ A B)[k * B.length + l]? = some (kronRow (unitRow R k) (B.get l)) := by
      have := getElem?_flatMap_map (fun a b => kronRow a b) (eyeRows R n) B k l (by simp)
      rw [shpZ, kron, this]
      simp [eyeRows_eq]
    have := lifted_entry Λ _ hrow (flat p q) s t
    rw [flat_val] at this
    unfold slpMatrices
    simp only
    rw [this, kronRow_flat', unitRow, ite_mul, one_mul, zero_mul, ite_mul_apply _ h0]
    simp only [eq_comm]

/-! ### Arrays of size one -/

theorem commuting_rowsOf (X Y : Matrix (Fin d) (Fin d) F) : Commuting (rowsOf X) (rowsOf Y) ↔ X * Y = Y * X := by
  unfold Commuting
  simp only [matEntry_rowsOf]
  constructor
  · intro h
    ext i j
    rw [Matrix.mul_apply, Matrix.mul_apply]
    exact h i j
  · intro h i j
    have := congrFun (congrFun h i) j
    rwa [Matrix.mul_apply, Matrix.mul_apply] at this

/-- An array of size 1 × 1. -/
def single (a : R) : Rows R 1 := [fun _ => a]

theorem get_single (a : R) (i : Fin (single a).length) (j : Fin 1) : (single a).get i j = a := by
  obtain ⟨i, hi⟩ := i
  have : i = 0 := by simpa [single] using hi
  subst this
  rfl

theorem length_single (a : R) : (single a).length = 1 := rfl

/-- **C89**: a lifted product of arrays of size 1 × 1 is the two-block code of the lift of the first entry and the
transposed lift of the second, except that all Z-type checks have the opposite sign. `TBCode` refuses if and only if
these two matrices do not commute. -/
theorem C89_two_block (star : R → R) (Λ : R → Matrix (Fin d) (Fin d) F) (h0 : Λ 0 = 0) (hs0 : star 0 = 0)
    (hneg : ∀ x, Λ (-x) = - Λ x) (hstar : ∀ x, Λ (star x) = (Λ x)ᵀ) (a b : R) :
    ((tbCode true (rowsOf (Λ a)) (rowsOf (Λ b)ᵀ)).isSome ↔ Λ a * (Λ b)ᵀ = (Λ b)ᵀ * Λ a) ∧
    ∀ v mx mz, tbCode v (rowsOf (Λ a)) (rowsOf (Λ b)ᵀ) = some (mx, mz) →
      (lpMatrices star Λ (single a) (single b)).1.length = mx.length ∧ (lpMatrices star Λ (single a) (single b)).2.length = mz.length ∧
      ∀ i j, matEntry (lpMatrices star Λ (single a) (single b)).1 i j = matEntry mx i j ∧
        matEntry (lpMatrices star Λ (single a) (single b)).2 i j = - matEntry mz i j := by
  refine ⟨by rw [C45_accepted (length_rowsOf _) (length_rowsOf _), commuting_rowsOf], fun v mx mz h => ?_⟩
  obtain ⟨hx, hz, hb⟩ := C45_blocks h
  obtain ⟨l1, l2, h1, h2⟩ := C89_lifted star Λ h0 hs0 (single a) (single b)
  have l1' : (lpMatrices star Λ (single a) (single b)).1.length = d := by rw [l1]; simp [length_single]
  have l2' : (lpMatrices star Λ (single a) (single b)).2.length = d := by rw [l2]; simp [length_single]
  refine ⟨by omega, by omega, fun i j => ?_⟩
  have hc : (1 * 1 + (single a).length * (single b).length) * d = d + d := by simp [length_single]; ring
  by_cases hin : i < d ∧ j < d + d
  · obtain ⟨hi, hj⟩ := hin
    by_cases hjd : j < d
    · have e1 := (h1 ⟨0, by simp [length_single]⟩ 0 ⟨i, hi⟩ ⟨j, hjd⟩).1 0 0
      have e2 := (h2 0 ⟨0, by simp [length_single]⟩ ⟨i, hi⟩ ⟨j, hjd⟩).1 0 0
      obtain ⟨b1, -, b3, -⟩ := hb ⟨i, hi⟩ ⟨j, hjd⟩
      simp only [Fin.val_zero, zero_mul, Nat.zero_add, add_zero, if_true, hneg, get_single] at e1 e2 b1 b3
      rw [e1, e2]
      rw [b1, b3]
      have r1 := matEntry_rowsOf (Λ a) ⟨i, hi⟩ ⟨j, hjd⟩
      have r2 := matEntry_rowsOf (Λ b)ᵀ ⟨j, hjd⟩ ⟨i, hi⟩
      simp only [Fin.val_mk] at r1 r2
      rw [r1, r2]
      simp
    · obtain ⟨j', rfl⟩ := Nat.exists_eq_add_of_le (not_lt.1 hjd)
      have hj' : j' < d := by omega
      have e1 := (h1 ⟨0, by simp [length_single]⟩ 0 ⟨i, hi⟩ ⟨j', hj'⟩).2 ⟨0, by simp [length_single]⟩ ⟨0, by simp [length_single]⟩
      have e2 := (h2 0 ⟨0, by simp [length_single]⟩ ⟨i, hi⟩ ⟨j', hj'⟩).2 ⟨0, by simp [length_single]⟩ ⟨0, by simp [length_single]⟩
      obtain ⟨-, b2, -, b4⟩ := hb ⟨i, hi⟩ ⟨j', hj'⟩
      simp only [Fin.val_zero, zero_mul, Nat.zero_add, add_zero, if_true, hstar, one_mul, mul_one, get_single] at e1 e2 b2 b4
      rw [e1, e2, b2, b4]
      have r1 := matEntry_rowsOf (Λ b)ᵀ ⟨i, hi⟩ ⟨j', hj'⟩
      have r2 := matEntry_rowsOf (Λ a) ⟨j', hj'⟩ ⟨i, hi⟩
      simp only [Fin.val_mk] at r1 r2
      rw [r1, r2]
      simp
  · rw [matEntry_out _ (by omega), matEntry_out _ (by omega), matEntry_out _ (by omega), matEntry_out _ (by omega)]
    simp

/-! ### Lifts of dimension one -/

/-- Lifts to 1 × 1 matrices. -/
def scalarLift (χ : R → F) (x : R) : Matrix (Fin 1) (Fin 1) F := fun _ _ => χ x

theorem get_map_rows {S : Type} (χ : R → S) (A : Rows R n) (i : Fin A.length) (h : i.val < (A.map fun r j => χ (r j)).length) (p : Fin n) :
    ((A.map fun r j => χ (r j)).get ⟨i, h⟩) p = χ (A.get i p) := by simp

/-- **C89**: if all entries are lifted to 1 × 1 matrices, a lifted product is the hypergraph product of the lifted arrays,
and a subsystem lifted product is the subsystem hypergraph product of the lifted arrays. -/
theorem C89_scalar (star : R → R) (χ : R → F) (h0 : χ 0 = 0) (hs0 : star 0 = 0) (hneg : ∀ x, χ (-x) = - χ x)
    (hstar : ∀ x, χ (star x) = χ x) (A : Rows R n) (B : Rows R m) :
    (∀ i j, matEntry (lpMatrices star (scalarLift χ) A B).1 i j =
        matEntry (hgpX id (A.map fun r j => χ (r j)) (B.map fun r j => χ (r j))) i j ∧
      matEntry (lpMatrices star (scalarLift χ) A B).2 i j =
        matEntry (hgpZ id (A.map fun r j => χ (r j)) (B.map fun r j => χ (r j))) i j) ∧
    (∀ i j, matEntry (slpMatrices (scalarLift χ) A B).1 i j =
        matEntry (shpX (A.map fun r j => χ (r j)) (B.map fun r j => χ (r j))) i j ∧
      matEntry (slpMatrices (scalarLift χ) A B).2 i j =
        matEntry (shpZ (A.map fun r j => χ (r j)) (B.map fun r j => χ (r j))) i j) ∧
    lpSectorSize 1 A B = hgpSectorSize (A.map fun r j => χ (r j)) (B.map fun r j => χ (r j)) := by
  have h0' : scalarLift χ 0 = 0 := by
    ext s t; exact h0
  obtain ⟨l1, l2, e1, e2⟩ := C89_lifted star (scalarLift χ) h0' hs0 A B
  obtain ⟨l3, l4, e3, e4⟩ := C89_subsystem_lifted (scalarLift χ) h0' A B
  obtain ⟨m1, x1⟩ := C46_matrix_x (A.map fun r j => χ (r j)) (B.map fun r j => χ (r j))
  obtain ⟨m2, z1⟩ := C46_matrix_z (A.map fun r j => χ (r j)) (B.map fun r j => χ (r j))
  obtain ⟨m3, m4, x2, z2⟩ := C48_matrices (A.map fun r j => χ (r j)) (B.map fun r j => χ (r j))
  have cA : ∀ (i : Fin A.length) (p : Fin n), matEntry (A.map fun r j => χ (r j)) i p = χ (A.get i p) := by
    intro i p
    rw [matEntry_fin _ (by simp)]; simp
  have cB : ∀ (i : Fin B.length) (p : Fin m), matEntry (B.map fun r j => χ (r j)) i p = χ (B.get i p) := by
    intro i p
    rw [matEntry_fin _ (by simp)]; simp
  simp only [List.length_map] at m1 x1 m2 z1 m3 m4 x2 z2
  simp only [mul_one] at l1 l2 l3 l4
  have split : ∀ {a b i : ℕ}, i < a * b → ∃ (x : Fin a) (y : Fin b), i = x * b + y := by
    intro a b i h
    have hb : 0 < b := Nat.pos_of_ne_zero (by rintro rfl; simp at h)
    exact ⟨⟨i / b, Nat.div_lt_of_lt_mul (by rwa [mul_comm] at h)⟩, ⟨i % b, Nat.mod_lt _ hb⟩, (Nat.div_add_mod' i b).symm⟩
  have col : ∀ {j : ℕ}, j < n * m + A.length * B.length → (∃ (p : Fin n) (q : Fin m), j = p * m + q) ∨
      ∃ (k : Fin A.length) (l : Fin B.length), j = n * m + (k * B.length + l) := by
    intro j hj
    by_cases h : j < n * m
    · exact Or.inl (split h)
    · obtain ⟨k, l, e⟩ := split (show j - n * m < A.length * B.length by omega)
      exact Or.inr ⟨k, l, by omega⟩
  refine ⟨fun i j => ⟨?_, ?_⟩, fun i j => ⟨?_, ?_⟩, by unfold lpSectorSize hgpSectorSize; simp⟩
  · by_cases hin : i < A.length * m ∧ j < n * m + A.length * B.length
    · obtain ⟨i, i', rfl⟩ := split hin.1
      rcases col hin.2 with ⟨p, q, rfl⟩ | ⟨k, l, rfl⟩
      · have := (e1 i i' 0 0).1 p q
        simp only [mul_one, Fin.val_zero, add_zero] at this
        rw [this, (x1 i i' i.2 i'.2).1 p q p.2 q.2, cA]
        simp only [Fin.ext_iff, scalarLift]
      · have := (e1 i i' 0 0).2 k l
        simp only [mul_one, Fin.val_zero, add_zero] at this
        rw [this, (x1 i i' i.2 i'.2).2 k l k.2 l.2, cB]
        simp only [Fin.ext_iff, hstar, scalarLift]
    · rw [matEntry_out _ (by rw [l1, mul_one]; omega), matEntry_out _ (by rw [m1]; simp only [List.length_map]; omega)]
  · by_cases hin : i < n * B.length ∧ j < n * m + A.length * B.length
    · obtain ⟨i, i', rfl⟩ := split hin.1
      rcases col hin.2 with ⟨p, q, rfl⟩ | ⟨k, l, rfl⟩
      · have := (e2 i i' 0 0).1 p q
        simp only [mul_one, Fin.val_zero, add_zero] at this
        rw [this, (z1 i i' i.2 i'.2).1 p q p.2 q.2, cB]
        simp only [Fin.ext_iff, hneg, scalarLift]
      · have := (e2 i i' 0 0).2 k l
        simp only [mul_one, Fin.val_zero, add_zero] at this
        rw [this, (z1 i i' i.2 i'.2).2 k l k.2 l.2, cA]
        simp only [Fin.ext_iff, hstar, scalarLift]
    · rw [matEntry_out _ (by rw [l2, mul_one]; omega), matEntry_out _ (by rw [m2]; simp only [List.length_map]; omega)]
  · by_cases hin : i < A.length * m ∧ j < n * m
    · obtain ⟨i, i', rfl⟩ := split hin.1
      obtain ⟨p, q, rfl⟩ := split hin.2
      have := e3 i i' 0 0 p q
      simp only [mul_one, Fin.val_zero, add_zero] at this
      rw [this, x2 i i' p q i.2 i'.2 p.2 q.2, cA]
      simp only [Fin.ext_iff, scalarLift]
    · rw [matEntry_out _ (by rw [l3, mul_one]; omega), matEntry_out _ (by rw [m3]; omega)]
  · by_cases hin : i < n * B.length ∧ j < n * m
    · obtain ⟨i, i', rfl⟩ := split hin.1
      obtain ⟨p, q, rfl⟩ := split hin.2
      have := e4 i i' 0 0 p q
      simp only [mul_one, Fin.val_zero, add_zero] at this
      rw [this, z2 i i' p q i.2 i'.2 p.2 q.2, cB]
      simp only [Fin.ext_iff, scalarLift]
    · rw [matEntry_out _ (by rw [l4, mul_one]; omega), matEntry_out _ (by rw [m4]; omega)]

end Ring

/-! ### The choice of parity checks -/

/-- **C89**: subsystem hypergraph products depend on the two classical codes only: other parity check matrices of the
same codes give the same gauge group, hence the same stabilizers, bare logical operators and dimension. -/
theorem C89_choice {A A' : Rows F n} {B B' : Rows F m} (hA : ∀ w, IsWord A w ↔ IsWord A' w)
    (hB : ∀ w, IsWord B w ↔ IsWord B' w) :
    (∀ v, IsCombination (shpX A B) v ↔ IsCombination (shpX A' B') v) ∧
    (∀ v, IsCombination (shpZ A B) v ↔ IsCombination (shpZ A' B') v) ∧
    (∀ v, IsStabX (shpX A B) (shpZ A B) v ↔ IsStabX (shpX A' B') (shpZ A' B') v) ∧
    (∀ v, IsStabX (shpZ A B) (shpX A B) v ↔ IsStabX (shpZ A' B') (shpX A' B') v) ∧
    (∀ v, IsNontrivialX (shpX A B) (shpZ A B) v ↔ IsNontrivialX (shpX A' B') (shpZ A' B') v) ∧
    (∀ v, IsNontrivialX (shpZ A B) (shpX A B) v ↔ IsNontrivialX (shpZ A' B') (shpX A' B') v) ∧
    cssDimension (shpX A B) (shpZ A B) true = cssDimension (shpX A' B') (shpZ A' B') true := by
  have hspan : ∀ {k : ℕ} {M M' : Rows F k}, (∀ w, IsWord M w ↔ IsWord M' w) → rowSpan M = rowSpan M' := by
    intro k M M' h
    have hk : kernel M = kernel M' := by
      ext w
      rw [← isWord_iff, ← isWord_iff]
      exact h w
    rw [← kernel_nullSpace M, ← kernel_nullSpace M']
    exact kernel_eq_of_rowSpan_eq (by rw [rowSpan_nullSpace, rowSpan_nullSpace, hk])
  have sA := hspan hA
  have sB := hspan hB
  have sX : rowSpan (shpX A B) = rowSpan (shpX A' B') :=
    le_antisymm (rowSpan_kron_le sA.le le_rfl) (rowSpan_kron_le sA.ge le_rfl)
  have sZ : rowSpan (shpZ A B) = rowSpan (shpZ A' B') :=
    le_antisymm (rowSpan_kron_le le_rfl sB.le) (rowSpan_kron_le le_rfl sB.ge)
  have cX : ∀ v, IsCombination (shpX A B) v ↔ IsCombination (shpX A' B') v := fun v => by
    rw [isCombination_iff, isCombination_iff, sX]
  have cZ : ∀ v, IsCombination (shpZ A B) v ↔ IsCombination (shpZ A' B') v := fun v => by
    rw [isCombination_iff, isCombination_iff, sZ]
  have wX : ∀ v, IsWord (shpX A B) v ↔ IsWord (shpX A' B') v := fun v => by
    rw [isWord_iff, isWord_iff, kernel_eq_of_rowSpan_eq sX]
  have wZ : ∀ v, IsWord (shpZ A B) v ↔ IsWord (shpZ A' B') v := fun v => by
    rw [isWord_iff, isWord_iff, kernel_eq_of_rowSpan_eq sZ]
  have tX : ∀ v, IsStabX (shpX A B) (shpZ A B) v ↔ IsStabX (shpX A' B') (shpZ A' B') v := fun v =>
    and_congr (cX v) (wZ v)
  have tZ : ∀ v, IsStabX (shpZ A B) (shpX A B) v ↔ IsStabX (shpZ A' B') (shpX A' B') v := fun v =>
    and_congr (cZ v) (wX v)
  refine ⟨cX, cZ, tX, tZ, fun v => ?_, fun v => ?_, ?_⟩
  · unfold IsNontrivialX
    simp only [tZ, cX]
  · unfold IsNontrivialX
    simp only [tX, cZ]
  · rw [(C48_logicals A B).2.2, (C48_logicals A' B').2.2]
    have e : ∀ {k : ℕ} {M M' : Rows F k}, (∀ w, IsWord M w ↔ IsWord M' w) → codeDim M = codeDim M' := by
      intro k M M' h
      have hk : kernel M = kernel M' := by
        ext w
        rw [← isWord_iff, ← isWord_iff]
        exact h w
      exact congrArg (fun K : Submodule F (Fin k → F) => Module.finrank F K) hk
    rw [e hA, e hB]

/-- Hypergraph products do depend on the choice of parity checks: with a redundant check there are more qudits, and
another number of logical qudits. -/
theorem C89_hgp_choice : (∀ w : Fin 2 → ZMod 2, IsWord [![1, 1]] w ↔ IsWord [![1, 1], ![1, 1]] w) ∧
    cssDimension (hgpX id ([![1, 1]] : Rows (ZMod 2) 2) ([![1, 1]] : Rows (ZMod 2) 2)) (hgpZ id [![1, 1]] [![1, 1]]) false = 1 ∧
    cssDimension (hgpX id ([![1, 1], ![1, 1]] : Rows (ZMod 2) 2) ([![1, 1], ![1, 1]] : Rows (ZMod 2) 2))
      (hgpZ id [![1, 1], ![1, 1]] [![1, 1], ![1, 1]]) false = 2 := by
  refine ⟨?_, by decide +kernel, by decide +kernel⟩
  unfold IsWord
  decide +kernel

/-! ## Examples -/

/-- The hypotheses of `C89_two_block` are met by the regular lift of any group algebra. -/
example {G : Type} [Group G] [DecidableEq G] [Fintype G] {members : List G} (hnd : members.Nodup)
    (hall : ∀ g, g ∈ members) (a b : GAlg F G) :=
  have h := C36_array_regular (F := F) hnd hall
  C89_two_block GAlg.transpose (galgLift members) h.2.1 rfl
    (fun x => eq_neg_of_add_eq_zero_left (by rw [← h.1, neg_add_cancel, h.2.1])) h.2.2.2 a b

/-- The hypotheses of `C89_scalar` are met by the sum of all coefficients. -/
example (A B : Rows (GAlg (ZMod 3) (Multiplicative (ZMod 2))) 2) :=
  C89_scalar GAlg.transpose (fun x : GAlg (ZMod 3) (Multiplicative (ZMod 2)) => ∑ g, x.coef g) (by simp) rfl
    (fun x => by simp) (fun x => Fintype.sum_equiv (Equiv.inv _) _ _ fun g => by simp) A B

/-- The hypotheses of `C89_choice` are met by different parity checks. -/
example : ∀ w : Fin 3 → ZMod 3, IsWord [![1, 2, 0], ![0, 1, 2]] w ↔ IsWord [![1, 0, 2], ![0, 2, 1], ![1, 2, 0]] w := by
  unfold IsWord; decide +kernel

#print axioms C89_lifted
#print axioms C89_subsystem_lifted
#print axioms C89_two_block
#print axioms C89_scalar
#print axioms C89_choice
#print axioms C89_hgp_choice

/-! ### Instances of the theorems: concrete cases meet the hypotheses -/

example := C89_lifted id (fun x : ZMod 3 => !![x, 0; 0, 2 * x]) (by decide) rfl [![1, 2]] [![1, 1, 0]]
example := C89_subsystem_lifted (fun x : ZMod 3 => !![x, 0; 0, 2 * x]) (by decide) [![1, 2]] [![1, 1, 0]]
private theorem words_example : ∀ w : Fin 3 → ZMod 3, IsWord [![1, 2, 0], ![0, 1, 2]] w ↔ IsWord [![1, 0, 2], ![0, 2, 1], ![1, 2, 0]] w := by
  unfold IsWord; decide +kernel
example := C89_choice words_example words_example

end QLDPC.Props
