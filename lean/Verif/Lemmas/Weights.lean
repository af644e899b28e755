import Verif.Spec.Weights
import Verif.Lemmas.Product
import Verif.Lemmas.ProductDistance
import Verif.Model.LiftedProduct
import Verif.Lemmas.RingArray

/-!
# Numbers of nonzero entries of product codes
-/

namespace QLDPC

open Spec

variable {F : Type} [Field F] [DecidableEq F] {n m : ℕ}

theorem countP_eq_sum_ite {α : Type} (p : α → Bool) (l : List α) : l.countP p = (l.map fun a => if p a then 1 else 0).sum := by
  induction l with
  | nil => rfl
  | cons a l ih => rw [List.countP_cons, ih, List.map_cons, List.sum_cons, Nat.add_comm]

theorem colWeight_eq_sum (M : Rows F n) (j : Fin n) : colWeight M j = ∑ i : Fin M.length, if M.get i j ≠ 0 then 1 else 0 := by
  unfold colWeight
  rw [Fin.sum_univ_def]
  conv_lhs => rw [rows_eq_map M, List.countP_map]
  rw [countP_eq_sum_ite]
  congr 1
  refine List.map_congr_left fun i _ => ?_
  simp

theorem colWeight_flatMap {α β : Type} (f : α → β → Fin n → F) (A : List α) (B : List β) (k : Fin n) :
    colWeight (A.flatMap fun a => B.map (f a)) k = (A.map fun a => (B.map fun b => if f a b k ≠ 0 then 1 else 0).sum).sum := by
  unfold colWeight
  rw [List.countP_flatMap]
  congr 1
  refine List.map_congr_left fun a _ => ?_
  simp only [Function.comp, List.countP_map]
  rw [countP_eq_sum_ite]
  congr 1
  refine List.map_congr_left fun i _ => ?_
  simp

theorem hammingNorm_unitRow (i : Fin n) : hammingNorm (unitRow F i) = 1 := by
  unfold hammingNorm
  rw [Finset.card_eq_one]
  exact ⟨i, by ext j; simp [unitRow]⟩

theorem hammingNorm_neg' (u : Fin n → F) : hammingNorm (fun p => - u p) = hammingNorm u := by
  simp [hammingNorm]

theorem hammingNorm_column (B : Rows F m) (j : Fin m) : hammingNorm (fun l => B.get l j) = colWeight B j := by
  rw [colWeight_eq_sum]
  simp only [hammingNorm, Finset.card_filter]

theorem norm_hgpRowX (A : Rows F n) (B : Rows F m) (i : Fin A.length) (j : Fin m) :
    hammingNorm (hgpRowX id A B i j) = hammingNorm (A.get i) + colWeight B j := by
  rw [hgpRowX, hammingNorm_append, norm_kronRow, norm_kronRow, hammingNorm_unitRow, hammingNorm_unitRow, mul_one, one_mul]
  congr 1
  exact hammingNorm_column B j

theorem norm_hgpRowZ (A : Rows F n) (B : Rows F m) (k : Fin n) (l : Fin B.length) :
    hammingNorm (hgpRowZ id A B k l) = hammingNorm (B.get l) + colWeight A k := by
  rw [hgpRowZ, hammingNorm_append, hammingNorm_neg', norm_kronRow, norm_kronRow, hammingNorm_unitRow, hammingNorm_unitRow,
    mul_one, one_mul]
  congr 1
  exact hammingNorm_column A k

theorem sum_ite_unit {ι : Type} [Fintype ι] [DecidableEq ι] (j : ι) (P : Prop) [Decidable P] :
    (∑ q : ι, if P ∧ q = j then 1 else 0) = if P then 1 else 0 := by
  by_cases h : P <;> simp [h]

theorem map_finRange_mul {α : Type} {r d : ℕ} (f : Fin (r * d) → α) :
    (List.finRange (r * d)).map f = (List.finRange r).flatMap fun a => (List.finRange d).map fun s => f (flat a s) := by
  apply List.ext_getElem?
  intro k
  by_cases hk : k < r * d
  · have hd : 0 < d := by
      rcases Nat.eq_zero_or_pos d with h | h
      · subst h; omega
      · exact h
    have h1 := getElem?_flatMap_map (fun a s => f (flat a s)) (List.finRange r) (List.finRange d) (k / d) (k % d)
      (by simpa using Nat.mod_lt _ hd)
    simp only [List.length_finRange, Nat.div_add_mod'] at h1
    rw [h1]
    have hkr : k / d < r := (Nat.div_lt_iff_lt_mul hd).2 hk
    simp only [List.getElem?_map, List.getElem?_eq_getElem, List.length_finRange, hk, hkr, Option.map_some, Option.some_inj]
    congr 1
    apply Fin.ext
    rw [flat_val]
    simp [Nat.div_add_mod']
  · rw [List.getElem?_eq_none (by simpa using hk), List.getElem?_eq_none]
    rw [length_flatMap_map]
    simpa using hk

section Lifted

variable {R : Type} [Ring R] {c d : ℕ}

/-- Row `s` of the lift of a row of members. -/
def liftedRow (Λ : R → Matrix (Fin d) (Fin d) F) (r : Fin c → R) (s : Fin d) : Fin (c * d) → F :=
  fun b => Λ (r b.divNat) s b.modNat

theorem rowsOf_liftArray (Λ : R → Matrix (Fin d) (Fin d) F) (M : Rows R c) :
    rowsOf (liftArray Λ (asMatrix M)) = M.flatMap fun r => (List.finRange d).map fun s => liftedRow Λ r s := by
  rw [rowsOf, map_finRange_mul]
  conv_rhs => rw [rows_eq_map M, List.flatMap_map]
  refine List.flatMap_congr fun i _ => List.map_congr_left fun s _ => ?_
  funext b
  rw [liftArray, divNat_flat, modNat_flat]
  rfl

/-- The number of entries in row `s` of the lift of `x`. -/
def liftRowWeight (Λ : R → Matrix (Fin d) (Fin d) F) (x : R) (s : Fin d) : ℕ := hammingNorm fun t => Λ x s t

/-- The number of entries in column `t` of the lift of `x`. -/
def liftColWeight (Λ : R → Matrix (Fin d) (Fin d) F) (x : R) (t : Fin d) : ℕ := hammingNorm fun s => Λ x s t

theorem norm_liftedRow (Λ : R → Matrix (Fin d) (Fin d) F) (r : Fin c → R) (s : Fin d) :
    hammingNorm (liftedRow Λ r s) = ∑ j, liftRowWeight Λ (r j) s := by
  simp only [hammingNorm, liftRowWeight, Finset.card_filter]
  rw [sum_flat]
  refine Finset.sum_congr rfl fun j _ => Finset.sum_congr rfl fun t _ => ?_
  rw [liftedRow, divNat_flat, modNat_flat]

theorem colWeight_lifted (Λ : R → Matrix (Fin d) (Fin d) F) (M : Rows R c) (e : Fin c) (t : Fin d) :
    colWeight (M.flatMap fun r => (List.finRange d).map fun s => liftedRow Λ r s) (flat e t) =
      (M.map fun r => liftColWeight Λ (r e) t).sum := by
  rw [colWeight_flatMap]
  congr 1
  refine List.map_congr_left fun r _ => ?_
  rw [← Fin.sum_univ_def, liftColWeight, hammingNorm, Finset.card_filter]
  refine Finset.sum_congr rfl fun s _ => ?_
  rw [liftedRow, divNat_flat, modNat_flat]

theorem liftRowWeight_eq_zero {Λ : R → Matrix (Fin d) (Fin d) F} (h0 : Λ 0 = 0) {x : R} {s : Fin d} (hx : x = 0) :
    liftRowWeight Λ x s = 0 := by
  subst hx; simp [liftRowWeight, h0, hammingNorm]

theorem liftColWeight_eq_zero {Λ : R → Matrix (Fin d) (Fin d) F} (h0 : Λ 0 = 0) {x : R} {s : Fin d} (hx : x = 0) :
    liftColWeight Λ x s = 0 := by
  subst hx; simp [liftColWeight, h0, hammingNorm]

theorem liftRowWeight_neg {Λ : R → Matrix (Fin d) (Fin d) F} (h : ∀ x, Λ (-x) = - Λ x) (x : R) (s : Fin d) :
    liftRowWeight Λ (-x) s = liftRowWeight Λ x s := by
  simp [liftRowWeight, h, hammingNorm]

theorem liftColWeight_neg {Λ : R → Matrix (Fin d) (Fin d) F} (h : ∀ x, Λ (-x) = - Λ x) (x : R) (s : Fin d) :
    liftColWeight Λ (-x) s = liftColWeight Λ x s := by
  simp [liftColWeight, h, hammingNorm]

end Lifted

end QLDPC
