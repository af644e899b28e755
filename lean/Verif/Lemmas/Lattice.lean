import Verif.Lemmas.Kernel
import Mathlib.Tactic.Ring
import Mathlib.Tactic.LinearCombination
import Mathlib.Tactic.NormNum

/-!
# Elimination along an order of the cells of a lattice

If every cell is either the first cell of an element of `S`, or forced to vanish for elements of `K` that
vanish on all earlier cells, then `K ≤ S`.
-/

namespace QLDPC

open scoped BigOperators

variable {F : Type} [Field F]

theorem sweep {ι : Type} [Finite ι] (S K : Submodule F (ι → F)) (hSK : S ≤ K) (ord : ι → ℕ)
    (hinj : Function.Injective ord)
    (h : ∀ c, (∃ a ∈ S, a c = 1 ∧ ∀ c', ord c' < ord c → a c' = 0) ∨
      ∀ x ∈ K, (∀ c', ord c' < ord c → x c' = 0) → x c = 0) : K ≤ S := by
  haveI := Fintype.ofFinite ι
  obtain ⟨M, hM⟩ : ∃ M, ∀ c, ord c < M := by
    refine ⟨(Finset.univ.sup ord) + 1, fun c => ?_⟩
    have := Finset.le_sup (f := ord) (Finset.mem_univ c)
    omega
  have key : ∀ k m, M ≤ m + k → ∀ x ∈ K, (∀ c, ord c < m → x c = 0) → x ∈ S := by
    intro k
    induction k with
    | zero =>
      intro m hm x _ hx
      have : x = 0 := funext fun c => hx c (by have := hM c; omega)
      rw [this]; exact S.zero_mem
    | succ k ih =>
      intro m hm x hxK hx
      by_cases hc : ∃ c, ord c = m
      · obtain ⟨c, rfl⟩ := hc
        rcases h c with ⟨a, haS, hac, ha⟩ | hz
        · have hy : x - x c • a ∈ S := by
            refine ih (ord c + 1) (by omega) _ (K.sub_mem hxK (K.smul_mem _ (hSK haS))) fun c' hc' => ?_
            rcases Nat.lt_succ_iff_lt_or_eq.1 hc' with h1 | h1
            · simp [hx c' h1, ha c' h1]
            · rw [hinj h1]; simp [hac]
          have := S.add_mem hy (S.smul_mem (x c) haS)
          rwa [sub_add_cancel] at this
        · refine ih (ord c + 1) (by omega) x hxK fun c' hc' => ?_
          rcases Nat.lt_succ_iff_lt_or_eq.1 hc' with h1 | h1
          · exact hx c' h1
          · rw [hinj h1]; exact hz x hxK hx
      · refine ih (m + 1) (by omega) x hxK fun c' hc' => hx c' ?_
        rcases Nat.lt_succ_iff_lt_or_eq.1 hc' with h1 | h1
        · exact h1
        · exact absurd ⟨c', h1⟩ hc
  intro x hx
  exact key M 0 (by omega) x hx (fun c hc => absurd hc (by omega))

/-- `(-1)^k`. -/
def sgn (F : Type) [Field F] (k : ℤ) : F := if k % 2 = 0 then 1 else -1

theorem sgn_succ (k : ℤ) : sgn F (k + 1) = -sgn F k := by
  unfold sgn
  split_ifs <;> first | omega | simp

theorem sgn_ne_zero (k : ℤ) : sgn F k ≠ 0 := by unfold sgn; split_ifs <;> simp

theorem sgn_mul_self (k : ℤ) : sgn F k * sgn F k = 1 := by unfold sgn; split_ifs <;> simp

theorem sgn_congr {a b : ℤ} (h : a % 2 = b % 2) : sgn F a = sgn F b := by unfold sgn; rw [h]

variable {R C : ℕ}

/-- sum of products over the lattice -/
def gdot (a x : Fin R × Fin C → F) : F := ∑ k, a k * x k

/-- alternate the signs -/
def signed (a : Fin R × Fin C → F) : Fin R × Fin C → F := fun k => sgn F ((k.1 : ℤ) + k.2) * a k

theorem signed_signed (a : Fin R × Fin C → F) : signed (signed a) = a := by
  funext k; simp [signed, ← mul_assoc, sgn_mul_self]

theorem gdot_signed (a x : Fin R × Fin C → F) : gdot (signed a) x = gdot a (signed x) := by
  unfold gdot signed
  refine Finset.sum_congr rfl fun k _ => by ring

theorem gdot_comm (a x : Fin R × Fin C → F) : gdot a x = gdot x a := by
  unfold gdot
  refine Finset.sum_congr rfl fun k _ => by ring

/-- all ones on row `r` -/
def rowOnes (F : Type) [Field F] (r : Fin R) : Fin R × Fin C → F := fun k => if k.1 = r then 1 else 0
/-- all ones on column `c` -/
def colOnes (F : Type) [Field F] (c : Fin C) : Fin R × Fin C → F := fun k => if k.2 = c then 1 else 0

theorem gdot_rowOnes (r : Fin R) (x : Fin R × Fin C → F) : gdot (rowOnes F r) x = ∑ j, x (r, j) := by
  unfold gdot rowOnes
  rw [Fintype.sum_prod_type, Finset.sum_eq_single r]
  · simp
  · intro b _ hb; simp [hb]
  · simp

theorem gdot_colOnes (c : Fin C) (x : Fin R × Fin C → F) : gdot (colOnes F c) x = ∑ i, x (i, c) := by
  unfold gdot colOnes
  rw [Fintype.sum_prod_type]
  refine Finset.sum_congr rfl fun i _ => ?_
  simp

/-- The order of the cells, column by column. -/
theorem ord_lt {R j j' s s' : ℕ} (hs : s < R) (hs' : s' < R) :
    j' * R + s' < j * R + s ↔ j' < j ∨ (j' = j ∧ s' < s) := by
  constructor
  · intro h
    rcases lt_trichotomy j' j with h1 | h1 | h1
    · exact Or.inl h1
    · subst h1; right; exact ⟨rfl, by omega⟩
    · exfalso
      have : (j + 1) * R ≤ j' * R := Nat.mul_le_mul_right R h1
      rw [Nat.add_mul, Nat.one_mul] at this
      omega
  · rintro (h | ⟨rfl, h⟩)
    · have : (j' + 1) * R ≤ j * R := Nat.mul_le_mul_right R h
      rw [Nat.add_mul, Nat.one_mul] at this
      omega
    · omega

theorem ord_inj {R j j' s s' : ℕ} (hs : s < R) (hs' : s' < R) (h : j' * R + s' = j * R + s) :
    j' = j ∧ s' = s := by
  rcases lt_trichotomy j' j with h1 | h1 | h1
  · have := (ord_lt hs hs').2 (Or.inl h1); omega
  · subst h1; exact ⟨rfl, by omega⟩
  · have := (ord_lt hs' hs).2 (Or.inl h1); omega

end QLDPC
