import Verif.Lemmas.Symplectic
import Mathlib.Algebra.Group.AddChar
import Mathlib.Algebra.Field.ZMod
import Mathlib.LinearAlgebra.Pi
import Mathlib.Data.Fintype.EquivFin

/-!
# Properties C16, C17: symplectic form, subsystem detection
-/

namespace QLDPC.Props

open QLDPC QLDPC.Spec

set_option linter.unusedSectionVars false

variable {F : Type} [Field F] [DecidableEq F] {n : ℕ}

/-! ## C16 -/

/-- **C16**: `symplectic_conjugate(P) @ Q` is the symplectic form of `P` and `Q`. -/
theorem C16_product (p q : Fin (n + n) → F) :
    ∑ i, symplecticConjugate p i * q i = sform p q := dot_symplecticConjugate p q

/-- **C16**: the form computed with `symplectic_conjugate` is bilinear, antisymmetric and zero on the
diagonal; conjugating twice negates. -/
theorem C16_form (p p' q : Fin (n + n) → F) (c : F) :
    dot (symplecticConjugate (p + p')) q =
        dot (symplecticConjugate p) q + dot (symplecticConjugate p') q ∧
      dot (symplecticConjugate (c • p)) q = c * dot (symplecticConjugate p) q ∧
      dot (symplecticConjugate p) q = - dot (symplecticConjugate q) p ∧
      dot (symplecticConjugate p) p = 0 ∧
      symplecticConjugate (symplecticConjugate p) = -p := by
  refine ⟨?_, ?_, ?_, ?_, ?_⟩
  · simp only [dot_symplecticConjugate, sform, xPart, zPart, Pi.add_apply,
      ← Finset.sum_add_distrib]
    exact Finset.sum_congr rfl fun i _ => by ring
  · simp only [dot_symplecticConjugate, sform, xPart, zPart, Pi.smul_apply, smul_eq_mul,
      Finset.mul_sum]
    exact Finset.sum_congr rfl fun i _ => by ring
  · rw [dot_symplecticConjugate, dot_symplecticConjugate, sform_comm]
  · rw [dot_symplecticConjugate]
    unfold sform
    exact Finset.sum_eq_zero fun i _ => by ring
  · funext i
    refine Fin.addCases (fun i => ?_) (fun i => ?_) i <;>
      simp [symplecticConjugate, -Fin.natAdd_eq_addNat]

/-- The operator `X(a) Z(b)` of a Pauli string on functions of the basis labels `k`:
`Z(b)` multiplies by the phase `χ(b · k)`, `X(a)` shifts `k` to `k + a`. -/
def pauliOperator {K : Type} [Field K] (χ : AddChar F K) (p : Fin (n + n) → F)
    (f : (Fin n → F) → K) : (Fin n → F) → K := fun k =>
  χ (∑ i, zPart p i * (k i - xPart p i)) * f fun i => k i - xPart p i

/-- Exchanging two Pauli operators costs the phase `χ⟨Q, P⟩`. -/
theorem C16_exchange {K : Type} [Field K] (χ : AddChar F K) (p q : Fin (n + n) → F)
    (f : (Fin n → F) → K) :
    pauliOperator χ p (pauliOperator χ q f) =
      fun k => χ (sform q p) * pauliOperator χ q (pauliOperator χ p f) k := by
  funext k
  unfold pauliOperator
  have harg : (fun i => k i - xPart p i - xPart q i) = fun i => k i - xPart q i - xPart p i := by
    funext i; ring
  rw [harg, ← mul_assoc, ← mul_assoc, ← mul_assoc, ← AddChar.map_add_eq_mul,
    ← AddChar.map_add_eq_mul, ← AddChar.map_add_eq_mul]
  congr 2
  unfold sform
  rw [← Finset.sum_add_distrib, ← Finset.sum_add_distrib, ← Finset.sum_add_distrib]
  exact Finset.sum_congr rfl fun i _ => by ring

/-- **C16**: the symplectic form decides commutation of the operators: `⟨P, Q⟩ = 0` iff all multiples
of `P` commute with `Q` (for a prime field the multiples are the powers of `P`), for every nontrivial
character, i.e. every faithful choice of phases. -/
theorem C16_commute {K : Type} [Field K] (χ : AddChar F K) (hχ : χ ≠ 1) (p q : Fin (n + n) → F) :
    sform p q = 0 ↔ ∀ (c : F) (f : (Fin n → F) → K),
      pauliOperator χ (c • p) (pauliOperator χ q f) =
        pauliOperator χ q (pauliOperator χ (c • p) f) := by
  have hsm : ∀ c : F, sform q (c • p) = c * sform q p := by
    intro c
    unfold sform xPart zPart
    rw [Finset.mul_sum]
    exact Finset.sum_congr rfl fun i _ => by simp only [Pi.smul_apply, smul_eq_mul]; ring
  constructor
  · intro h c f
    rw [C16_exchange, hsm, sform_comm, h]
    simp
  · intro h
    by_contra hne
    apply hχ
    have hq : sform q p ≠ 0 := by rw [sform_comm]; exact neg_ne_zero.2 hne
    ext x
    have hc := h (x * (sform q p)⁻¹) (fun _ => 1)
    rw [C16_exchange, hsm] at hc
    have hx : x * (sform q p)⁻¹ * sform q p = x := by field_simp
    rw [hx] at hc
    have hk := congrFun hc 0
    have hu : pauliOperator χ q (pauliOperator χ ((x * (sform q p)⁻¹) • p) fun _ => 1) 0 ≠ 0 := by
      unfold pauliOperator
      rw [mul_one, ← AddChar.map_add_eq_mul]
      intro h0
      have h1 : ∀ y : F, χ y ≠ 0 := fun y hy => by
        have := AddChar.map_zero_eq_one χ
        rw [← add_neg_cancel y, AddChar.map_add_eq_mul, hy, zero_mul] at this
        exact zero_ne_one this
      exact h1 _ h0
    have := mul_right_cancel₀ hu (hk.trans (one_mul _).symm)
    rw [this, AddChar.one_apply]

/-- **C16**: commutation is a symmetric relation. -/
theorem C16_symmetric (p q : Fin (n + n) → F) : sform p q = 0 ↔ sform q p = 0 := by
  rw [sform_comm, neg_eq_zero]

-- XZ and ZX commute, XI and ZI do not
example : sform (n := 2) (F := ZMod 2) ![1, 0, 0, 1] ![0, 1, 1, 0] = 0 := by decide +kernel
example : sform (n := 2) (F := ZMod 3) ![1, 0, 0, 0] ![0, 0, 1, 0] = 1 := by decide +kernel

/-! ## C17 -/

/-- **C17**: a code reports to be a stabilizer code iff all pairs of its checks commute. -/
theorem C17_subsystem (M : Rows F (n + n)) : isSubsystem M = false ↔ AllCommute M := by
  unfold isSubsystem AllCommute
  rw [List.any_eq_false]
  constructor
  · intro h p hp q hq
    have := h _ (List.mem_map.2 ⟨p, hp, rfl⟩)
    rw [Bool.not_eq_true, List.any_eq_false] at this
    have := this q hq
    rw [decide_eq_true_eq, not_not, dot_symplecticConjugate] at this
    exact this
  · intro h r hr
    obtain ⟨p, hp, rfl⟩ := List.mem_map.1 hr
    rw [Bool.not_eq_true, List.any_eq_false]
    intro q hq
    rw [decide_eq_true_eq, not_not, dot_symplecticConjugate]
    exact h p hp q hq

/-- **C17**: a CSS code reports to be a stabilizer code iff `H_x H_z^T = 0`, which is iff all rows of
its full parity check matrix commute. -/
theorem C17_css (Hx Hz : Rows F n) :
    (isSubsystemCSS Hx Hz = false ↔ ∀ r ∈ Hx, ∀ q ∈ Hz, ∑ i, r i * q i = 0) ∧
      (isSubsystemCSS Hx Hz = false ↔ AllCommute (cssMatrix Hx Hz)) := by
  have h1 : isSubsystemCSS Hx Hz = false ↔ ∀ r ∈ Hx, ∀ q ∈ Hz, ∑ i, r i * q i = 0 := by
    unfold isSubsystemCSS
    rw [List.any_eq_false]
    simp only [Bool.not_eq_true, List.any_eq_false, decide_eq_true_eq, not_not]
    rfl
  refine ⟨h1, h1.trans ?_⟩
  constructor
  · intro h p hp q hq
    rcases List.mem_append.1 hp with hp | hp <;> rcases List.mem_append.1 hq with hq | hq <;>
      obtain ⟨r, hr, rfl⟩ := List.mem_map.1 hp <;> obtain ⟨s, hs, rfl⟩ := List.mem_map.1 hq <;>
      rw [sform_eq] <;> simp only [xPart_append, zPart_append]
    · simp [dot]
    · simp only [dot, h r hr s hs]; simp
    · have := h s hs r hr
      simp only [dot]; simp only [mul_comm (r _), this]; simp
    · simp [dot]
  · intro h r hr q hq
    have := h _ (List.mem_append_left _ (List.mem_map.2 ⟨r, hr, rfl⟩)) _
      (List.mem_append_right _ (List.mem_map.2 ⟨q, hq, rfl⟩))
    simp only [sform_eq, xPart_append, zPart_append] at this
    simpa [dot] using this

example : isSubsystem (F := ZMod 2) (n := 2) [![1, 1, 0, 0], ![0, 0, 1, 1]] = false := by
  decide +kernel
example : isSubsystem (F := ZMod 2) (n := 2) [![1, 1, 0, 0], ![0, 0, 1, 0]] = true := by
  decide +kernel

#print axioms C16_product
#print axioms C16_form
#print axioms C16_exchange
#print axioms C16_commute
#print axioms C16_symmetric
#print axioms C17_subsystem
#print axioms C17_css

/-! ### Instances of the theorems: concrete cases meet the hypotheses -/

private def signChar : AddChar (ZMod 2) ℚ where
  toFun x := if x = 0 then 1 else -1
  map_zero_eq_one' := rfl
  map_add_eq_mul' := by decide +kernel
example (p q : Fin (2 + 2) → ZMod 2) := C16_commute (F := ZMod 2) signChar (by
  intro h
  have := DFunLike.congr_fun h 1
  revert this
  show ¬ ((if (1 : ZMod 2) = 0 then (1 : ℚ) else -1) = 1)
  decide +kernel) p q

end QLDPC.Props
