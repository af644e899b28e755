import Verif.Model.Symplectic
import Verif.Lemmas.Stack

/-!
# Lemmas about Pauli strings
-/

namespace QLDPC

open Spec

set_option linter.unusedSectionVars false

variable {F : Type} [Field F] [DecidableEq F] {n : ℕ}

@[simp] theorem xPart_append (a b : Fin n → F) : xPart (Fin.append a b) = a := by
  funext i; simp [xPart]

@[simp] theorem zPart_append (a b : Fin n → F) : zPart (Fin.append a b) = b := by
  funext i; simp [zPart, -Fin.natAdd_eq_addNat]

theorem append_parts (p : Fin (n + n) → F) : Fin.append (xPart p) (zPart p) = p := by
  funext i
  refine Fin.addCases (fun i => ?_) (fun i => ?_) i <;>
    simp [xPart, zPart, -Fin.natAdd_eq_addNat]

theorem sform_eq (p q : Fin (n + n) → F) :
    sform p q = dot (xPart p) (zPart q) - dot (zPart p) (xPart q) := by
  unfold sform dot; rw [Finset.sum_sub_distrib]

theorem dot_symplecticConjugate (p q : Fin (n + n) → F) : dot (symplecticConjugate p) q = sform p q := by
  unfold dot
  rw [Fin.sum_univ_add, sform, Finset.sum_sub_distrib, sub_eq_neg_add, ← Finset.sum_neg_distrib]
  congr 1
  · exact Finset.sum_congr rfl fun i _ => by simp [symplecticConjugate, zPart, xPart, -Fin.natAdd_eq_addNat]
  · exact Finset.sum_congr rfl fun i _ => by simp [symplecticConjugate, zPart, xPart, -Fin.natAdd_eq_addNat]

theorem sform_comm (p q : Fin (n + n) → F) : sform p q = - sform q p := by
  unfold sform
  rw [← Finset.sum_neg_distrib]
  exact Finset.sum_congr rfl fun i _ => by ring

end QLDPC
