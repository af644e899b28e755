import Verif.Spec.Code
import Verif.Spec.Symplectic
import Verif.Spec.Matrix

/-!
# Specification of decoding
-/

namespace QLDPC.Spec

variable {F : Type} [Field F] {n : ℕ}

/-- The syndrome of an error on the bits of a classical code. -/
def syndromeOf (H : List (Fin n → F)) (e : Fin n → F) : List F := H.map fun r => ∑ i, r i * e i

/-- The syndrome of a Pauli error: its commutation with each check. -/
def pauliSyndrome (M : List (Fin (n + n) → F)) (e : Fin (n + n) → F) : List F := M.map fun r => sform r e

/-- Checks and bits within `k` steps of the checks of `start` on a Tanner graph. -/
def Reached (adj : ℕ → ℕ → Prop) (start : ℕ → Prop) : ℕ → (ℕ → Prop) × (ℕ → Prop)
  | 0 => (start, fun _ => False)
  | k + 1 => (fun i => (Reached adj start k).1 i ∨ ∃ j, (Reached adj start k).2 j ∧ adj i j,
      fun j => (Reached adj start k).2 j ∨ ∃ i, (Reached adj start k).1 i ∧ adj i j)

/-- Bit `j` and all its checks are within `k` steps. -/
def Inside (adj : ℕ → ℕ → Prop) (start : ℕ → Prop) (k j : ℕ) : Prop :=
  (Reached adj start k).2 j ∧ ∀ i, adj i j → (Reached adj start k).1 i

/-- The checks with nonzero syndrome. -/
def Fired (s : List F) (i : ℕ) : Prop := s.getD i 0 ≠ 0

/-- Check `i` addresses bit `j`. -/
def Addresses (H : List (Fin n → F)) (i j : ℕ) : Prop := matEntry H i j ≠ 0

/-- Check `i` acts on qudit `j`. -/
def ActsOn (M : List (Fin (n + n) → F)) (i j : ℕ) : Prop :=
  ∃ r, M[i]? = some r ∧ ∃ h : j < n, xPart r ⟨j, h⟩ ≠ 0 ∨ zPart r ⟨j, h⟩ ≠ 0

end QLDPC.Spec
