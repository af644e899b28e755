import Verif.Spec.CSS

/-!
# Specification of codes on a lattice

Qudit `row * cols + col` sits at `(row, col)` of a lattice with `rows` rows and `cols` columns.
-/

namespace QLDPC.Spec

variable {F : Type} [Field F] {rows cols : ℕ}

/-- Ones on a row of the lattice. -/
def rowLine (F : Type) [Field F] (rows cols : ℕ) (r : ℕ) : Fin (rows * cols) → F :=
  fun k => if k.val / cols = r then 1 else 0

/-- Ones on a column of the lattice. -/
def colLine (F : Type) [Field F] (rows cols : ℕ) (c : ℕ) : Fin (rows * cols) → F :=
  fun k => if k.val % cols = c then 1 else 0

/-- Multiply the entry at `(row, col)` by `(-1)^(row + col)`. -/
def alternate (v : Fin (rows * cols) → F) : Fin (rows * cols) → F :=
  fun k => (-1) ^ (k.val / cols + k.val % cols) * v k

/-- All X checks commute with all Z checks, the code has `d` logical qudits, its X distance is `dx` and its
Z distance `dz`. -/
structure HasParameters [DecidableEq F] {n : ℕ} (hx hz : List (Fin n → F)) (d dx dz : ℕ) : Prop where
  commute : ∀ x ∈ hx, ∀ z ∈ hz, ∑ q, x q * z q = 0
  dimension : codeDim hx + codeDim hz = n + d
  distance_x : IsXDistance hx hz dx
  distance_z : IsXDistance hz hx dz

end QLDPC.Spec
