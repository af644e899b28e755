import Verif.Model.Qudit
import Mathlib.Algebra.Field.ZMod
import Mathlib.GroupTheory.Perm.Basic
import Mathlib.Algebra.Group.Subgroup.Lattice
import Mathlib.Tactic.Ring

/-!
# Transversal circuits

`/repo/qldpc/circuits.py:166-367`.  A Clifford circuit is a list of gates, as handed over to Stim.  What a gate does to
Pauli strings modulo signs is the meaning of the gate in Stim.
-/

namespace QLDPC

open Spec

/-- The gates that the emitted circuits consist of. -/
inductive Gate where
  | H (q : ℕ)
  | S (q : ℕ)
  | SQRT_X (q : ℕ)
  | H_YZ (q : ℕ)
  | C_ZYX (q : ℕ)
  | C_XYZ (q : ℕ)
  | SWAP (a b : ℕ)
deriving DecidableEq, Repr

/-- The Pauli operator `(x, z)` of one qubit, modulo signs, conjugated by a local gate (Stim's documentation of the
gates: `H` exchanges X and Z; `S` X and Y; `SQRT_X` and `H_YZ` exchange Y and Z; `C_XYZ` maps X to Y to Z to X;
`C_ZYX` maps Z to Y to X to Z). -/
def Gate.local (g : Gate) (p : ZMod 2 × ZMod 2) : ZMod 2 × ZMod 2 := match g with
  | .H _ => (p.2, p.1)
  | .S _ => (p.1, p.1 + p.2)
  | .SQRT_X _ => (p.1 + p.2, p.2)
  | .H_YZ _ => (p.1 + p.2, p.2)
  | .C_XYZ _ => (p.1 + p.2, p.1)
  | .C_ZYX _ => (p.2, p.1 + p.2)
  | .SWAP _ _ => p

/-- A Pauli string, given by its operators on the qubits `0, 1, ...`, conjugated by a gate. -/
def Gate.act (g : Gate) (f : ℕ → ZMod 2 × ZMod 2) : ℕ → ZMod 2 × ZMod 2 := match g with
  | .H q | .S q | .SQRT_X q | .H_YZ q | .C_XYZ q | .C_ZYX q => fun i => if i = q then g.local (f i) else f i
  | .SWAP a b => fun i => if i = a then f b else if i = b then f a else f i

/-- A Pauli string conjugated by a circuit; the first gate acts first. -/
def runCircuit (c : List Gate) (f : ℕ → ZMod 2 × ZMod 2) : ℕ → ZMod 2 × ZMod 2 := c.foldl (fun f g => g.act f) f

/-- The Pauli string `[P_x | P_z]` conjugated by a circuit. -/
def conjugateBy {n : ℕ} (c : List Gate) (p : Fin (n + n) → ZMod 2) : Fin (n + n) → ZMod 2 :=
  let f := runCircuit c fun i => if h : i < n then (xPart p ⟨i, h⟩, zPart p ⟨i, h⟩) else (0, 0)
  Fin.append (fun i => (f i).1) (fun i => (f i).2)

/-! ## SWAP circuits -/

/-- The `while` loop of sympy's `Permutation.cyclic_form`: the remaining members of the cycle of `j`. -/
def followCycle (p : ℕ → ℕ) : ℕ → List ℕ → ℕ → List ℕ
  | 0, _, _ => []
  | fuel + 1, checked, j => if p j ∈ checked then [] else p j :: followCycle p fuel (p j :: checked) (p j)

/-- The `for` loop of sympy's `Permutation.cyclic_form`. -/
def cycleLoop (p : ℕ → ℕ) (n : ℕ) : List ℕ → List ℕ → List (List ℕ)
  | [], _ => []
  | i :: l, checked =>
    if i ∈ checked then cycleLoop p n l checked
    else
      let cycle := i :: followCycle p n (i :: checked) i
      if 1 < cycle.length then cycle :: cycleLoop p n l (cycle ++ checked) else cycleLoop p n l (cycle ++ checked)

/-- `Permutation(locs).cyclic_form`; `none` (an exception) if `locs` is not a permutation of `0, ..., len(locs) - 1`. -/
def cyclicForm (locs : List ℕ) : Option (List (List ℕ)) :=
  if (List.range locs.length).all (fun i => decide (i ∈ locs)) then
    some (cycleLoop (fun i => locs.getD i i) locs.length (List.range locs.length) [])
  else none

/-- The inner loops of `_get_swap_circuit` for one cycle (`/repo/qldpc/circuits.py:322-324`). -/
def cycleSwaps : List ℕ → List Gate
  | [] => []
  | a :: l => l.map fun b => Gate.SWAP a b

/-- `_get_swap_circuit` (`/repo/qldpc/circuits.py:317-325`) for a code on `n` qubits; `none` if an exception is
raised. -/
def swapCircuit (n : ℕ) (σ : ℕ → ℕ) : Option (List Gate) :=
  (cyclicForm ((List.range n).map fun q => σ q % n)).map fun cycles => cycles.flatMap cycleSwaps

/-! ## Automorphisms -/

/-- A set of local gates (`/repo/qldpc/circuits.py:307-314`), as far as they are allowed. -/
structure GateSet where
  s : Bool := false
  h : Bool := false
  sqrtX : Bool := false
  swap : Bool := false
deriving DecidableEq, Repr

namespace GateSet

/-- The number of local gates except for SWAP. -/
def numLocal (g : GateSet) : ℕ := g.s.toNat + g.h.toNat + g.sqrtX.toNat

/-- The matrices stacked in `/repo/qldpc/circuits.py:209-222`, for one row of the parity checks. -/
def sectors {n : ℕ} (g : GateSet) (r : Fin (n + n) → ZMod 2) : List (Fin n → ZMod 2) :=
  if g.numLocal = 0 ∨ (g.h ∧ ¬ g.s ∧ ¬ g.sqrtX) then [xPart r, zPart r]
  else if g.s ∧ ¬ g.h ∧ ¬ g.sqrtX then [zPart r, xPart r + zPart r]
  else if g.sqrtX ∧ ¬ g.h ∧ ¬ g.s then [xPart r, xPart r + zPart r]
  else [xPart r, zPart r, xPart r + zPart r]

/-- `num_sectors` (`/repo/qldpc/circuits.py:229`). -/
def numSectors (g : GateSet) : ℕ := if g.numLocal ≤ 1 then 2 else 3

end GateSet

/-- The parity checks of the instrumental code (`/repo/qldpc/circuits.py:208-225`): column `ss * n + q` is column `q`
of the matrix number `ss`. -/
def instrumental {n : ℕ} (g : GateSet) (checks : Rows (ZMod 2) (n + n)) : Rows (ZMod 2) (g.numSectors * n) :=
  checks.map fun r j => ((g.sectors r).getD (j / n) 0) ⟨j % n, Nat.mod_lt _ (by
    rcases Nat.eq_zero_or_pos n with h | h
    · exact absurd j.isLt (by subst h; simp)
    · exact h)⟩

/-- The effective parity checks (`/repo/qldpc/circuits.py:208`). -/
def effectiveChecks {n : ℕ} (matrix logicals : Rows (ZMod 2) (n + n)) (deform : Bool) : Rows (ZMod 2) (n + n) :=
  if deform then logicals.map symplecticConjugate else matrix

/-- Index of a column. -/
def column {s n : ℕ} (ss : Fin s) (q : Fin n) : Fin (s * n) := ⟨ss * n + q, by
  calc ss * n + q < ss * n + n := by omega
    _ = (ss + 1) * n := by ring
    _ ≤ s * n := Nat.mul_le_mul_right _ ss.isLt⟩

/-- The generators of `group_gates` (`/repo/qldpc/circuits.py:230-244`). -/
def columnPerms (g : GateSet) (s n : ℕ) : List (Equiv.Perm (Fin (s * n))) :=
  (if g.swap then
    ((List.finRange n).filterMap fun q => if h : q.val + 1 < n then
      some (((List.finRange s).map fun ss => Equiv.swap (column ss q) (column ss ⟨q + 1, h⟩)).prod) else none)
  else []) ++
  (if 0 < g.numLocal then
    (List.finRange s).flatMap fun ss => (List.finRange n).filterMap fun q => if h : ss.val + 1 < s then
      some (Equiv.swap (column ss q) (column ⟨ss + 1, h⟩ q)) else none
  else [])

/-- `_get_pauli_permutation_circuit` (`/repo/qldpc/circuits.py:329-367`).  Stim circuits with several targets of one
gate are written as one gate per target. -/
def pauliCircuit (g : GateSet) (n : ℕ) (σ : ℕ → ℕ) : List Gate :=
  if g.numLocal = 1 then
    ((List.range n).filter fun q => n ≤ σ q).map fun q => if g.s then Gate.S q else if g.h then Gate.H q else Gate.SQRT_X q
  else if 1 < g.numLocal then
    let targets (a b c : ℕ) := (List.range n).filter fun q =>
      decide (σ q / n = a ∧ σ (q + n) / n = b ∧ σ (q + 2 * n) / n = c)
    (targets 1 0 2).map Gate.H ++ (targets 0 2 1).map Gate.S ++ (targets 2 1 0).map Gate.H_YZ ++
      (targets 2 0 1).map Gate.C_ZYX ++ (targets 1 2 0).map Gate.C_XYZ
  else []

/-- The physical circuit of an automorphism without its Pauli correction (`/repo/qldpc/circuits.py:276-278`);
`none` if an exception is raised. -/
def automorphismCircuit (g : GateSet) (n : ℕ) (σ : ℕ → ℕ) : Option (List Gate) :=
  (swapCircuit n σ).map fun c => pauliCircuit g n σ ++ c

/-- `automorphism(i)` of a permutation of the columns. -/
def callPerm {m : ℕ} (σ : Equiv.Perm (Fin m)) (i : ℕ) : ℕ := if h : i < m then σ ⟨i, h⟩ else i

end QLDPC
