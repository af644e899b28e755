import Verif.Lemmas.Circuits
import Mathlib.GroupTheory.Perm.Fin

/-!
# Transversal circuits (C62, C63)
-/

namespace QLDPC.Props

open QLDPC QLDPC.Spec

/-! ## C62 -/

/-- The emitted circuit consists of SWAPs, moves what is on qubit `q` to qubit `automorphism(q) mod n`, and does not
touch other qubits. -/
theorem C62_moves {n : ℕ} {σ : ℕ → ℕ} {c : List Gate} (h : swapCircuit n σ = some c) (f : ℕ → ZMod 2 × ZMod 2) :
    (∀ g ∈ c, ∃ a b, g = Gate.SWAP a b) ∧ (∀ q, q < n → runCircuit c f (σ q % n) = f q) ∧
      ∀ x, n ≤ x → runCircuit c f x = f x :=
  ⟨swapCircuit_gates h, swapCircuit_spec h f⟩

/-- There is a circuit precisely if no two qubits are sent to the same place. -/
theorem C62_exists_iff {n : ℕ} {σ : ℕ → ℕ} :
    (∃ c, swapCircuit n σ = some c) ↔ ∀ q q', q < n → q' < n → σ q % n = σ q' % n → q = q' := by
  rw [← Option.isSome_iff_exists, swapCircuit_isSome]
  rcases Nat.eq_zero_or_pos n with rfl | hn
  · simp
  let f : Fin n → Fin n := fun q => ⟨σ q % n, Nat.mod_lt _ hn⟩
  have h1 : (∀ i, i < n → ∃ q, q < n ∧ σ q % n = i) ↔ Function.Surjective f := by
    constructor
    · intro h i
      obtain ⟨q, hq, e⟩ := h i i.isLt
      exact ⟨⟨q, hq⟩, Fin.ext e⟩
    · intro h i hi
      obtain ⟨q, e⟩ := h ⟨i, hi⟩
      exact ⟨q, q.isLt, congrArg Fin.val e⟩
  have h2 : (∀ q q', q < n → q' < n → σ q % n = σ q' % n → q = q') ↔ Function.Injective f := by
    constructor
    · intro h q q' e
      exact Fin.ext (h q q' q.isLt q'.isLt (congrArg Fin.val e))
    · intro h q q' hq hq' e
      exact congrArg Fin.val (@h ⟨q, hq⟩ ⟨q', hq'⟩ (Fin.ext e))
  rw [h1, h2, Finite.injective_iff_surjective]

/-- The automorphisms that circuits are asked for always have one, and which qubit the columns of a qubit are sent to
does not depend on the sector. -/
theorem C62_automorphism {n : ℕ} {g : GateSet} {σ : Equiv.Perm (Fin (g.numSectors * n))}
    (hσ : σ ∈ Subgroup.closure {τ | τ ∈ columnPerms g g.numSectors n}) :
    (∃ c, swapCircuit n (callPerm σ) = some c) ∧
      ∀ (ss : Fin g.numSectors) (q : Fin n), callPerm σ (ss * n + q) % n = callPerm σ q % n := by
  have hpos : 0 < g.numSectors := by unfold GateSet.numSectors; split_ifs <;> omega
  obtain ⟨π, ρ, hs, -, -⟩ := splits_of_mem_closure hσ
  have hmod : ∀ q : Fin n, callPerm σ q % n = ρ q := by
    intro q
    have := callPerm_mod hs ⟨0, hpos⟩ q
    simpa using this
  refine ⟨?_, fun ss q => by rw [hmod, callPerm_mod hs]⟩
  rw [C62_exists_iff]
  intro q q' hq hq' e
  have h1 := hmod ⟨q, hq⟩
  have h2 := hmod ⟨q', hq'⟩
  exact congrArg Fin.val (ρ.injective (Fin.ext (h1.symm.trans (e.trans h2))) : (⟨q, hq⟩ : Fin n) = ⟨q', hq'⟩)

/-- Two cycles, 0 → 2 → 4 → 0 and 1 → 3 → 1. -/
example : swapCircuit 5 (fun q => [2, 3, 4, 1, 0].getD q q) = some [.SWAP 0 2, .SWAP 0 4, .SWAP 1 3] := by
  decide +kernel

/-- No circuit. -/
example : swapCircuit 3 (fun q => [1, 1, 2].getD q q) = none := by decide +kernel

/-! ## C63 -/

/-- The emitted circuit preserves commutation relations, i.e., acts on Pauli strings as a Clifford does, and it is
invertible. -/
theorem C63_clifford {n : ℕ} {g : GateSet} {σ : Equiv.Perm (Fin (g.numSectors * n))}
    (hσ : σ ∈ Subgroup.closure {τ | τ ∈ columnPerms g g.numSectors n}) :
    ∃ circ, automorphismCircuit g n (callPerm σ) = some circ ∧
      (∀ p p' : Fin (n + n) → ZMod 2, sform (conjugateBy circ p) (conjugateBy circ p') = sform p p') ∧
      Function.Bijective (conjugateBy (n := n) circ) := by
  obtain ⟨π, ρ, circ, G, -, h1, h2, -, -⟩ := automorphismCircuit_spec hσ
  exact ⟨circ, h1, sform_conjugateBy h2, Finite.injective_iff_bijective.1
    (Finite.injective_iff_surjective.2 (conjugateBy_surj h2))⟩

/-- For all permutations of the columns that are generated by the gate set: the permutation preserves the words of the
instrumental code precisely if the emitted circuit maps the Pauli strings that commute with all parity checks to
themselves. -/
theorem C63_iff {n : ℕ} {g : GateSet} {σ : Equiv.Perm (Fin (g.numSectors * n))}
    (hσ : σ ∈ Subgroup.closure {τ | τ ∈ columnPerms g g.numSectors n}) (matrix logicals : Rows (ZMod 2) (n + n)) :
    ∃ circ, automorphismCircuit g n (callPerm σ) = some circ ∧
      ((∀ c, IsWord (instrumental g (effectiveChecks matrix logicals false)) c →
          IsWord (instrumental g (effectiveChecks matrix logicals false)) (c ∘ σ)) ↔
        ∀ p, (∀ r ∈ matrix, sform r (conjugateBy circ p) = 0) ↔ ∀ r ∈ matrix, sform r p = 0) := by
  obtain ⟨π, ρ, circ, G, hs, h1, h2, h3, -⟩ := automorphismCircuit_spec hσ
  refine ⟨circ, h1, ?_⟩
  exact preserves_iff hs (fun ss => bits g ss) (bits_surj g) (fun q => localHom (G q)) h3 circ h2 matrix _ matrix id
    (List.map_id _).symm fun r _ ss q => instrumental_row g r ss q _

/-- For automorphisms of the instrumental code, the circuit maps the group generated by the parity checks (the
stabilizer or gauge group, modulo signs) to itself. -/
theorem C63_checks {n : ℕ} {g : GateSet} {σ : Equiv.Perm (Fin (g.numSectors * n))}
    (hσ : σ ∈ Subgroup.closure {τ | τ ∈ columnPerms g g.numSectors n}) (matrix logicals : Rows (ZMod 2) (n + n))
    (haut : ∀ c, IsWord (instrumental g (effectiveChecks matrix logicals false)) c →
      IsWord (instrumental g (effectiveChecks matrix logicals false)) (c ∘ σ)) :
    ∃ circ, automorphismCircuit g n (callPerm σ) = some circ ∧
      ∀ p, IsCombination matrix (conjugateBy circ p) ↔ IsCombination matrix p := by
  obtain ⟨π, ρ, circ, G, hs, h1, h2, h3, -⟩ := automorphismCircuit_spec hσ
  refine ⟨circ, h1, span_conjugateBy h2 matrix ?_⟩
  exact (preserves_iff hs (fun ss => bits g ss) (bits_surj g) (fun q => localHom (G q)) h3 circ h2 matrix _ matrix id
    (List.map_id _).symm fun r _ ss q => instrumental_row g r ss q _).1 haut

/-- Without SWAPs in the gate set, what the circuit leaves on a qubit depends only on what was on that qubit. -/
theorem C63_transversal {n : ℕ} {g : GateSet} (hg : g.swap = false) {σ : Equiv.Perm (Fin (g.numSectors * n))}
    (hσ : σ ∈ Subgroup.closure {τ | τ ∈ columnPerms g g.numSectors n}) :
    ∃ circ, automorphismCircuit g n (callPerm σ) = some circ ∧ ∀ (f f' : ℕ → ZMod 2 × ZMod 2) (q : Fin n),
      f q = f' q → runCircuit circ f q = runCircuit circ f' q := by
  obtain ⟨π, ρ, circ, G, hs, h1, h2, h3, h4⟩ := automorphismCircuit_spec hσ
  refine ⟨circ, h1, fun f f' q e => ?_⟩
  have a := h2 f q
  have b := h2 f' q
  rw [h4 hg] at a b
  exact a.trans (by rw [e]; exact b.symm)

/-- If the code may be deformed and the only local gates are Hadamard gates, or if there are no local gates: the
permutation preserves the words of the instrumental code precisely if the circuit maps the Pauli strings that commute
with all logical operators to themselves. -/
theorem C63_deform_partial {n : ℕ} {g : GateSet} (hs : g.s = false) (hx : g.sqrtX = false)
    {σ : Equiv.Perm (Fin (g.numSectors * n))}
    (hσ : σ ∈ Subgroup.closure {τ | τ ∈ columnPerms g g.numSectors n}) (matrix logicals : Rows (ZMod 2) (n + n)) :
    ∃ circ, automorphismCircuit g n (callPerm σ) = some circ ∧
      ((∀ c, IsWord (instrumental g (effectiveChecks matrix logicals true)) c →
          IsWord (instrumental g (effectiveChecks matrix logicals true)) (c ∘ σ)) ↔
        ∀ p, (∀ r ∈ logicals, sform r (conjugateBy circ p) = 0) ↔ ∀ r ∈ logicals, sform r p = 0) := by
  obtain ⟨π, ρ, circ, G, hs', h1, h2, h3, -⟩ := automorphismCircuit_spec hσ
  refine ⟨circ, h1, ?_⟩
  have hswap : ∀ q (ss : Fin g.numSectors), (G q).local (bits g ss).swap = (bits g (π q ss)).swap := by
    intro q ss
    have hg2 : g.numSectors = 2 := by
      unfold GateSet.numSectors GateSet.numLocal
      rw [hs, hx]
      cases g.h <;> rfl
    have b0 : bits g 0 = (0, 1) := by
      unfold bits GateSet.numLocal
      rw [hs, hx]
      cases g.h <;> rfl
    have b1 : bits g 1 = (1, 0) := by
      unfold bits GateSet.numLocal
      rw [hs, hx]
      cases g.h <;> rfl
    have hbit : ∀ t t' : Fin g.numSectors, t ≠ t' → (bits g t).swap = bits g t' := by
      intro t t' htt
      have h1 := t.isLt
      have h2 := t'.isLt
      have h3 : t.val ≠ t'.val := fun e => htt (Fin.ext e)
      rcases (by omega : t.val = 0 ∧ t'.val = 1 ∨ t.val = 1 ∧ t'.val = 0) with ⟨e, e'⟩ | ⟨e, e'⟩ <;> rw [e, e', b0, b1] <;> rfl
    obtain ⟨t, ht⟩ : ∃ t : Fin g.numSectors, ss ≠ t := by
      by_cases h0 : ss.val = 0
      · exact ⟨⟨1, by omega⟩, fun e => by rw [e] at h0; exact absurd h0 (by simp)⟩
      · exact ⟨⟨0, by omega⟩, fun e => h0 (by rw [e])⟩
    rw [hbit ss t ht, h3, hbit (π q ss) (π q t) fun e => ht ((π q).injective e)]
  refine preserves_iff hs' (fun ss => (bits g ss).swap) ?_ (fun q => localHom (G q)) hswap circ h2 logicals _ _
    symplecticConjugate rfl ?_
  · intro p
    obtain ⟨c, hc⟩ := bits_surj g p.swap
    exact ⟨c, by rw [← Prod.swap_swap p, ← hc]; rfl⟩
  · intro r _ ss q
    rw [instrumental_row g]
    have e1 : xPart (symplecticConjugate r) q = zPart r q := by
      unfold symplecticConjugate
      rw [xPart_append]
      exact CharTwo.neg_eq _
    have e2 : zPart (symplecticConjugate r) q = xPart r q := by
      unfold symplecticConjugate
      rw [zPart_append]
      rfl
    rw [e1, e2]
    simp [add_comm]

/-- Pauli strings on two qubits. -/
private def pauli2 (x z : Fin 2 → ZMod 2) : Fin (2 + 2) → ZMod 2 := Fin.append x z

/-- Deformations with phase gates: the code with the stabilizer `IX` and the logical operators `XX` and `ZI`.  The
permutation that exchanges the sectors of qubit 1 is generated by the gate set {"S"} and preserves the instrumental
code for `deform_code=True`.  Its circuit maps the stabilizer to `IY`, which does not commute with the logical operator
`XX`, so that `XX` and `ZI` are no logical operators of the deformed code. -/
theorem C63_deform_disagreement :
    let g : GateSet := { s := true }
    let stab := [pauli2 ![0, 1] ![0, 0]]
    let logicals := [pauli2 ![1, 1] ![0, 0], pauli2 ![0, 0] ![1, 0]]
    let σ : Equiv.Perm (Fin (2 * 2)) := Equiv.swap 1 3
    (∀ r ∈ stab, ∀ l ∈ logicals, sform r l = 0) ∧ sform logicals[0] logicals[1] = 1 ∧
      σ ∈ columnPerms g 2 2 ∧
      (∀ c : Fin (2 * 2) → ZMod 2, IsWord (instrumental g (effectiveChecks stab logicals true)) c →
        IsWord (instrumental g (effectiveChecks stab logicals true)) (c ∘ σ)) ∧
      automorphismCircuit g 2 (callPerm σ) = some [Gate.S 1] ∧
      ∃ r ∈ stab, ∃ l ∈ logicals, sform l (conjugateBy [Gate.S 1] r) ≠ 0 := by
  refine ⟨by decide +kernel, by decide +kernel, by decide +kernel, ?_, by decide +kernel, by decide +kernel⟩
  unfold IsWord
  decide +kernel

/-! ### Examples -/

/-- The stabilizers of the [[4, 2, 2]] code. -/
private def c4 : Rows (ZMod 2) (4 + 4) := [Fin.append ![1, 1, 1, 1] 0, Fin.append 0 ![1, 1, 1, 1]]

/-- The stabilizers `XZ` and `ZX` of a graph state. -/
private def bell : Rows (ZMod 2) (2 + 2) := [pauli2 ![1, 0] ![0, 1], pauli2 ![0, 1] ![1, 0]]

private abbrev allGates : GateSet := { s := true, h := true, swap := true }

/-- A SWAP, by way of a permutation of the columns. -/
private def bellAut : Equiv.Perm (Fin (3 * 2)) :=
  Equiv.swap 0 1 * Equiv.swap 2 3 * Equiv.swap 4 5

private theorem bellAut_mem : bellAut ∈ Subgroup.closure {τ | τ ∈ columnPerms allGates 3 2} :=
  Subgroup.subset_closure (by show _ ∈ columnPerms allGates 3 2; decide +kernel)

/-- Hadamard gates on both qubits. -/
private def bellAut' : Equiv.Perm (Fin (3 * 2)) := Equiv.swap 0 2 * Equiv.swap 1 3

private theorem bellAut'_mem : bellAut' ∈ Subgroup.closure {τ | τ ∈ columnPerms allGates 3 2} :=
  mul_mem (Subgroup.subset_closure (by show _ ∈ columnPerms allGates 3 2; decide +kernel))
    (Subgroup.subset_closure (by show _ ∈ columnPerms allGates 3 2; decide +kernel))

example : automorphismCircuit allGates 2 (callPerm (bellAut' * bellAut)) = some [.H 0, .H 1, .SWAP 0 1] := by
  decide +kernel

private theorem bell_words : ∀ c : Fin (3 * 2) → ZMod 2, IsWord (instrumental allGates (effectiveChecks bell [] false)) c →
    IsWord (instrumental allGates (effectiveChecks bell [] false)) (c ∘ (bellAut' * bellAut)) := by
  unfold IsWord
  decide +kernel

example := C62_automorphism (g := allGates) (n := 2) (mul_mem bellAut'_mem bellAut_mem)
example := C63_clifford (g := allGates) (n := 2) (mul_mem bellAut'_mem bellAut_mem)
example := C63_iff (g := allGates) (n := 2) (mul_mem bellAut'_mem bellAut_mem) bell []
example := C63_checks (g := allGates) (n := 2) (mul_mem bellAut'_mem bellAut_mem) bell [] bell_words

/-- A permutation that is generated by the gate set and does not preserve the code: a Hadamard gate on one qubit. -/
example : ¬ ∀ c : Fin (2 * 4) → ZMod 2, IsWord (instrumental { h := true } (effectiveChecks c4 [] false)) c →
    IsWord (instrumental { h := true } (effectiveChecks c4 [] false)) (c ∘ Equiv.swap (0 : Fin (2 * 4)) 4) := by
  intro h
  have := h ![1, 1, 0, 0, 0, 0, 0, 0]
  revert this
  unfold IsWord
  decide +kernel

section AxiomCheck
#print axioms C62_moves
#print axioms C62_exists_iff
#print axioms C62_automorphism
#print axioms C63_clifford
#print axioms C63_iff
#print axioms C63_checks
#print axioms C63_transversal
#print axioms C63_deform_partial
#print axioms C63_deform_disagreement
end AxiomCheck

/-! ### Instances of the theorems: concrete cases meet the hypotheses -/

example := C62_moves (n := 5) (σ := fun q => [2, 3, 4, 1, 0].getD q q) (c := [.SWAP 0 2, .SWAP 0 4, .SWAP 1 3]) (by decide +kernel) (fun q => (q, 1))

example := C63_transversal (n := 2) (g := { h := true }) rfl (σ := (Equiv.swap 0 2 : Equiv.Perm (Fin (2 * 2)))) (Subgroup.subset_closure (by show _ ∈ columnPerms { h := true } 2 2; decide +kernel))
example := C63_deform_partial (n := 2) (g := { h := true }) rfl rfl (σ := (Equiv.swap 0 2 : Equiv.Perm (Fin (2 * 2)))) (Subgroup.subset_closure (by show _ ∈ columnPerms { h := true } 2 2; decide +kernel))
  [Fin.append ![1, 1] 0] []

end QLDPC.Props
