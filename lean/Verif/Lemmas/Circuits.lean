import Verif.Lemmas.Swaps
import Verif.Lemmas.Combine
import Verif.Lemmas.Stack
import Mathlib.Algebra.BigOperators.Fin
import Mathlib.Logic.Equiv.Fin.Basic
import Mathlib.Algebra.CharP.Two
import Mathlib.GroupTheory.OrderOfElement
import Mathlib.Data.Fintype.Perm
import Mathlib.Algebra.Group.Subgroup.Lattice

/-! # Lemmas about transversal circuits -/

namespace QLDPC

open Spec

/-! ## SWAP circuits -/

theorem swapCircuit_spec {n : ℕ} {σ : ℕ → ℕ} {c : List Gate} (h : swapCircuit n σ = some c) (f : ℕ → ZMod 2 × ZMod 2) :
    (∀ q, q < n → runCircuit c f (σ q % n) = f q) ∧ ∀ x, n ≤ x → runCircuit c f x = f x := by
  unfold swapCircuit cyclicForm at h
  rw [Option.map_eq_some_iff] at h
  obtain ⟨cyc, h1, h2⟩ := h
  split_ifs at h1 with hall
  have h1 := Option.some.inj h1
  generalize hlocs : ((List.range n).map fun q => σ q % n) = locs at h1 hall
  have hlen : locs.length = n := by rw [← hlocs]; simp
  rw [hlen] at h1 hall
  simp only [List.all_eq_true, List.mem_range, decide_eq_true_eq] at hall
  have hsub : (List.range n).Perm locs := by
    refine (List.subperm_of_subset List.nodup_range (fun x hx => hall x (List.mem_range.1 hx))).perm_of_length_le ?_
    rw [hlen]; simp
  have hnd : locs.Nodup := hsub.nodup_iff.1 List.nodup_range
  have hlt : ∀ x ∈ locs, x < n := fun x hx => by simpa using hsub.mem_iff.2 hx
  have hval : ∀ i (hi : i < n), locs.getD i i = locs[i]'(by omega) := fun i hi => by simp [show i < locs.length by omega]
  have hout : ∀ i, n ≤ i → locs.getD i i = i := fun i hi => by simp [show locs.length ≤ i by omega]
  have hn : ∀ x, x < n → locs.getD x x < n := fun x hx => by rw [hval x hx]; exact hlt _ (List.getElem_mem _)
  have hp : Function.Injective fun i => locs.getD i i := by
    intro x y hxy
    simp only at hxy
    by_cases hx : x < n <;> by_cases hy : y < n
    · rw [hval x hx, hval y hy, hnd.getElem_inj_iff] at hxy
      exact hxy
    · have := hn x hx
      rw [hxy, hout y (by omega)] at this
      omega
    · have := hn y hy
      rw [← hxy, hout x (by omega)] at this
      omega
    · rwa [hout x (by omega), hout y (by omega)] at hxy
  obtain ⟨-, r⟩ := run_cycleLoop hp hn hout (List.range n) [] (by simp) (by simp) (by simp) (by simp) f
  rw [h1, h2] at r
  refine ⟨fun q hq => ?_, fun x hx => ?_⟩
  · have := r q (by simp)
    rw [hval q hq] at this
    subst hlocs
    simpa using this
  · have := r x (by simp)
    rwa [hout x hx] at this

theorem swapCircuit_isSome {n : ℕ} {σ : ℕ → ℕ} :
    (swapCircuit n σ).isSome = true ↔ ∀ i, i < n → ∃ q, q < n ∧ σ q % n = i := by
  unfold swapCircuit cyclicForm
  rw [Option.isSome_map]
  split_ifs with h
  · simpa using h
  · simp only [Option.isSome_none, Bool.false_eq_true, false_iff]
    simpa using h

theorem swapCircuit_gates {n : ℕ} {σ : ℕ → ℕ} {c : List Gate} (h : swapCircuit n σ = some c) :
    ∀ g ∈ c, ∃ a b, g = Gate.SWAP a b := by
  unfold swapCircuit at h
  rw [Option.map_eq_some_iff] at h
  obtain ⟨cyc, -, rfl⟩ := h
  intro g hg
  obtain ⟨l, -, hl⟩ := List.mem_flatMap.1 hg
  cases l with
  | nil => simp [cycleSwaps] at hl
  | cons a l =>
    obtain ⟨b, -, rfl⟩ := List.mem_map.1 hl
    exact ⟨a, b, rfl⟩

/-! ## Local gates -/

theorem run_local (G : ℕ → Gate) (φ : ZMod 2 × ZMod 2 → ZMod 2 × ZMod 2)
    (hG : ∀ q f i, (G q).act f i = if i = q then φ (f i) else f i) (l : List ℕ) (hl : l.Nodup)
    (f : ℕ → ZMod 2 × ZMod 2) (x : ℕ) : runCircuit (l.map G) f x = if x ∈ l then φ (f x) else f x := by
  induction l generalizing f with
  | nil => rfl
  | cons q l ih =>
    rw [List.map_cons, runCircuit_cons, ih (List.nodup_cons.1 hl).2, hG]
    have hq := (List.nodup_cons.1 hl).1
    by_cases hx : x = q
    · subst hx
      simp [hq]
    · simp [hx]

/-! ## Columns -/

variable {s n : ℕ}

theorem column_eq (ss : Fin s) (q : Fin n) : column ss q = finProdFinEquiv (ss, q) := by
  apply Fin.ext
  simp [column, Nat.mul_comm, Nat.add_comm]

theorem column_inj {ss ss' : Fin s} {q q' : Fin n} : column ss q = column ss' q' ↔ ss = ss' ∧ q = q' := by
  rw [column_eq, column_eq, finProdFinEquiv.injective.eq_iff, Prod.mk.injEq]

theorem exists_column (j : Fin (s * n)) : ∃ ss q, j = column (s := s) (n := n) ss q := by
  refine ⟨(finProdFinEquiv.symm j).1, (finProdFinEquiv.symm j).2, ?_⟩
  rw [column_eq]
  exact (finProdFinEquiv.apply_symm_apply j).symm

theorem sum_columns {M : Type} [AddCommMonoid M] (f : Fin (s * n) → M) :
    ∑ j, f j = ∑ q : Fin n, ∑ ss : Fin s, f (column ss q) := by
  rw [Finset.sum_comm, ← Fintype.sum_prod_type']
  exact (Fintype.sum_equiv finProdFinEquiv _ _ fun p => by rw [column_eq]).symm

theorem column_div (ss : Fin s) (q : Fin n) : (column ss q).val / n = ss := by
  have : 0 < n := q.pos
  show (ss.val * n + q.val) / n = ss
  rw [Nat.mul_comm, Nat.mul_add_div this, Nat.div_eq_of_lt q.isLt, Nat.add_zero]

theorem column_mod (ss : Fin s) (q : Fin n) : (column ss q).val % n = q := by
  show (ss.val * n + q.val) % n = q
  rw [Nat.mul_comm, Nat.mul_add_mod, Nat.mod_eq_of_lt q.isLt]

/-- `σ` moves the columns of qubit `q` to those of qubit `ρ q`, and permutes sectors by `π q` on the way -/
def Splits (σ : Equiv.Perm (Fin (s * n))) (π : Fin n → Equiv.Perm (Fin s)) (ρ : Equiv.Perm (Fin n)) : Prop :=
  ∀ ss q, σ (column ss q) = column (π q ss) (ρ q)

theorem splits_one : Splits (1 : Equiv.Perm (Fin (s * n))) 1 1 := fun _ _ => rfl

theorem Splits.mul {σ τ : Equiv.Perm (Fin (s * n))} {π π' : Fin n → Equiv.Perm (Fin s)} {ρ ρ' : Equiv.Perm (Fin n)}
    (h : Splits σ π ρ) (h' : Splits τ π' ρ') : Splits (σ * τ) (fun q => π (ρ' q) * π' q) (ρ * ρ') := by
  intro ss q
  rw [Equiv.Perm.mul_apply, h', h]
  rfl

theorem Splits.inv {σ : Equiv.Perm (Fin (s * n))} {π : Fin n → Equiv.Perm (Fin s)} {ρ : Equiv.Perm (Fin n)}
    (h : Splits σ π ρ) : Splits σ⁻¹ (fun q => (π (ρ⁻¹ q))⁻¹) ρ⁻¹ := by
  intro ss q
  rw [Equiv.Perm.inv_eq_iff_eq, h]
  simp

theorem splits_swap_qubits (q q' : Fin n) :
    Splits (((List.finRange s).map fun ss => Equiv.swap (column ss q) (column ss q')).prod) 1 (Equiv.swap q q') := by
  have key : ∀ (l : List (Fin s)), l.Nodup → ∀ ss x,
      (l.map fun ss => Equiv.swap (column ss q) (column ss q')).prod (column ss x) =
        if ss ∈ l then column ss (Equiv.swap q q' x) else column ss x := by
    intro l hl
    induction l with
    | nil => intro ss x; simp
    | cons t l ih =>
      intro ss x
      rw [List.map_cons, List.prod_cons, Equiv.Perm.mul_apply, ih (List.nodup_cons.1 hl).2]
      have ht := (List.nodup_cons.1 hl).1
      by_cases hst : ss = t
      · subst hst
        rw [if_neg ht, if_pos (by simp)]
        simp only [Equiv.swap_apply_def, column_inj, true_and]
        split_ifs <;> rfl
      · have hne : ∀ y : Fin n, Equiv.swap (column t q) (column t q') (column ss y) = column ss y := fun y =>
          Equiv.swap_apply_of_ne_of_ne (by rw [Ne, column_inj]; tauto) (by rw [Ne, column_inj]; tauto)
        simp only [List.mem_cons, hst, false_or]
        split_ifs <;> rw [hne]
  intro ss x
  rw [key _ (List.nodup_finRange _), if_pos (List.mem_finRange _)]
  rfl

theorem splits_swap_sectors (ss ss' : Fin s) (q : Fin n) :
    Splits (Equiv.swap (column ss q) (column ss' q)) (fun x => if x = q then Equiv.swap ss ss' else 1) 1 := by
  intro t x
  simp only [Equiv.swap_apply_def, column_inj]
  by_cases hx : x = q
  · subst hx
    simp only [and_true, if_true, Equiv.Perm.one_apply, Equiv.swap_apply_def]
    split_ifs <;> rfl
  · simp [hx]

/-- every product of the generators splits -/
theorem splits_of_mem_closure {g : GateSet} {σ : Equiv.Perm (Fin (s * n))}
    (h : σ ∈ Subgroup.closure {τ | τ ∈ columnPerms g s n}) :
    ∃ π ρ, Splits σ π ρ ∧ (g.numLocal = 0 → ∀ q, π q = 1) ∧ (g.swap = false → ρ = 1) := by
  induction h using Subgroup.closure_induction with
  | mem τ hτ =>
    simp only [Set.mem_setOf_eq, columnPerms, List.mem_append] at hτ
    rcases hτ with hτ | hτ
    · split_ifs at hτ with hs
      · obtain ⟨q, -, hq⟩ := List.mem_filterMap.1 hτ
        split_ifs at hq with hlt
        rw [← Option.some.inj hq]
        exact ⟨1, _, splits_swap_qubits _ _, fun _ _ => rfl, fun h => by rw [hs] at h; cases h⟩
      · simp at hτ
    · split_ifs at hτ with hs
      · obtain ⟨ss, -, hss⟩ := List.mem_flatMap.1 hτ
        obtain ⟨q, -, hq⟩ := List.mem_filterMap.1 hss
        split_ifs at hq with hlt
        rw [← Option.some.inj hq]
        exact ⟨_, 1, splits_swap_sectors _ _ _, fun h => by omega, fun _ => rfl⟩
      · simp at hτ
  | one => exact ⟨1, 1, splits_one, fun _ _ => rfl, fun _ => rfl⟩
  | mul σ τ _ _ h1 h2 =>
    obtain ⟨π, ρ, a1, a2, a3⟩ := h1
    obtain ⟨π', ρ', b1, b2, b3⟩ := h2
    exact ⟨_, _, a1.mul b1, fun h q => by simp [a2 h, b2 h], fun h => by simp [a3 h, b3 h]⟩
  | inv σ _ h1 =>
    obtain ⟨π, ρ, a1, a2, a3⟩ := h1
    exact ⟨_, _, a1.inv, fun h q => by simp [a2 h], fun h => by simp [a3 h]⟩

theorem callPerm_column {σ : Equiv.Perm (Fin (s * n))} {π : Fin n → Equiv.Perm (Fin s)} {ρ : Equiv.Perm (Fin n)}
    (h : Splits σ π ρ) (ss : Fin s) (q : Fin n) : callPerm σ (ss * n + q) = (π q ss).val * n + (ρ q).val := by
  unfold callPerm
  have hlt : ss.val * n + q.val < s * n := (column ss q).isLt
  rw [dif_pos hlt]
  have := h ss q
  rw [show (⟨ss.val * n + q.val, hlt⟩ : Fin (s * n)) = column ss q from rfl, this]
  rfl

theorem callPerm_div {σ : Equiv.Perm (Fin (s * n))} {π : Fin n → Equiv.Perm (Fin s)} {ρ : Equiv.Perm (Fin n)}
    (h : Splits σ π ρ) (ss : Fin s) (q : Fin n) : callPerm σ (ss * n + q) / n = π q ss := by
  rw [callPerm_column h]
  exact column_div _ _

theorem callPerm_mod {σ : Equiv.Perm (Fin (s * n))} {π : Fin n → Equiv.Perm (Fin s)} {ρ : Equiv.Perm (Fin n)}
    (h : Splits σ π ρ) (ss : Fin s) (q : Fin n) : callPerm σ (ss * n + q) % n = ρ q := by
  rw [callPerm_column h]
  exact column_mod (π q ss) (ρ q)

/-! ## Words of the instrumental code as Pauli strings -/

/-- the Pauli operator of a column of qubit content `c` -/
def decodeAt (bits : Fin s → ZMod 2 × ZMod 2) (c : Fin s → ZMod 2) : ZMod 2 × ZMod 2 :=
  (∑ ss, c ss * (bits ss).1, ∑ ss, c ss * (bits ss).2)

/-- the Pauli string of a word -/
def decodeWord (bits : Fin s → ZMod 2 × ZMod 2) (c : Fin (s * n) → ZMod 2) : Fin (n + n) → ZMod 2 :=
  Fin.append (fun q => (decodeAt bits fun ss => c (column ss q)).1) (fun q => (decodeAt bits fun ss => c (column ss q)).2)

theorem conjugateBy_at (c : List Gate) (p : Fin (n + n) → ZMod 2) (q : Fin n) :
    (xPart (conjugateBy c p) q, zPart (conjugateBy c p) q) =
      runCircuit c (fun i => if h : i < n then (xPart p ⟨i, h⟩, zPart p ⟨i, h⟩) else (0, 0)) q := by
  unfold conjugateBy
  simp only [xPart_append, zPart_append]

theorem sform_decodeWord (bits : Fin s → ZMod 2 × ZMod 2) (r : Fin (n + n) → ZMod 2) (row : Fin (s * n) → ZMod 2)
    (hrow : ∀ ss q, row (column ss q) = xPart r q * (bits ss).2 + zPart r q * (bits ss).1) (c : Fin (s * n) → ZMod 2) :
    sform r (decodeWord bits c) = ∑ j, row j * c j := by
  rw [sum_columns]
  unfold sform decodeWord
  simp only [xPart_append, zPart_append, decodeAt]
  refine Finset.sum_congr rfl fun q _ => ?_
  rw [CharTwo.sub_eq_add, Finset.mul_sum, Finset.mul_sum, ← Finset.sum_add_distrib]
  refine Finset.sum_congr rfl fun ss _ => ?_
  rw [hrow]
  ring

/-- conjugation by the circuit is moving the columns -/
theorem conjugateBy_decodeWord {σ : Equiv.Perm (Fin (s * n))} {π : Fin n → Equiv.Perm (Fin s)} {ρ : Equiv.Perm (Fin n)}
    (hσ : Splits σ π ρ) (bits : Fin s → ZMod 2 × ZMod 2) (φ : Fin n → (ZMod 2 × ZMod 2 →+ ZMod 2 × ZMod 2))
    (hφ : ∀ q ss, φ q (bits ss) = bits (π q ss)) (circ : List Gate)
    (hrun : ∀ f (q : Fin n), runCircuit circ f (ρ q) = φ q (f q)) (c : Fin (s * n) → ZMod 2) :
    conjugateBy circ (decodeWord bits c) = decodeWord bits (c ∘ σ.symm) := by
  have hat : ∀ q : Fin n, (xPart (conjugateBy circ (decodeWord bits c)) (ρ q), zPart (conjugateBy circ (decodeWord bits c)) (ρ q)) =
      decodeAt bits fun ss => (c ∘ σ.symm) (column ss (ρ q)) := by
    intro q
    rw [conjugateBy_at, hrun]
    have e : (if h : (q : ℕ) < n then (xPart (decodeWord bits c) ⟨q, h⟩, zPart (decodeWord bits c) ⟨q, h⟩) else (0, 0)) =
        decodeAt bits fun ss => c (column ss q) := by
      rw [dif_pos q.isLt]
      unfold decodeWord
      simp only [xPart_append, zPart_append]
    rw [e]
    have hsum : ∀ d : Fin s → ZMod 2, decodeAt bits d = ∑ ss, d ss • bits ss := by
      intro d
      apply Prod.ext
      · simp [decodeAt, Prod.fst_sum]
      · simp [decodeAt, Prod.snd_sum]
    have hsmul : ∀ (a : ZMod 2) (v : ZMod 2 × ZMod 2), φ q (a • v) = a • φ q v := by
      intro a v
      rcases (by decide : ∀ a : ZMod 2, a = 0 ∨ a = 1) a with rfl | rfl
      · simp
      · simp
    rw [hsum, hsum, map_sum]
    simp only [hsmul, hφ]
    rw [← Equiv.sum_comp (π q) fun ss => (c ∘ σ.symm) (column ss (ρ q)) • bits ss]
    refine Finset.sum_congr rfl fun ss _ => ?_
    rw [Function.comp_apply, ← hσ ss q, Equiv.symm_apply_apply]
  rw [← append_parts (conjugateBy circ (decodeWord bits c))]
  unfold decodeWord at hat ⊢
  congr 1
  · funext q
    have := congrArg Prod.fst (hat (ρ.symm q))
    simpa using this
  · funext q
    have := congrArg Prod.snd (hat (ρ.symm q))
    simpa using this

theorem exists_decodeWord (bits : Fin s → ZMod 2 × ZMod 2) (hb : ∀ p, ∃ c, decodeAt bits c = p)
    (p : Fin (n + n) → ZMod 2) : ∃ c : Fin (s * n) → ZMod 2, decodeWord bits c = p := by
  choose d hd using hb
  refine ⟨fun j => d (xPart p (finProdFinEquiv.symm j).2, zPart p (finProdFinEquiv.symm j).2) (finProdFinEquiv.symm j).1, ?_⟩
  rw [← append_parts p]
  unfold decodeWord
  congr 1 <;> funext q <;> simp only [column_eq, Equiv.symm_apply_apply, hd, xPart_append, zPart_append]

/-- a permutation of the columns preserves the words as soon as it maps words to words -/
theorem word_comp_perm {m : ℕ} {H : Rows (ZMod 2) m} {σ : Equiv.Perm (Fin m)}
    (h : ∀ c, IsWord H c → IsWord H (c ∘ σ)) (c : Fin m → ZMod 2) : IsWord H (c ∘ σ.symm) ↔ IsWord H c := by
  have hpow : ∀ (k : ℕ) (c : Fin m → ZMod 2), IsWord H c → IsWord H (c ∘ (σ ^ k : Equiv.Perm (Fin m))) := by
    intro k
    induction k with
    | zero => intro c hc; simpa using hc
    | succ k ih =>
      intro c hc
      have := h _ (ih c hc)
      rw [Function.comp_assoc] at this
      rw [pow_succ]
      exact this
  constructor
  · intro hc
    have := h _ hc
    rw [Function.comp_assoc] at this
    simpa using this
  · intro hc
    have hinv : σ.symm = σ ^ (orderOf σ - 1) := by
      have hpos := orderOf_pos σ
      have h1 : σ ^ (orderOf σ - 1) * σ = 1 := by
        rw [← pow_succ, Nat.sub_add_cancel hpos, pow_orderOf_eq_one]
      exact (eq_inv_of_mul_eq_one_left h1).symm
    rw [hinv]
    exact hpow _ c hc

/-- the main step -/
theorem preserves_iff {σ : Equiv.Perm (Fin (s * n))} {π : Fin n → Equiv.Perm (Fin s)} {ρ : Equiv.Perm (Fin n)}
    (hσ : Splits σ π ρ) (bits : Fin s → ZMod 2 × ZMod 2) (hb : ∀ p, ∃ c, decodeAt bits c = p)
    (φ : Fin n → (ZMod 2 × ZMod 2 →+ ZMod 2 × ZMod 2))
    (hφ : ∀ q ss, φ q (bits ss) = bits (π q ss)) (circ : List Gate)
    (hrun : ∀ f (q : Fin n), runCircuit circ f (ρ q) = φ q (f q)) (M : Rows (ZMod 2) (n + n))
    (row : (Fin (n + n) → ZMod 2) → Fin (s * n) → ZMod 2) (H : Rows (ZMod 2) (n + n))
    (conv : (Fin (n + n) → ZMod 2) → (Fin (n + n) → ZMod 2)) (hH : H = M.map conv)
    (hrow : ∀ r ∈ M, ∀ ss q, row (conv r) (column ss q) = xPart r q * (bits ss).2 + zPart r q * (bits ss).1) :
    (∀ c, IsWord (H.map row) c → IsWord (H.map row) (c ∘ σ)) ↔
      ∀ p, (∀ r ∈ M, sform r (conjugateBy circ p) = 0) ↔ ∀ r ∈ M, sform r p = 0 := by
  have hw : ∀ c, IsWord (H.map row) c ↔ ∀ r ∈ M, sform r (decodeWord bits c) = 0 := by
    intro c
    unfold IsWord
    rw [hH, List.map_map]
    simp only [List.forall_mem_map, Function.comp_apply]
    exact forall_congr' fun r => forall_congr' fun hr => by rw [sform_decodeWord bits r (row (conv r)) (hrow r hr)]
  have hc := conjugateBy_decodeWord hσ bits φ hφ circ hrun
  constructor
  · intro h p
    obtain ⟨c, rfl⟩ := exists_decodeWord bits hb p
    rw [hc, ← hw, ← hw]
    exact word_comp_perm h c
  · intro h c hcw
    have := (h (decodeWord bits (c ∘ σ))).1
    rw [hc] at this
    rw [hw]
    refine this ?_
    rw [Function.comp_assoc, Equiv.self_comp_symm, Function.comp_id]
    exact (hw c).1 hcw

/-! ## The emitted local gates -/

/-- the Pauli operators that the sectors stand for -/
def bits (g : GateSet) (i : ℕ) : ZMod 2 × ZMod 2 :=
  (if g.numLocal = 0 ∨ (g.h ∧ ¬ g.s ∧ ¬ g.sqrtX) then [(0, 1), (1, 0)]
  else if g.s ∧ ¬ g.h ∧ ¬ g.sqrtX then [(1, 0), (1, 1)]
  else if g.sqrtX ∧ ¬ g.h ∧ ¬ g.s then [(0, 1), (1, 1)]
  else [(0, 1), (1, 0), (1, 1)]).getD i 0

/-- what the emitted gates do to one qubit whose columns move to the sectors `a`, `b`, `c` -/
def localMap (g : GateSet) (a b c : ℕ) (p : ZMod 2 × ZMod 2) : ZMod 2 × ZMod 2 :=
  if g.numLocal = 1 then
    if 1 ≤ a then (if g.s then Gate.S 0 else if g.h then Gate.H 0 else Gate.SQRT_X 0).local p else p
  else if 1 < g.numLocal then
    if a = 1 ∧ b = 0 ∧ c = 2 then (Gate.H 0).local p
    else if a = 0 ∧ b = 2 ∧ c = 1 then (Gate.S 0).local p
    else if a = 2 ∧ b = 1 ∧ c = 0 then (Gate.H_YZ 0).local p
    else if a = 2 ∧ b = 0 ∧ c = 1 then (Gate.C_ZYX 0).local p
    else if a = 1 ∧ b = 2 ∧ c = 0 then (Gate.C_XYZ 0).local p
    else p
  else p

theorem local_add (g : Gate) (p q : ZMod 2 × ZMod 2) : g.local (p + q) = g.local p + g.local q := by
  cases g <;> refine Prod.ext ?_ ?_ <;> simp [Gate.local] <;> ring

theorem local_form (g : Gate) (p q : ZMod 2 × ZMod 2) :
    (g.local p).1 * (g.local q).2 - (g.local p).2 * (g.local q).1 = p.1 * q.2 - p.2 * q.1 := by
  revert p q
  cases g <;> (simp only [Gate.local]; decide)

theorem localMap_cases (g : GateSet) (a b c : ℕ) :
    (∃ G : Gate, ∀ p, localMap g a b c p = G.local p) := by
  unfold localMap
  split_ifs
  all_goals first
    | exact ⟨_, fun _ => rfl⟩
    | exact ⟨Gate.SWAP 0 0, fun _ => rfl⟩

theorem bits_surj (g : GateSet) (p : ZMod 2 × ZMod 2) :
    ∃ c : Fin g.numSectors → ZMod 2, decodeAt (fun ss => bits g ss) c = p := by
  rcases g with ⟨s, h, x, w⟩
  cases w <;> cases s <;> cases h <;> cases x
  all_goals first
    | (change ∃ c : Fin 2 → ZMod 2, decodeAt _ c = p; revert p; decide)
    | (change ∃ c : Fin 3 → ZMod 2, decodeAt _ c = p; revert p; decide)

theorem bits_sectors (g : GateSet) (r : Fin (n + n) → ZMod 2) (ss : Fin g.numSectors) (q : Fin n) :
    ((g.sectors r).getD ss 0) q = xPart r q * (bits g ss).2 + zPart r q * (bits g ss).1 := by
  rcases g with ⟨s, h, x, w⟩
  cases w <;> cases s <;> cases h <;> cases x
  all_goals
    first
    | (change Fin 2 at ss; fin_cases ss <;> simp [GateSet.sectors, bits, GateSet.numLocal])
    | (change Fin 3 at ss; fin_cases ss <;> simp [GateSet.sectors, bits, GateSet.numLocal])

theorem instrumental_row (g : GateSet) (r : Fin (n + n) → ZMod 2) (ss : Fin g.numSectors) (q : Fin n)
    (h : (column ss q).val % n < n) :
    ((g.sectors r).getD ((column ss q).val / n) 0) ⟨(column ss q).val % n, h⟩ =
      xPart r q * (bits g ss).2 + zPart r q * (bits g ss).1 := by
  have e : (⟨(column ss q).val % n, h⟩ : Fin n) = q := Fin.ext (column_mod ss q)
  rw [e, column_div, bits_sectors]

theorem localMap_one {g : GateSet} (hg : g.numLocal = 1) (a b c : ℕ) : localMap g a b c = localMap g a 0 0 := by
  funext p
  simp only [localMap, if_pos hg]

theorem localMap_bits (g : GateSet) (π : Equiv.Perm (Fin g.numSectors)) (hπ : g.numLocal = 0 → π = 1)
    (a b c : ℕ) (ha : ∀ h, a = π ⟨0, h⟩) (hb : ∀ h, b = π ⟨1, h⟩) (hc : ∀ h, c = π ⟨2, h⟩) (ss : Fin g.numSectors) :
    localMap g a b c (bits g ss) = bits g (π ss) := by
  rcases g with ⟨s, h, x, w⟩
  cases w <;> cases s <;> cases h <;> cases x
  case false.false.false.false | true.false.false.false => rw [hπ rfl]; rfl
  all_goals
    first
    | (change Equiv.Perm (Fin 2) at π
       change Fin 2 at ss
       obtain rfl := ha (by decide)
       rw [localMap_one rfl]
       clear ha hb hc hπ
       revert ss π
       decide)
    | (change Equiv.Perm (Fin 3) at π
       change Fin 3 at ss
       obtain rfl := ha (by decide)
       obtain rfl := hb (by decide)
       obtain rfl := hc (by decide)
       clear ha hb hc hπ
       revert ss π
       decide)

theorem run_pauliCircuit (g : GateSet) (σ : ℕ → ℕ) (f : ℕ → ZMod 2 × ZMod 2) {q : ℕ} (hq : q < n) :
    runCircuit (pauliCircuit g n σ) f q = localMap g (σ q / n) (σ (q + n) / n) (σ (q + 2 * n) / n) (f q) := by
  have hn : 0 < n := by omega
  unfold pauliCircuit
  by_cases h1 : g.numLocal = 1
  · rw [if_pos h1]
    rw [run_local (fun q => if g.s then Gate.S q else if g.h then Gate.H q else Gate.SQRT_X q)
      (if g.s then Gate.S 0 else if g.h then Gate.H 0 else Gate.SQRT_X 0).local
      (by intro q f i; split_ifs <;> simp_all [Gate.act, Gate.local]) _ (List.nodup_range.filter _)]
    simp only [List.mem_filter, List.mem_range, hq, true_and, decide_eq_true_eq, localMap, if_pos h1]
    have : n ≤ σ q ↔ 1 ≤ σ q / n := by rw [Nat.le_div_iff_mul_le hn, one_mul]
    simp only [this]
  · rw [if_neg h1]
    by_cases h2 : 1 < g.numLocal
    · rw [if_pos h2]
      simp only [runCircuit_append]
      have hnd : ∀ a b c, ((List.range n).filter fun q => decide (σ q / n = a ∧ σ (q + n) / n = b ∧ σ (q + 2 * n) / n = c)).Nodup :=
        fun a b c => List.nodup_range.filter _
      rw [run_local Gate.C_XYZ (Gate.C_XYZ 0).local (fun q f i => rfl) _ (hnd _ _ _),
        run_local Gate.C_ZYX (Gate.C_ZYX 0).local (fun q f i => rfl) _ (hnd _ _ _),
        run_local Gate.H_YZ (Gate.H_YZ 0).local (fun q f i => rfl) _ (hnd _ _ _),
        run_local Gate.S (Gate.S 0).local (fun q f i => rfl) _ (hnd _ _ _),
        run_local Gate.H (Gate.H 0).local (fun q f i => rfl) _ (hnd _ _ _)]
      simp only [List.mem_filter, List.mem_range, hq, true_and, decide_eq_true_eq, localMap, if_neg h1, if_pos h2]
      generalize σ q / n = a
      generalize σ (q + n) / n = b
      generalize σ (q + 2 * n) / n = c
      split_ifs <;> first | rfl | omega
    · rw [if_neg h2]
      simp only [localMap, if_neg h1, if_neg h2]
      rfl

/-- what an emitted circuit does -/
theorem automorphismCircuit_spec {g : GateSet} {σ : Equiv.Perm (Fin (g.numSectors * n))}
    (hσ : σ ∈ Subgroup.closure {τ | τ ∈ columnPerms g g.numSectors n}) :
    ∃ (π : Fin n → Equiv.Perm (Fin g.numSectors)) (ρ : Equiv.Perm (Fin n)) (circ : List Gate)
      (G : Fin n → Gate), Splits σ π ρ ∧ automorphismCircuit g n (callPerm σ) = some circ ∧
      (∀ f (q : Fin n), runCircuit circ f (ρ q) = (G q).local (f q)) ∧
      (∀ q (ss : Fin g.numSectors), (G q).local (bits g ss) = bits g (π q ss)) ∧ (g.swap = false → ρ = 1) := by
  obtain ⟨π, ρ, hs, h0, h1⟩ := splits_of_mem_closure hσ
  have hpos : 0 < g.numSectors := by unfold GateSet.numSectors; split_ifs <;> omega
  have hmod : ∀ q : Fin n, callPerm σ q % n = ρ q := by
    intro q
    have := callPerm_mod hs ⟨0, hpos⟩ q
    simpa using this
  have hsome : (swapCircuit n (callPerm σ)).isSome = true := by
    rw [swapCircuit_isSome]
    intro i hi
    exact ⟨ρ.symm ⟨i, hi⟩, (ρ.symm ⟨i, hi⟩).isLt, by rw [hmod]; simp⟩
  obtain ⟨c, hc⟩ := Option.isSome_iff_exists.1 hsome
  choose G hG using fun q : Fin n =>
    localMap_cases g (callPerm σ q / n) (callPerm σ (q + n) / n) (callPerm σ (q + 2 * n) / n)
  refine ⟨π, ρ, pauliCircuit g n (callPerm σ) ++ c, G, hs, by unfold automorphismCircuit; rw [hc]; rfl, ?_, ?_, h1⟩
  · intro f q
    rw [runCircuit_append, ← hmod, (swapCircuit_spec hc _).1 q q.isLt, run_pauliCircuit g _ f q.isLt, hG]
  · intro q ss
    rw [← hG]
    refine localMap_bits g (π q) (fun h => h0 h q) _ _ _ (fun h => ?_) (fun h => ?_) (fun h => ?_) ss
    · have := callPerm_div hs ⟨0, h⟩ q
      simpa using this
    · have := callPerm_div hs ⟨1, h⟩ q
      rw [← this]
      simp [Nat.add_comm]
    · have := callPerm_div hs ⟨2, h⟩ q
      rw [← this]
      simp [Nat.add_comm]

/-- a local gate as a homomorphism -/
def localHom (G : Gate) : ZMod 2 × ZMod 2 →+ ZMod 2 × ZMod 2 :=
  AddMonoidHom.mk' G.local (local_add G)

theorem sform_conjugateBy {ρ : Equiv.Perm (Fin n)} {circ : List Gate} {G : Fin n → Gate}
    (hrun : ∀ f (q : Fin n), runCircuit circ f (ρ q) = (G q).local (f q)) (p p' : Fin (n + n) → ZMod 2) :
    sform (conjugateBy circ p) (conjugateBy circ p') = sform p p' := by
  have hat : ∀ (p : Fin (n + n) → ZMod 2) q, xPart (conjugateBy circ p) (ρ q) = ((G q).local (xPart p q, zPart p q)).1 ∧
      zPart (conjugateBy circ p) (ρ q) = ((G q).local (xPart p q, zPart p q)).2 := by
    intro p q
    have := conjugateBy_at circ p (ρ q)
    rw [hrun, dif_pos q.isLt] at this
    exact ⟨congrArg Prod.fst this, congrArg Prod.snd this⟩
  unfold sform
  rw [← Equiv.sum_comp ρ]
  refine Finset.sum_congr rfl fun q _ => ?_
  rw [(hat p q).1, (hat p q).2, (hat p' q).1, (hat p' q).2]
  exact local_form (G q) (xPart p q, zPart p q) (xPart p' q, zPart p' q)

theorem conjugateBy_surj {ρ : Equiv.Perm (Fin n)} {circ : List Gate} {G : Fin n → Gate}
    (hrun : ∀ f (q : Fin n), runCircuit circ f (ρ q) = (G q).local (f q)) :
    Function.Surjective (conjugateBy (n := n) circ) := by
  apply Finite.surjective_of_injective
  intro p p' h
  rw [← sub_eq_zero]
  refine sform_nondegenerate fun w => ?_
  have : ∀ v, sform w v = sform (conjugateBy circ w) (conjugateBy circ v) := fun v => (sform_conjugateBy hrun w v).symm
  have e : w = w := rfl
  rw [sub_eq_add_neg, sform_add_right, ← neg_one_smul (ZMod 2) p', this p, h, ← this p', sform_comm, sform_comm w, sform_smul_left]
  ring

theorem mem_rowSpan_sform (M : Rows (ZMod 2) (n + n)) (p : Fin (n + n) → ZMod 2) :
    p ∈ rowSpan M ↔ ∀ w, (∀ r ∈ M, sform r w = 0) → sform p w = 0 := by
  constructor
  · intro hp w hw
    exact sform_span_left hw hp
  · intro h
    have : conjLin (ZMod 2) n p ∈ rowSpan (M.map symplecticConjugate) := by
      rw [mem_rowSpan_iff]
      intro w hw
      show dot (symplecticConjugate p) w = 0
      rw [dot_symplecticConjugate]
      exact h w (mem_kernel_conj.1 hw)
    have hc : M.map symplecticConjugate = M.map (conjLin (ZMod 2) n).toLinearMap := rfl
    rw [hc, rowSpan_map] at this
    obtain ⟨q, hq, hqp⟩ := this
    have : q = p := (conjLin (ZMod 2) n).injective hqp
    rwa [← this]

theorem span_conjugateBy {ρ : Equiv.Perm (Fin n)} {circ : List Gate} {G : Fin n → Gate}
    (hrun : ∀ f (q : Fin n), runCircuit circ f (ρ q) = (G q).local (f q)) (M : Rows (ZMod 2) (n + n))
    (h : ∀ p, (∀ r ∈ M, sform r (conjugateBy circ p) = 0) ↔ ∀ r ∈ M, sform r p = 0) (p : Fin (n + n) → ZMod 2) :
    IsCombination M (conjugateBy circ p) ↔ IsCombination M p := by
  rw [isCombination_iff, isCombination_iff, mem_rowSpan_sform, mem_rowSpan_sform]
  constructor
  · intro hp w hw
    rw [← sform_conjugateBy hrun]
    exact hp _ ((h w).2 hw)
  · intro hp w hw
    obtain ⟨v, rfl⟩ := conjugateBy_surj hrun w
    rw [sform_conjugateBy hrun]
    exact hp _ ((h v).1 hw)

end QLDPC
