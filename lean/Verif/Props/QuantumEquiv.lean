import Verif.Props.Text
import Verif.Model.QuantumEquiv
import Verif.Spec.Text
import Verif.Spec.Symplectic
import Verif.Lemmas.CssDistance
import Verif.Lemmas.CssSubsystem
import Verif.Lemmas.Kernel
import Mathlib.Algebra.Field.ZMod

/-!
# C100: equivalence, canonical form, rank and weight of quantum codes
-/

namespace QLDPC.Props

open QLDPC QLDPC.Spec

variable {F : Type} [Field F] [DecidableEq F] {n : ℕ}

/-! ## Helper lemmas -/

/-- The reduced form of two blocks, with its pivots. -/
def blockPairs (d e : List (Fin n × (Fin n → F))) : List (Fin (n + n) × (Fin (n + n) → F)) :=
  d.map (fun q => (Fin.castAdd n q.1, Fin.append q.2 0)) ++ e.map (fun q => (Fin.natAdd n q.1, Fin.append 0 q.2))

theorem blockPairs_isRREF {d e : List (Fin n × (Fin n → F))} (hd : IsRREF d) (he : IsRREF e) : IsRREF (blockPairs d e) := by
  constructor
  · intro q hq
    rcases List.mem_append.1 hq with hq | hq <;> obtain ⟨u, hu, rfl⟩ := List.mem_map.1 hq
    · exact (Fin.append_left _ _ _).trans (hd.one u hu)
    · exact (Fin.append_right _ _ _).trans (he.one u hu)
  · intro q hq c hc
    rcases List.mem_append.1 hq with hq | hq <;> obtain ⟨u, hu, rfl⟩ := List.mem_map.1 hq
    · refine Fin.addCases (fun i hi => ?_) (fun i hi => ?_) c hc
      · exact (Fin.append_left _ _ _).trans (hd.left u hu i hi)
      · exact Fin.append_right _ _ _
    · refine Fin.addCases (fun i hi => ?_) (fun i hi => ?_) c hc
      · exact Fin.append_left _ _ _
      · exact (Fin.append_right _ _ _).trans (he.left u hu i (Nat.lt_of_add_lt_add_left (n := n) hi))
  · rw [blockPairs, List.pairwise_append]
    refine ⟨?_, ?_, ?_⟩
    · rw [List.pairwise_map]
      exact hd.pair.imp fun h => ⟨h.1, (Fin.append_left _ _ _).trans h.2⟩
    · rw [List.pairwise_map]
      exact he.pair.imp fun h => ⟨Nat.add_lt_add_left h.1 n, (Fin.append_right _ _ _).trans h.2⟩
    · intro a ha b hb
      obtain ⟨u, -, rfl⟩ := List.mem_map.1 ha
      obtain ⟨v, -, rfl⟩ := List.mem_map.1 hb
      exact ⟨Nat.lt_of_lt_of_le u.1.isLt (Nat.le_add_right n v.1), Fin.append_right _ _ _⟩

theorem blockPairs_snd (d e : List (Fin n × (Fin n → F))) :
    (blockPairs d e).map Prod.snd = blockDiag2 (d.map Prod.snd) (e.map Prod.snd) := by
  simp [blockPairs, blockDiag2, List.map_map, Function.comp_def]

theorem rowSpan_blockDiag2_congr {A A' B B' : Rows F n} (hA : rowSpan A = rowSpan A') (hB : rowSpan B = rowSpan B') :
    rowSpan (blockDiag2 A B) = rowSpan (blockDiag2 A' B') := by
  ext p; rw [mem_rowSpan_blockDiag2, mem_rowSpan_blockDiag2, hA, hB]

/-- Reducing two blocks on the diagonal reduces each block. -/
theorem reduce_blockDiag2 (A B : Rows F n) : dropZero (rowReduce (blockDiag2 A B)) =
    blockDiag2 (dropZero (rowReduce A)) (dropZero (rowReduce B)) := by
  rw [dropZero_rowReduce, dropZero_rowReduce, dropZero_rowReduce, ← blockPairs_snd]
  congr 1
  refine rref_unique (rrefPairs_isRREF _) (blockPairs_isRREF (rrefPairs_isRREF A) (rrefPairs_isRREF B)) ?_
  rw [rowSpan_rrefPairs, blockPairs_snd]
  exact rowSpan_blockDiag2_congr (rowSpan_rrefPairs A).symm (rowSpan_rrefPairs B).symm

theorem canonicalized_matrix_eq (c : QuantumCode F n) : c.canonicalized.matrix = dropZero (rowReduce c.matrix) := by
  cases c with
  | qudit M s => rfl
  | css hx hz s => exact (reduce_blockDiag2 hx hz).symm

theorem reduce_eq_iff (A B : Rows F n) : dropZero (rowReduce A) = dropZero (rowReduce B) ↔ rowSpan A = rowSpan B := by
  constructor
  · intro h; rw [← rowSpan_dropZero_rowReduce A, h, rowSpan_dropZero_rowReduce]
  · intro h; rw [dropZero_rowReduce, dropZero_rowReduce, rrefPairs_eq_of_rowSpan_eq h]

theorem rowSpan_blockDiag2_inj {A A' B B' : Rows F n} (h : rowSpan (blockDiag2 A B) = rowSpan (blockDiag2 A' B')) :
    rowSpan A = rowSpan A' ∧ rowSpan B = rowSpan B' := by
  have key := fun p => (mem_rowSpan_blockDiag2 A B p).symm.trans ((by rw [h] : p ∈ rowSpan (blockDiag2 A B) ↔ _).trans
    (mem_rowSpan_blockDiag2 A' B' p))
  constructor
  · ext v
    have := key (Fin.append v 0)
    rw [xPart_append, zPart_append] at this
    simpa [Submodule.zero_mem] using this
  · ext v
    have := key (Fin.append 0 v)
    rw [xPart_append, zPart_append] at this
    simpa [Submodule.zero_mem] using this

/-! ## Theorems -/

/-- **C100**: `QuditCode.equiv` and `CSSCode.equiv` both decide whether the two codes have the same group of parity checks
(the span of the checks), whichever of the two codes are CSS codes and whether or not they are marked as subsystem codes. -/
theorem C100_equiv (a b : QuantumCode F n) :
    (QuantumCode.equiv a b = true ↔ Submodule.span F {r | r ∈ a.matrix} = Submodule.span F {r | r ∈ b.matrix}) ∧
    QuantumCode.equivCss a b = QuantumCode.equiv a b := by
  have main : ∀ a b : QuantumCode F n, QuantumCode.equiv a b = true ↔ rowSpan a.matrix = rowSpan b.matrix := by
    intro a b
    rw [QuantumCode.equiv, decide_eq_true_iff, canonicalized_matrix_eq, canonicalized_matrix_eq, reduce_eq_iff]
  refine ⟨main a b, ?_⟩
  cases a with
  | qudit M s => cases b <;> rfl
  | css hx hz s =>
    cases b with
    | qudit M s => rfl
    | css hx' hz' s' =>
      rw [Bool.eq_iff_iff, main]
      simp only [QuantumCode.equivCss, CCode.equiv, Bool.and_eq_true, decide_eq_true_iff, CCode.canonicalized, CCode.ofMatrix,
        reduce_eq_iff]
      exact ⟨fun h => rowSpan_blockDiag2_congr h.1 h.2, rowSpan_blockDiag2_inj⟩

/-- **C100**: two codes are equivalent exactly if the same Pauli strings commute with all their checks. -/
theorem C100_logical (a b : QuantumCode F n) : QuantumCode.equiv a b = true ↔
    ∀ p : Fin (n + n) → F, (∀ r ∈ a.matrix, sform r p = 0) ↔ (∀ r ∈ b.matrix, sform r p = 0) := by
  have conj : ∀ (M : Rows F (n + n)) (p : Fin (n + n) → F), (∀ r ∈ M, sform r p = 0) ↔
      Fin.append (zPart p) (-xPart p) ∈ kernel M := by
    intro M p
    refine forall_congr' fun r => forall_congr' fun _ => ?_
    rw [show sform r p = dot r (Fin.append (zPart p) (-xPart p)) from ?_]
    rw [sform, dot, Fin.sum_univ_add, ← Finset.sum_add_distrib]
    refine Finset.sum_congr rfl fun i _ => ?_
    rw [Fin.append_left, Fin.append_right, Pi.neg_apply, mul_neg, ← sub_eq_add_neg]; rfl
  rw [(C100_equiv a b).1]
  change rowSpan a.matrix = rowSpan b.matrix ↔ _
  rw [rowSpan_eq_iff_kernel_eq]
  constructor
  · intro h p; rw [conj, conj, h]
  · intro h
    ext w
    have := h (Fin.append (-(zPart w)) (xPart w))
    rw [conj, conj, xPart_append, zPart_append, neg_neg] at this
    have hw : Fin.append (xPart w) (zPart w) = w := by
      funext c
      refine Fin.addCases (fun i => ?_) (fun i => ?_) c
      · rw [Fin.append_left]; rfl
      · rw [Fin.append_right]; rfl
    rwa [hw] at this

/-- **C100**: the canonical form is a code of the same kind with the same mark; its checks span the same group, are linearly
independent, and do not change if the canonical form is taken again. -/
theorem C100_canonicalized (c : QuantumCode F n) :
    c.canonicalized.subsystem = c.subsystem ∧
    ((∃ hx hz s, c = .css hx hz s) ↔ ∃ hx hz s, c.canonicalized = .css hx hz s) ∧
    Submodule.span F {r | r ∈ c.canonicalized.matrix} = Submodule.span F {r | r ∈ c.matrix} ∧
    LinearIndependent F (fun i : Fin c.canonicalized.matrix.length => c.canonicalized.matrix[i]) ∧
    c.canonicalized.canonicalized = c.canonicalized := by
  refine ⟨by cases c <;> rfl, ?_, ?_, ?_, ?_⟩
  · cases c <;> simp [QuantumCode.canonicalized]
  · rw [canonicalized_matrix_eq]; exact rowSpan_dropZero_rowReduce _
  · have key : ∀ (d : List (Fin (n + n) × (Fin (n + n) → F))) (M : Rows F (n + n)), IsRREF d → M = d.map Prod.snd →
        LinearIndependent F (fun i : Fin M.length => M[i]) := by
      rintro d M hd rfl
      have := (linearIndependent_of_isRREF hd).comp (Fin.cast (List.length_map (as := d) Prod.snd)) (Fin.cast_injective _)
      convert this using 1
      funext i
      simp
    exact key _ _ (rrefPairs_isRREF c.matrix) (by rw [canonicalized_matrix_eq, dropZero_rowReduce])
  · have idem : ∀ {m : ℕ} (M : Rows F m), dropZero (rowReduce (dropZero (rowReduce M))) = dropZero (rowReduce M) :=
      fun M => (reduce_eq_iff _ _).2 (rowSpan_dropZero_rowReduce M)
    cases c <;> simp [QuantumCode.canonicalized, CCode.canonicalized, CCode.ofMatrix, idem]

/-- **C100**: `rank` is the number of independent checks, for either kind of code; it is the number of checks of the canonical
form, at most the number of checks, and equivalent codes have the same rank. -/
theorem C100_rank (c : QuantumCode F n) :
    c.rank = Module.finrank F (Submodule.span F {r | r ∈ c.matrix}) ∧ c.rank = c.canonicalized.numChecks ∧
    c.rank ≤ c.numChecks ∧ c.numChecks = c.matrix.length ∧
    ∀ b : QuantumCode F n, QuantumCode.equiv c b = true → b.rank = c.rank := by
  have hr : ∀ c : QuantumCode F n, c.rank = c.canonicalized.matrix.length := by
    intro c
    cases c with
    | qudit M s => rfl
    | css hx hz s => simp [QuantumCode.rank, CCode.rank, CCode.ofMatrix, QuantumCode.canonicalized, QuantumCode.matrix, cssMatrix, blockDiag2]
  have hn : ∀ c : QuantumCode F n, c.numChecks = c.matrix.length := by
    intro c; cases c <;> simp [QuantumCode.numChecks, QuantumCode.matrix, cssMatrix, blockDiag2]
  have hf : ∀ c : QuantumCode F n, c.rank = Module.finrank F (rowSpan c.matrix) := by
    intro c; rw [hr, canonicalized_matrix_eq, length_dropZero_rowReduce, finrank_rowSpan]
  refine ⟨hf c, by rw [hr, hn], ?_, hn c, ?_⟩
  · rw [hf, hn]
    have := finrank_span_finset_le_card (R := F) c.matrix.toFinset
    have hs : rowSpan c.matrix = Submodule.span F (c.matrix.toFinset : Set (Fin (n + n) → F)) := by
      rw [List.coe_toFinset]; rfl
    rw [hs]
    exact this.trans (List.toFinset_card_le _)
  · intro b hb
    have := (C100_equiv c b).1.1 hb
    rw [hf, hf]
    change rowSpan c.matrix = rowSpan b.matrix at this
    rw [this]

theorem rowWeight_eq {fi : FieldInts F} (ok : FieldInts.Ok fi) (r : Fin (n + n) → F) : QuantumCode.rowWeight fi r = sweight r := by
  have hz : ∀ x : F, (fi.toInt x).toNat = 0 ↔ x = 0 := by
    intro x
    constructor
    · intro h
      have h0 : fi.toInt x = 0 := by have := ok.nonneg x; omega
      have h1 := ok.ofInt_toInt x
      rw [h0, ← ok.zero, ok.ofInt_toInt] at h1
      exact (Option.some.inj h1).symm
    · rintro rfl; rw [ok.zero]; rfl
  unfold QuantumCode.rowWeight sweight
  rw [← List.toFinset_card_of_nodup ((List.nodup_finRange n).filter _)]
  congr 1
  ext i
  simp only [List.mem_toFinset, List.mem_filter, List.mem_finRange, true_and, decide_eq_true_eq, Finset.mem_filter,
    Finset.mem_univ, ne_eq, Nat.or_eq_zero_iff, hz, xPart, zPart, not_and_or]
  simp

/-- **C100**: `get_weight` is the largest number of qudits that a check acts on: every check has at most this weight and some
check has it.  It raises exactly if there are no checks. -/
theorem C100_weight {fi : FieldInts F} (ok : FieldInts.Ok fi) (c : QuantumCode F n) :
    (∀ w, c.weight fi = some w ↔ (∃ r ∈ c.matrix, sweight r = w) ∧ ∀ r ∈ c.matrix, sweight r ≤ w) ∧
    (c.weight fi = none ↔ c.matrix = []) := by
  have h : QuantumCode.rowWeight (n := n) fi = sweight := funext (rowWeight_eq ok)
  constructor
  · intro w
    rw [QuantumCode.weight, h, List.max?_eq_some_iff]
    simp
  · rw [QuantumCode.weight, List.max?_eq_none_iff, List.map_eq_nil_iff]

/-- **C100**: for CSS codes the weight is the largest number of nonzero entries of a row of the two matrices. -/
theorem C100_weight_css {fi : FieldInts F} (ok : FieldInts.Ok fi) (hx hz : Rows F n) (s : Bool) (w : ℕ) :
    (QuantumCode.css hx hz s).weight fi = some w ↔
      (∃ r ∈ hx ++ hz, (Finset.univ.filter fun i => r i ≠ 0).card = w) ∧
        ∀ r ∈ hx ++ hz, (Finset.univ.filter fun i => r i ≠ 0).card ≤ w := by
  rw [(C100_weight ok _).1 w]
  have h1 : ∀ r : Fin n → F, sweight (Fin.append r 0) = (Finset.univ.filter fun i => r i ≠ 0).card := by
    intro r; simp [sweight, xPart_append, zPart_append]
  have h2 : ∀ r : Fin n → F, sweight (Fin.append 0 r) = (Finset.univ.filter fun i => r i ≠ 0).card := by
    intro r; simp [sweight, xPart_append, zPart_append]
  simp only [QuantumCode.matrix, cssMatrix, blockDiag2, List.mem_append, List.mem_map]
  constructor
  · rintro ⟨⟨r, hr, hw⟩, hall⟩
    refine ⟨?_, ?_⟩
    · rcases hr with ⟨u, hu, rfl⟩ | ⟨u, hu, rfl⟩
      · exact ⟨u, .inl hu, by rw [← h1]; exact hw⟩
      · exact ⟨u, .inr hu, by rw [← h2]; exact hw⟩
    · rintro u (hu | hu)
      · rw [← h1]; exact hall _ (.inl ⟨u, hu, rfl⟩)
      · rw [← h2]; exact hall _ (.inr ⟨u, hu, rfl⟩)
  · rintro ⟨⟨u, hu, hw⟩, hall⟩
    refine ⟨?_, ?_⟩
    · rcases hu with hu | hu
      · exact ⟨_, .inl ⟨u, hu, rfl⟩, by rw [h1]; exact hw⟩
      · exact ⟨_, .inr ⟨u, hu, rfl⟩, by rw [h2]; exact hw⟩
    · rintro r (⟨u, hu, rfl⟩ | ⟨u, hu, rfl⟩)
      · rw [h1]; exact hall _ (.inl hu)
      · rw [h2]; exact hall _ (.inr hu)

/-- **C100**: `num_qubits` is the number of qudits over the field with two elements and raises over every other field. -/
theorem C100_num_qubits (fi : FieldInts F) (c : QuantumCode F n) :
    (fi.order = 2 → c.numQubits fi = .ok n) ∧ (fi.order ≠ 2 → ∃ e, c.numQubits fi = .error e) :=
  ⟨fun h => by simp [QuantumCode.numQubits, h], fun h => ⟨_, by simp [QuantumCode.numQubits, h]; rfl⟩⟩

/-! ## Concrete cases -/

private def qx : Rows (ZMod 2) 3 := [![1, 1, 0], ![0, 1, 1], ![1, 0, 1]]
private def qx' : Rows (ZMod 2) 3 := [![1, 0, 1], ![1, 1, 0]]
private def qz : Rows (ZMod 2) 3 := [![1, 1, 1]]

/-- Equivalent codes with different numbers of checks; one CSS, the other not. -/
example : QuantumCode.equivCss (.css qx qz false) (.css qx' qz true) = true ∧
    QuantumCode.equiv (.css qx qz false) (.qudit (cssMatrix qx' qz) false) = true ∧
    QuantumCode.equiv (.css qx qz false) (.css qz qx false) = false ∧
    (QuantumCode.css qx qz false).rank = 3 ∧ (QuantumCode.css qx qz false).numChecks = 4 := by
  decide +kernel

private def fi2 : FieldInts (ZMod 2) where
  order := 2
  toInt x := x.val
  ofInt z := if z = 0 then some 0 else if z = 1 then some 1 else none

example : FieldInts.Ok fi2 ∧ (QuantumCode.css qx qz false).weight fi2 = some 3 ∧
    (QuantumCode.qudit [![1, 0, 0, 1, 1, 0]] false : QuantumCode (ZMod 2) 3).weight fi2 = some 2 ∧
    (QuantumCode.qudit [] false : QuantumCode (ZMod 2) 3).weight fi2 = none := by
  refine ⟨⟨by decide, ?_, by decide, by decide, by decide, by decide⟩, by decide +kernel, by decide +kernel, by decide +kernel⟩
  intro z x h
  unfold fi2 at h ⊢
  dsimp only at h ⊢
  split_ifs at h with h0 h1
  · cases h; rw [h0]; rfl
  · cases h; rw [h1]; rfl

#print axioms C100_equiv
#print axioms C100_logical
#print axioms C100_canonicalized
#print axioms C100_rank
#print axioms C100_weight
#print axioms C100_weight_css
#print axioms C100_num_qubits

/-! ### Instances of the theorems: concrete cases meet the hypotheses -/

example := C100_weight_css (primeInts_ok 3 (by decide)) [![1, 2]] [![1, 1]] false 2

example := C100_weight (primeInts_ok 2 (by decide)) (.css [![1, 1]] [![1, 1]] false)

end QLDPC.Props
