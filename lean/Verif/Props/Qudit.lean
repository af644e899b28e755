import Verif.Model.Qudit
import Verif.Lemmas.LogicalBasis
import Mathlib.Algebra.Field.ZMod
import Mathlib.Algebra.CharP.Two

/-!
# Properties C20, C21, C23, C24, C70: qudit codes
-/

namespace QLDPC.Props

open QLDPC QLDPC.Spec

set_option linter.unusedSectionVars false

variable {F : Type} [Field F] [DecidableEq F] {n : ℕ}

/-! ## C20 -/

theorem stabLogicals_spec (M : Rows F (n + n)) (hM : AllCommute M) :
    ∃ LX LZ, stabLogicals M = some (LX, LZ) ∧ IsLogicalBasis M LX LZ ∧
      LX.length = stabDimension M ∧ rank M + LX.length = n := by
  obtain ⟨d, hd, hstd, hk, hrows⟩ := stdStabilizer_spec M hM
  set k := stabDimension M with hkdef
  set B := argsort d.locs with hB
  have hpB : B.Perm (List.finRange n) := argsort_perm d.locs
  let X := fun t => Fin.append (takeAt B (stdU d k t)) (takeAt B (stdW d k t))
  let Z := fun t => Fin.append (0 : Fin n → F) (takeAt B (stdV d k t))
  have hX : ∀ t, xPart (X t) = takeAt B (stdU d k t) ∧ zPart (X t) = takeAt B (stdW d k t) :=
    fun t => ⟨xPart_append _ _, zPart_append _ _⟩
  have hZ : ∀ t, xPart (Z t) = 0 ∧ zPart (Z t) = takeAt B (stdV d k t) :=
    fun t => ⟨xPart_append _ _, zPart_append _ _⟩
  have heq : stabLogicals M = some ((List.range k).map X, (List.range k).map Z) := by
    unfold stabLogicals
    rw [hd, Option.map_some]
    congr 1
    refine Prod.ext ?_ ?_
    · simp only
      rw [List.map_map]
      apply List.map_congr_left
      intro t _
      simp only [Function.comp_apply, ← hkdef]
      rw [logicalPair_eq hstd t]
    · simp only
      rw [List.map_map]
      apply List.map_congr_left
      intro t _
      simp only [Function.comp_apply, ← hkdef]
      rw [logicalPair_eq hstd t]
  -- commutation with the reduced rows
  have hcomm : ∀ r ∈ (rrefPairs M).map Prod.snd, ∀ t, sform r (X t) = 0 ∧ sform r (Z t) = 0 := by
    intro r hr t
    rw [sform_eq, sform_eq, (hX t).1, (hX t).2, (hZ t).1, (hZ t).2, dot_zero_right, sub_zero]
    simp only [hB]
    rw [dot_comp_argsort hstd.inj, dot_comp_argsort hstd.inj, dot_comp_argsort hstd.inj]
    rcases hrows r hr with hx | ⟨hx0, hz⟩
    · have h1 := hstd.checkX_W t _ hx
      have h2 := hstd.checkX_V t _ hx
      simp only at h1 h2
      rw [h1, h2, sub_self]; exact ⟨rfl, rfl⟩
    · rw [hx0]
      have h0 : (0 : Fin n → F) ∘ d.locs = 0 := rfl
      rw [h0, dot_zero_left, dot_zero_left, zero_sub, neg_eq_zero]
      refine ⟨?_, rfl⟩
      apply dot_eq_zero_of_mem_rowSpan hz
      intro z hz'
      obtain ⟨q, hq, rfl⟩ := List.mem_map.1 hz'
      exact hstd.checkZ_U t q hq
  have hspan : ∀ r ∈ M, r ∈ rowSpan ((rrefPairs M).map Prod.snd) := by
    intro r hr; rw [rowSpan_rrefPairs]; exact subset_rowSpan hr
  refine ⟨_, _, heq, ?_, by simp, by rw [List.length_map, List.length_range]; omega⟩
  constructor
  · simp
  · intro r hr l hl
    obtain ⟨t, _, rfl⟩ := List.mem_map.1 hl
    exact sform_span_left (fun r hr => (hcomm r hr t).1) (hspan r hr)
  · intro r hr l hl
    obtain ⟨t, _, rfl⟩ := List.mem_map.1 hl
    exact sform_span_left (fun r hr => (hcomm r hr t).2) (hspan r hr)
  · intro i j hi hj
    simp only [List.getElem_map, List.getElem_range]
    rw [sform_eq, (hX i).1, (hX i).2, (hZ j).1, (hZ j).2, dot_zero_right, sub_zero,
      dot_takeAt hpB, hstd.U_V (by simpa using hj)]
  · intro p hp q hq
    obtain ⟨s, hs, rfl⟩ := List.mem_map.1 hp
    obtain ⟨t, ht, rfl⟩ := List.mem_map.1 hq
    rw [sform_eq, (hX s).1, (hX s).2, (hX t).1, (hX t).2, dot_takeAt hpB, dot_takeAt hpB,
      dot_comm (stdW d k s), hstd.U_W (List.mem_range.1 ht), hstd.U_W (List.mem_range.1 hs)]
    by_cases hst : s = t
    · subst hst; simp
    · rw [if_neg hst, if_neg (Ne.symm hst), sub_self]
  · intro p hp q hq
    obtain ⟨s, hs, rfl⟩ := List.mem_map.1 hp
    obtain ⟨t, ht, rfl⟩ := List.mem_map.1 hq
    rw [sform_eq, (hZ s).1, (hZ t).1, dot_zero_left, dot_zero_right, sub_zero]

/-- Rank in terms of the dimension of the solution space. -/
theorem codeDim_eq_of_rank {m k : ℕ} (M : Rows F m) (h : rank M + k = m) : codeDim M = k := by
  rw [codeDim_eq]
  have := finrank_kernel M; omega

/-- **C20**: `get_logical_ops` of any stabilizer code returns `k` pairs of logical operators with the
canonical relations, where `2 n - rank = n + k`. -/
theorem C20_logicals (M : Rows F (n + n)) (hM : AllCommute M) :
    ∃ LX LZ, (QCode.ofMatrix M (some false)).getLogicalOps = some (LX ++ LZ) ∧
      IsLogicalBasis M LX LZ ∧ codeDim M = n + LX.length ∧
      (QCode.ofMatrix M (some false)).dimension = LX.length := by
  obtain ⟨LX, LZ, h1, h2, h3, h4⟩ := stabLogicals_spec M hM
  refine ⟨LX, LZ, ?_, h2, codeDim_eq_of_rank M (by omega), ?_⟩
  · simp [QCode.getLogicalOps, QCode.ofMatrix, h1]
  · simp [QCode.dimension, QCode.ofMatrix, h3]

/-- The default flag makes `QuditCode(matrix)` a stabilizer code when all checks commute. -/
theorem C20_default (M : Rows F (n + n)) (hM : AllCommute M) :
    QCode.ofMatrix M = QCode.ofMatrix M (some false) := by
  have : isSubsystem M = false := by
    unfold isSubsystem
    rw [List.any_eq_false]
    intro r hr
    obtain ⟨p, hp, rfl⟩ := List.mem_map.1 hr
    rw [Bool.not_eq_true, List.any_eq_false]
    intro q hq
    rw [decide_eq_true_eq, not_not, dot_symplecticConjugate]
    exact hM p hp q hq
  simp [QCode.ofMatrix, this]

/-- **C20**: no nontrivial product of the logical operators is a product of checks, and every operator
that commutes with all checks is a product of checks and logical operators. -/
theorem C20_nontrivial_complete (M : Rows F (n + n)) (hM : AllCommute M) :
    ∃ LX LZ, (QCode.ofMatrix M (some false)).getLogicalOps = some (LX ++ LZ) ∧
      LX.length = LZ.length ∧
      (∀ a b : ℕ → F, IsCombination M (logicalProduct LX LZ a b) →
        ∀ j < LX.length, a j = 0 ∧ b j = 0) ∧
      (∀ p, (∀ r ∈ M, sform r p = 0) → IsCombination (M ++ LX ++ LZ) p) := by
  obtain ⟨LX, LZ, h1, h2, h3, h4⟩ := stabLogicals_spec M hM
  refine ⟨LX, LZ, by simp [QCode.getLogicalOps, QCode.ofMatrix, h1], h2.len, ?_, ?_⟩
  · intro a b hc
    exact h2.independent a b ((isCombination_iff M _).1 hc)
  · intro p hp
    exact (isCombination_iff _ _).2 (h2.complete hM h4 hp)

/-- Checks of the five-qubit code. -/
def fiveQubit : Rows (ZMod 2) (5 + 5) :=
  [![1, 0, 0, 1, 0, 0, 1, 1, 0, 0], ![0, 1, 0, 0, 1, 0, 0, 1, 1, 0],
    ![1, 0, 1, 0, 0, 0, 0, 0, 1, 1], ![0, 1, 0, 1, 0, 1, 0, 0, 0, 1]]

example : AllCommute fiveQubit := by
  unfold AllCommute; decide +kernel

example : stabLogicals fiveQubit =
    some ([![0, 0, 0, 0, 1, 0, 1, 1, 0, 1]], [![0, 0, 0, 0, 0, 1, 1, 1, 1, 1]]) := by decide +kernel

/-! ## C21 -/

theorem eye_getElem {k i j : ℕ} (hi : i < k) (hj : j < k) :
    (((List.range k).map fun t => (eyeRow k t : List F))[i]'(by simpa using hi))[j]'(by
      simp [eyeRow, hj]) = if i = j then 1 else 0 := by
  simp [eyeRow, eq_comm]

/-- **C21**, what validation ensures: accepted operators commute with all checks, X operator `i` and Z
operator `j` are paired by `δ_ij`, there are as many as the code has logical qudits, and they become
the operators of the code.  Missing from the full claim: that X operators commute with each other and
Z operators with each other (`C21_disagreement`). -/
theorem C21_accepted_partial (c c' : QCode F n) (ops : Rows F (n + n))
    (h : c.setLogicalOps ops = .ok c') :
    ∃ LX LZ, ops = LX ++ LZ ∧ LX.length = c.dimension ∧ LZ.length = c.dimension ∧
      (∀ r ∈ c.matrix, ∀ l ∈ ops, sform r l = 0) ∧
      (∀ (i j : ℕ) (hi : i < LX.length) (hj : j < LZ.length),
        sform LX[i] LZ[j] = if i = j then 1 else 0) ∧
      c'.getLogicalOps = some ops ∧ c'.matrix = c.matrix ∧ c'.dimension = c.dimension := by
  unfold QCode.setLogicalOps at h
  simp only [if_true] at h
  split_ifs at h with h1 h2 h3
  rw [ne_eq, not_not] at h3
  cases h
  set k := ops.length / 2 with hk
  refine ⟨ops.take k, ops.drop k, (List.take_append_drop k ops).symm, ?_, ?_, ?_, ?_, rfl, rfl, ?_⟩
  · rw [List.length_take, ← h3]; omega
  · rw [h1.1, h3]
  · intro r hr l hl
    rw [Bool.not_eq_true, List.any_eq_false] at h2
    have := h2 _ (List.mem_map.2 ⟨r, hr, rfl⟩)
    rw [Bool.not_eq_true, List.any_eq_false] at this
    have := this l hl
    rw [decide_eq_true_eq, not_not, dot_symplecticConjugate] at this
    exact this
  · intro i j hi hj
    have hi' : i < k := by rw [List.length_take] at hi; omega
    have hj' : j < k := by rw [h1.1] at hj; exact hj
    have e := h1.2
    rw [← eye_getElem hi' hj']
    simp only [← e]
    simp [dot_symplecticConjugate]
  · simp only [QCode.dimension]; exact h3

/-- **C21**, converse: canonical logical operators in the right number are accepted. -/
theorem C21_accepts (c : QCode F n) (LX LZ : Rows F (n + n))
    (h : IsLogicalBasis c.matrix LX LZ) (hk : LX.length = c.dimension) :
    ∃ c', c.setLogicalOps (LX ++ LZ) = .ok c' := by
  have hlen : (LX ++ LZ).length / 2 = LX.length := by
    rw [List.length_append, ← h.len]; omega
  unfold QCode.setLogicalOps
  simp only [if_true]
  rw [if_neg, if_neg, if_neg]
  · exact ⟨_, rfl⟩
  · rw [not_not, hlen, hk]
  · rw [Bool.not_eq_true, List.any_eq_false]
    intro r hr
    obtain ⟨p, hp, rfl⟩ := List.mem_map.1 hr
    rw [Bool.not_eq_true, List.any_eq_false]
    intro l hl
    rw [decide_eq_true_eq, not_not, dot_symplecticConjugate]
    rcases List.mem_append.1 hl with hl | hl
    · exact h.commX p hp l hl
    · exact h.commZ p hp l hl
  · rw [not_not, hlen]
    have e1 : (LX ++ LZ).take LX.length = LX := by simp
    have e2 : (LX ++ LZ).drop LX.length = LZ := by simp
    rw [e1, e2]
    refine ⟨h.len.symm, ?_⟩
    apply List.ext_getElem
    · simp
    · intro i hi hi'
      have hiX : i < LX.length := by simpa using hi
      rw [List.getElem_map]
      apply List.ext_getElem
      · simp [eyeRow, h.len]
      · intro j hj hj'
        have hjZ : j < LZ.length := by simpa using hj
        rw [eye_getElem hiX (by rw [h.len]; exact hjZ), List.getElem_map, dot_symplecticConjugate,
          h.pair i j hiX hjZ]

/-- **C21** fails: on two qubits without checks, `X_1`, `X_2 Z_1`, `Z_1`, `Z_2` are accepted although
the two logical X operators anticommute. -/
theorem C21_disagreement : ∃ (c c' : QCode (ZMod 2) 2) (ops : Rows (ZMod 2) (2 + 2)),
    AllCommute c.matrix ∧ c.setLogicalOps ops = .ok c' ∧
      ∃ i j, ∃ (hi : i < c.dimension) (hj : j < c.dimension) (hl : c.dimension ≤ ops.length),
        sform (ops[i]'(by omega)) (ops[j]'(by omega)) ≠ 0 := by
  refine ⟨QCode.ofMatrix [] (some false), _,
    [![1, 0, 0, 0], ![0, 1, 1, 0], ![0, 0, 1, 0], ![0, 0, 0, 1]], ?_, rfl, 0, 1, ?_⟩
  · intro p hp; cases hp
  · decide +kernel

example : ((QCode.ofMatrix fiveQubit).setLogicalOps
    [![1, 1, 1, 1, 1, 0, 0, 0, 0, 0], ![0, 0, 0, 0, 0, 1, 1, 1, 1, 1]]).isOk = true := by
  decide +kernel

/-! ## C23 -/

/-- **C23**: `get_stabilizer_ops` of a subsystem code spans exactly the products of gauge generators
that commute with all gauge generators. -/
theorem C23_stabilizers (M : Rows F (n + n)) (p : Fin (n + n) → F) :
    IsCombination ((QCode.ofMatrix M (some true)).stabilizerOps) p ↔
      IsCombination M p ∧ ∀ r ∈ M, sform r p = 0 := by
  have hops : (QCode.ofMatrix M (some true)).stabilizerOps = subsystemStabilizers M := rfl
  rw [hops, isCombination_iff, isCombination_iff]
  unfold subsystemStabilizers
  simp only
  rw [rowSpan_nullSpace, dropZero_rowReduce, mem_kernel_conj]
  set G := (rrefPairs M).map Prod.snd with hG
  have hGM : rowSpan G = rowSpan M := rowSpan_rrefPairs M
  have hL : rowSpan (nullSpace (G.map symplecticConjugate)) = kernel (G.map symplecticConjugate) :=
    rowSpan_nullSpace _
  constructor
  · intro h
    have hg : ∀ r ∈ G, sform r p = 0 := fun r hr => h r (List.mem_append_left _ hr)
    have hl : ∀ r ∈ nullSpace (G.map symplecticConjugate), sform r p = 0 :=
      fun r hr => h r (List.mem_append_right _ hr)
    constructor
    · -- conj p is orthogonal to the kernel, hence in the span of conj G
      have hmem : symplecticConjugate p ∈ rowSpan (G.map symplecticConjugate) := by
        rw [mem_rowSpan_iff]
        intro x hx
        rw [← hL] at hx
        rw [dot_symplecticConjugate, sform_comm, sform_span_left hl hx, neg_zero]
      have hc : G.map symplecticConjugate = G.map (conjLin F n).toLinearMap := rfl
      rw [hc, rowSpan_map] at hmem
      obtain ⟨q, hq, hqp⟩ := hmem
      have : q = p := (conjLin F n).injective hqp
      rw [← this, ← hGM]; exact hq
    · intro r hr
      exact sform_span_left hg (by rw [hGM]; exact subset_rowSpan hr)
  · rintro ⟨hp, hc⟩ r hr
    rcases List.mem_append.1 hr with hr | hr
    · exact sform_span_left hc (by rw [← hGM]; exact subset_rowSpan hr)
    · have hk : r ∈ kernel (G.map symplecticConjugate) := by rw [← hL]; exact subset_rowSpan hr
      rw [mem_kernel_conj] at hk
      rw [sform_comm, sform_span_left hk (by rw [hGM]; exact hp), neg_zero]

/-- **C23**: the returned operators are independent, commute with each other, and for a code whose
checks all commute they generate the same group as the checks. -/
theorem C23_independent (M : Rows F (n + n)) :
    LinearIndependent F (fun i : Fin (subsystemStabilizers M).length => (subsystemStabilizers M).get i) ∧
      AllCommute (subsystemStabilizers M) ∧
      (AllCommute M → ∀ p, IsCombination (subsystemStabilizers M) p ↔ IsCombination M p) := by
  refine ⟨linearIndependent_nullSpace _, ?_, ?_⟩
  · intro p hp q hq
    have h1 := (C23_stabilizers M p).1 ((isCombination_iff _ _).2 (subset_rowSpan hp))
    have h2 := (C23_stabilizers M q).1 ((isCombination_iff _ _).2 (subset_rowSpan hq))
    exact sform_span_left h2.2 ((isCombination_iff _ _).1 h1.1)
  · intro hM p
    have := C23_stabilizers M p
    rw [show (QCode.ofMatrix M (some true)).stabilizerOps = subsystemStabilizers M from rfl] at this
    rw [this]
    refine ⟨fun h => h.1, fun h => ⟨h, fun r hr => ?_⟩⟩
    exact sform_span_right (fun s hs => hM r hr s hs) ((isCombination_iff _ _).1 h)

-- Bacon-Shor code on 2 x 2 qubits: stabilizers XXXX and ZZZZ
example : (QCode.ofMatrix (F := ZMod 2) (n := 4)
    [![1, 1, 0, 0, 0, 0, 0, 0], ![0, 0, 1, 1, 0, 0, 0, 0], ![0, 0, 0, 0, 1, 0, 1, 0],
      ![0, 0, 0, 0, 0, 1, 0, 1]] (some true)).stabilizerOps =
    [![1, 1, 1, 1, 0, 0, 0, 0], ![0, 0, 0, 0, 1, 1, 1, 1]] := by decide +kernel

/-! ## C24 -/

theorem sform_conjugateRow_two [CharP F 2] (qs : List (Fin n)) (p q : Fin (n + n) → F) :
    sform (conjugateRow qs p) (conjugateRow qs q) = sform p q := by
  unfold sform conjugateRow
  apply Finset.sum_congr rfl
  intro i _
  simp only [xPart_append, zPart_append]
  split_ifs
  · rw [CharTwo.sub_eq_add, CharTwo.sub_eq_add, add_comm]
  · rfl

/-- Swapping X and Z support of some qudits as a linear equivalence. -/
def conjugateLin (F : Type) [Field F] [DecidableEq F] (qs : List (Fin n)) :
    (Fin (n + n) → F) ≃ₗ[F] (Fin (n + n) → F) where
  toFun := conjugateRow qs
  map_add' a b := by
    funext i
    refine Fin.addCases (fun i => ?_) (fun i => ?_) i <;> by_cases hi : i ∈ qs <;>
      simp [conjugateRow, xPart, zPart, hi, -Fin.natAdd_eq_addNat]
  map_smul' c a := by
    funext i
    refine Fin.addCases (fun i => ?_) (fun i => ?_) i <;> by_cases hi : i ∈ qs <;>
      simp [conjugateRow, xPart, zPart, hi, -Fin.natAdd_eq_addNat]
  invFun := conjugateRow qs
  left_inv v := by
    funext i
    refine Fin.addCases (fun i => ?_) (fun i => ?_) i <;> by_cases hi : i ∈ qs <;>
      simp [conjugateRow, xPart, zPart, hi, -Fin.natAdd_eq_addNat]
  right_inv v := by
    funext i
    refine Fin.addCases (fun i => ?_) (fun i => ?_) i <;> by_cases hi : i ∈ qs <;>
      simp [conjugateRow, xPart, zPart, hi, -Fin.natAdd_eq_addNat]

theorem rowSpan_conjugateRow (qs : List (Fin n)) (M : Rows F (n + n)) (p : Fin (n + n) → F) :
    conjugateRow qs p ∈ rowSpan (M.map (conjugateRow qs)) ↔ p ∈ rowSpan M := by
  have : M.map (conjugateRow qs) = M.map (conjugateLin F qs).toLinearMap := rfl
  rw [this, rowSpan_map]
  constructor
  · rintro ⟨q, hq, hqp⟩
    have : q = p := (conjugateLin F qs).injective hqp
    rw [← this]; exact hq
  · intro hp; exact ⟨p, hp, rfl⟩

theorem rank_conjugateRow (qs : List (Fin n)) (M : Rows F (n + n)) :
    rank (M.map (conjugateRow qs)) = rank M := by
  rw [← finrank_rowSpan, ← finrank_rowSpan]
  have : M.map (conjugateRow qs) = M.map (conjugateLin F qs).toLinearMap := rfl
  rw [this, rowSpan_map]
  exact LinearEquiv.finrank_map_eq (conjugateLin F qs) _

theorem length_subsystemStabilizers (M : Rows F (n + n)) :
    (subsystemStabilizers M).length = rank (subsystemStabilizers M) := by
  rw [← finrank_rowSpan]
  have h := (C23_independent M).1
  have he : rowSpan (subsystemStabilizers M) =
      Submodule.span F (Set.range (fun i => (subsystemStabilizers M).get i)) := by
    unfold rowSpan; congr 1; ext v
    simp only [Set.mem_setOf_eq, Set.mem_range]
    exact List.mem_iff_get
  rw [he, finrank_span_eq_card h]; simp

theorem dimension_conjugateRow [CharP F 2] (qs : List (Fin n)) (M : Rows F (n + n)) (b : Bool) :
    (QCode.ofMatrix (M.map (conjugateRow qs)) (some b)).dimension =
      (QCode.ofMatrix M (some b)).dimension := by
  have hr := rank_conjugateRow qs M
  have hlen : ∀ N : Rows F (n + n), (dropZero (rowReduce N)).length = rank N := by
    intro N; rw [dropZero_rowReduce, List.length_map]; rfl
  cases b with
  | false =>
    show stabDimension (M.map (conjugateRow qs)) = stabDimension M
    unfold stabDimension; rw [hlen, hlen, hr]
  | true =>
    show subsystemDimension (M.map (conjugateRow qs)) = subsystemDimension M
    unfold subsystemDimension
    rw [hlen, hlen, hr, length_subsystemStabilizers, length_subsystemStabilizers,
      ← rank_conjugateRow qs (subsystemStabilizers M)]
    congr 3
    apply rank_eq_of_rowSpan_eq
    ext p
    obtain ⟨q, rfl⟩ := (conjugateLin F qs).surjective p
    show conjugateRow qs q ∈ _ ↔ conjugateRow qs q ∈ _
    rw [rowSpan_conjugateRow]
    have h1 := C23_stabilizers (M.map (conjugateRow qs)) (conjugateRow qs q)
    have h2 := C23_stabilizers M q
    rw [show ∀ N : Rows F (n + n), (QCode.ofMatrix N (some true)).stabilizerOps =
      subsystemStabilizers N from fun _ => rfl, isCombination_iff, isCombination_iff] at h1 h2
    rw [h1, h2, rowSpan_conjugateRow]
    refine and_congr_right fun _ => ?_
    constructor
    · intro h r hr'
      have := h _ (List.mem_map.2 ⟨r, hr', rfl⟩)
      rwa [sform_conjugateRow_two] at this
    · intro h r hr'
      obtain ⟨r', hr'', rfl⟩ := List.mem_map.1 hr'
      rw [sform_conjugateRow_two]; exact h r' hr''

/-- **C24** over fields of characteristic two: conjugating any qudits preserves all commutation
relations of checks, and logical operators that satisfy the canonical relations are accepted as logical
operators of the new code, with the same relations.  Missing from the full claim: odd characteristic
(`C24_disagreement`). -/
theorem C24_conjugated_partial [CharP F 2] (c : QCode F n) (qs : List (Fin n)) :
    (∀ p q : Fin (n + n) → F, sform (conjugateRow qs p) (conjugateRow qs q) = sform p q) ∧
      (c.logicals? = none → ∃ c', c.conjugated qs = .ok c' ∧
        c'.matrix = c.matrix.map (conjugateRow qs) ∧ (AllCommute c'.matrix ↔ AllCommute c.matrix)) ∧
      (∀ LX LZ, c.logicals? = some (LX ++ LZ) → IsLogicalBasis c.matrix LX LZ →
        LX.length = (QCode.ofMatrix c.matrix (some c.isSub)).dimension →
        ∃ c', c.conjugated qs = .ok c' ∧ c'.matrix = c.matrix.map (conjugateRow qs) ∧
          c'.getLogicalOps = some (LX.map (conjugateRow qs) ++ LZ.map (conjugateRow qs)) ∧
          IsLogicalBasis c'.matrix (LX.map (conjugateRow qs)) (LZ.map (conjugateRow qs))) := by
  have hall : AllCommute (c.matrix.map (conjugateRow qs)) ↔ AllCommute c.matrix := by
    constructor
    · intro h p hp q hq
      have := h _ (List.mem_map.2 ⟨p, hp, rfl⟩) _ (List.mem_map.2 ⟨q, hq, rfl⟩)
      rwa [sform_conjugateRow_two] at this
    · intro h p hp q hq
      obtain ⟨p', hp', rfl⟩ := List.mem_map.1 hp
      obtain ⟨q', hq', rfl⟩ := List.mem_map.1 hq
      rw [sform_conjugateRow_two]; exact h p' hp' q' hq'
  refine ⟨sform_conjugateRow_two qs, ?_, ?_⟩
  · intro h
    exact ⟨{ matrix := c.matrix.map (conjugateRow qs), isSub := c.isSub },
      by simp only [QCode.conjugated, h], rfl, hall⟩
  · intro LX LZ hL hb hdim
    have hb' : IsLogicalBasis (c.matrix.map (conjugateRow qs)) (LX.map (conjugateRow qs))
        (LZ.map (conjugateRow qs)) := by
      constructor
      · simp [hb.len]
      · intro r hr l hl
        obtain ⟨r', hr', rfl⟩ := List.mem_map.1 hr
        obtain ⟨l', hl', rfl⟩ := List.mem_map.1 hl
        rw [sform_conjugateRow_two]; exact hb.commX r' hr' l' hl'
      · intro r hr l hl
        obtain ⟨r', hr', rfl⟩ := List.mem_map.1 hr
        obtain ⟨l', hl', rfl⟩ := List.mem_map.1 hl
        rw [sform_conjugateRow_two]; exact hb.commZ r' hr' l' hl'
      · intro i j hi hj
        rw [List.getElem_map, List.getElem_map, sform_conjugateRow_two]
        exact hb.pair i j (by simpa using hi) (by simpa using hj)
      · intro r hr l hl
        obtain ⟨r', hr', rfl⟩ := List.mem_map.1 hr
        obtain ⟨l', hl', rfl⟩ := List.mem_map.1 hl
        rw [sform_conjugateRow_two]; exact hb.xx r' hr' l' hl'
      · intro r hr l hl
        obtain ⟨r', hr', rfl⟩ := List.mem_map.1 hr
        obtain ⟨l', hl', rfl⟩ := List.mem_map.1 hl
        rw [sform_conjugateRow_two]; exact hb.zz r' hr' l' hl'
    obtain ⟨c', hc'⟩ := C21_accepts
      ({ matrix := c.matrix.map (conjugateRow qs), isSub := c.isSub } : QCode F n) _ _ hb'
      (by rw [List.length_map, hdim, ← dimension_conjugateRow qs]; rfl)
    have hs := C21_accepted_partial _ _ _ hc'
    obtain ⟨_, _, _, _, _, _, _, hlog, hmat, _⟩ := hs
    refine ⟨c', ?_, hmat, hlog, by rw [hmat]; exact hb'⟩
    simp only [QCode.conjugated, hL, List.map_append]
    exact hc'

/-- **C24**, any field: conjugating all qudits negates the symplectic form, so it preserves
commutation (but turns the pairing `δ` of logical operators into `-δ`). -/
theorem C24_all_qudits (p q : Fin (n + n) → F) :
    sform (conjugateRow (List.finRange n) p) (conjugateRow (List.finRange n) q) = - sform p q := by
  unfold sform conjugateRow
  rw [← Finset.sum_neg_distrib]
  apply Finset.sum_congr rfl
  intro i _
  simp only [xPart_append, zPart_append, List.mem_finRange, if_true]
  ring

/-- **C24** fails for qutrits: conjugating one qudit of the commuting pair `X X`, `Z Z^2` makes the
checks anticommute; the code still reports to be a stabilizer code. -/
theorem C24_disagreement : ∃ (c c' : QCode (ZMod 3) 2) (qs : List (Fin 2)),
    AllCommute c.matrix ∧ c.conjugated qs = .ok c' ∧ c'.isSub = false ∧ ¬ AllCommute c'.matrix := by
  refine ⟨QCode.ofMatrix [![1, 1, 0, 0], ![0, 0, 1, 2]] (some false), _, [0], ?_, rfl, rfl, ?_⟩
  · unfold AllCommute; decide +kernel
  · unfold AllCommute; decide +kernel

example : CharP (ZMod 2) 2 := inferInstance
example : (QCode.ofMatrix fiveQubit).conjugated [0, 3] =
    .ok (QCode.ofMatrix (fiveQubit.map (conjugateRow [0, 3])) (some false)) := by rfl

/-! ## C70 -/

/-- **C70** fails: for the gauge group generated by `X_1` and `Z_1 X_2`, `get_logical_ops` returns a
logical Z operator that does not commute with a gauge generator. -/
theorem C70_checks_disagreement : ∃ (M LX LZ : Rows (ZMod 2) (2 + 2)),
    (QCode.ofMatrix M).getLogicalOps = some (LX ++ LZ) ∧ LX.length = 1 ∧ LZ.length = 1 ∧
      ∃ r ∈ M, ∃ l ∈ LZ, sform r l ≠ 0 := by
  refine ⟨[![1, 0, 0, 0], ![0, 1, 1, 0]], [![0, 1, 0, 1]], [![0, 0, 0, 1]], ?_⟩
  decide +kernel

/-- **C70** fails: for the gauge group generated by `X_2 X_3` and `Z_1 Z_2` (a CSS code), the two
logical X operators returned by `QuditCode.get_logical_ops` anticommute. -/
theorem C70_xx_disagreement : ∃ (M LX LZ : Rows (ZMod 2) (3 + 3)),
    (QCode.ofMatrix M).getLogicalOps = some (LX ++ LZ) ∧ LX.length = 2 ∧ LZ.length = 2 ∧
      ∃ p ∈ LX, ∃ q ∈ LX, sform p q ≠ 0 := by
  refine ⟨[![0, 1, 1, 0, 0, 0], ![0, 0, 0, 1, 1, 0]],
    [![1, 1, 0, 1, 0, 0], ![0, 0, 1, 0, 1, 1]], [![0, 0, 0, 1, 0, 0], ![0, 0, 0, 1, 1, 1]], ?_⟩
  decide +kernel

#print axioms C20_logicals
#print axioms C20_default
#print axioms C20_nontrivial_complete
#print axioms C21_accepted_partial
#print axioms C21_accepts
#print axioms C21_disagreement
#print axioms C23_stabilizers
#print axioms C23_independent
#print axioms C24_conjugated_partial
#print axioms C24_all_qudits
#print axioms C24_disagreement
#print axioms C70_checks_disagreement
#print axioms C70_xx_disagreement

/-! ### Instances of the theorems: concrete cases meet the hypotheses -/

private def quditChecks : Rows (ZMod 3) (2 + 2) := [Fin.append ![1, 2] 0]
private theorem quditChecks_commute : AllCommute quditChecks := by unfold AllCommute; decide +kernel
example := C20_logicals quditChecks quditChecks_commute
example := C20_default quditChecks quditChecks_commute
example := C20_nontrivial_complete quditChecks quditChecks_commute

example : True := by
  cases h : (QCode.ofMatrix fiveQubit).setLogicalOps [![1, 1, 1, 1, 1, 0, 0, 0, 0, 0], ![0, 0, 0, 0, 0, 1, 1, 1, 1, 1]] with
  | error e =>
    have h' : ((QCode.ofMatrix fiveQubit).setLogicalOps [![1, 1, 1, 1, 1, 0, 0, 0, 0, 0], ![0, 0, 0, 0, 0, 1, 1, 1, 1, 1]]).isOk = true := by decide +kernel
    rw [h] at h'; cases h'
  | ok c =>
    have h1 := C21_accepted_partial _ c _ h
    trivial

end QLDPC.Props
