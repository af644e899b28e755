import Verif.Props.SubsystemDimension

/-!
# Property C104: exact distances of general subsystem codes
-/

namespace QLDPC.Props

open QLDPC QLDPC.Spec

/-- The gauge generators `X₀X₁, X₂X₃, Z₀Z₂, Z₁Z₃` of the Bacon-Shor code on a 2 × 2 grid after Hadamard
gates on qubits 1 and 2: `X₀Z₁, Z₂X₃, Z₀X₂, X₁Z₃`. -/
def rotatedBaconShor : Rows (ZMod 2) (4 + 4) :=
  [![1, 0, 0, 0, 0, 1, 0, 0], ![0, 0, 0, 1, 0, 0, 1, 0], ![0, 0, 1, 0, 1, 0, 0, 0],
    ![0, 1, 0, 0, 0, 0, 0, 1]]

/-- The same after Hadamard gates on qubits 0 and 3 instead: `Z₀X₁, X₂Z₃, X₀Z₂, Z₁X₃`. -/
def rotatedBaconShor' : Rows (ZMod 2) (4 + 4) :=
  [![0, 1, 0, 0, 1, 0, 0, 0], ![0, 0, 1, 0, 0, 0, 0, 1], ![1, 0, 0, 0, 0, 0, 1, 0],
    ![0, 0, 0, 1, 0, 1, 0, 0]]

/-- A way to recognize a code with distance two: two products of generators that commute with all
generators detect every error on one qubit, and some operator on two qubits commutes with all generators
but not with another such operator. -/
theorem distance_two {M : Rows (ZMod 2) (4 + 4)} (s₁ s₂ p q : Fin (4 + 4) → ZMod 2)
    (h1 : IsCombination M s₁) (h2 : IsCombination M s₂) (c1 : ∀ r ∈ M, sform r s₁ = 0)
    (c2 : ∀ r ∈ M, sform r s₂ = 0)
    (hdet : ∀ e : Fin (4 + 4) → ZMod 2, sweight e < 2 → e = 0 ∨ sform s₁ e ≠ 0 ∨ sform s₂ e ≠ 0)
    (hp : ∀ r ∈ M, sform r p = 0) (hq : ∀ r ∈ M, sform r q = 0) (hpq : sform p q ≠ 0)
    (hw : sweight p = 2) : IsCodeDistance M 2 := by
  refine ⟨⟨p, ⟨fun s hs _ => sform_span_left hp ((isCombination_iff M s).1 hs), fun hc => ?_⟩, hw.symm⟩, ?_⟩
  · exact hpq (sform_span_left hq ((isCombination_iff M p).1 hc))
  · rintro k ⟨e, ⟨he1, he2⟩, rfl⟩
    by_contra hlt
    rcases hdet e (not_le.1 hlt) with h | h | h
    · subst h
      exact he2 ((isCombination_iff M 0).2 (Submodule.zero_mem _))
    · exact h (he1 _ h1 c1)
    · exact h (he1 _ h2 c2)

/-- **C104** is false of general subsystem codes: the Bacon-Shor code on a 2 × 2 grid with Hadamard gates on
qubits 1 and 2 has distance 2, but `get_distance` returns 1.  The logical operator `Z₃` that
`get_logical_ops` returns anticommutes with a stabilizer. -/
theorem C104_wrong_disagreement :
    ((QCode.ofMatrix rotatedBaconShor).distance 64 [0, 1] none).1 = some (some 1) ∧
      IsCodeDistance rotatedBaconShor 2 := by
  refine ⟨by decide +kernel, distance_two ![1, 0, 0, 1, 0, 1, 1, 0] ![0, 1, 1, 0, 1, 0, 0, 1]
    ![1, 0, 0, 0, 0, 0, 1, 0] ![0, 1, 0, 0, 1, 0, 0, 0] ⟨![1, 1, 0, 0], by decide +kernel⟩
    ⟨![0, 0, 1, 1], by decide +kernel⟩ (by decide +kernel) (by decide +kernel) (by decide +kernel)
    (by decide +kernel) (by decide +kernel) (by decide +kernel) (by decide +kernel)⟩

/-- **C104** also fails by raising: after Hadamard gates on qubits 0 and 3 instead the code still has
distance 2, and `get_distance` raises (an `IndexError` when the standard form looks up the columns of the
gauge qubits). -/
theorem C104_raises_disagreement :
    ((QCode.ofMatrix rotatedBaconShor').distance 64 [0, 1] none).1 = none ∧
      IsCodeDistance rotatedBaconShor' 2 := by
  refine ⟨by decide +kernel, distance_two ![0, 1, 1, 0, 1, 0, 0, 1] ![1, 0, 0, 1, 0, 1, 1, 0]
    ![0, 0, 1, 0, 1, 0, 0, 0] ![1, 0, 0, 0, 0, 1, 0, 0] ⟨![1, 1, 0, 0], by decide +kernel⟩
    ⟨![0, 0, 1, 1], by decide +kernel⟩ (by decide +kernel) (by decide +kernel) (by decide +kernel)
    (by decide +kernel) (by decide +kernel) (by decide +kernel) (by decide +kernel)⟩

section

variable {F : Type} [Field F] [DecidableEq F] {n : ℕ}

/-- **C104**: `get_distance` of a new subsystem code is `nan` exactly if there is no nontrivial logical
operator; otherwise the code has a distance. -/
theorem C104_nan (wb : ℕ) (els : List F) (M : Rows F (n + n)) :
    ((QCode.ofMatrix M (some true)).dimension = 0 →
      ((QCode.ofMatrix M (some true)).distance wb els none).1 = some none ∧ ∀ p, ¬ IsNontrivialLogical M p) ∧
    ((QCode.ofMatrix M (some true)).dimension ≠ 0 →
      ((QCode.ofMatrix M (some true)).distance wb els none).1 ≠ some none ∧ ∃ d, IsCodeDistance M d) := by
  obtain ⟨LX, LZ, hb, hc⟩ := exists_logical M
  have hC : LogComplete M LX LZ := ⟨hb, hc⟩
  have hk : (QCode.ofMatrix M (some true)).dimension = LX.length := by
    change subsystemDimension M = _
    unfold subsystemDimension
    rw [length_dropZero_rowReduce, length_subsystemStabilizers]
    omega
  constructor
  · intro h0
    refine ⟨?_, fun p => hC.not_nontrivial (List.eq_nil_of_length_eq_zero (hk ▸ h0)) p⟩
    simp only [QCode.distance, QCode.distExact, QCode.distIfKnown, h0, if_true]
  · intro h0
    constructor
    · simp only [QCode.distance, QCode.distExact, QCode.distIfKnown, h0, if_false]
      have : (QCode.ofMatrix M (some true)).dist? = none := rfl
      simp only [this]
      split
      · simp
      · split
        · simp
        · split <;> simp
    · have hne : LX ≠ [] := fun h => h0 (by rw [hk, h]; rfl)
      obtain ⟨l, hl, hl0⟩ := linearIndependent_ne_zero (L := LX ++ LZ) (by simp [hne]) hC.independent
      have hnon : {k | ∃ p, IsNontrivialLogical M p ∧ k = sweight p}.Nonempty :=
        ⟨_, l, (hC.nontrivial_iff l).2 ⟨l, subset_rowSpan hl, hl0, 0, Submodule.zero_mem _, (add_zero l).symm⟩, rfl⟩
      exact ⟨sInf _, Nat.sInf_mem hnon, fun k hk => Nat.sInf_le hk⟩

/-- The number of logical qudits of the dual subsystem code. -/
theorem dual_number {M LX LZ : Rows F (n + n)} (hb : IsLogicalBasis M LX LZ)
    (hc : rank M + rank (subsystemStabilizers M) + 2 * LX.length = 2 * n) :
    2 * subsystemDimension (subsystemStabilizers M ++ (LX ++ LZ)) + rank (subsystemStabilizers M) = rank M := by
  set S := subsystemStabilizers M with hS
  have hSb : IsLogicalBasis S LX LZ := by
    have hSM : ∀ s ∈ S, s ∈ rowSpan M := fun s hs => ((mem_subsystemStabilizers M s).1 (subset_rowSpan hs)).1
    exact ⟨hb.len, fun r hr l hl => sform_span_left (fun q hq => hb.commX q hq l hl) (hSM r hr),
      fun r hr l hl => sform_span_left (fun q hq => hb.commZ q hq l hl) (hSM r hr), hb.pair, hb.xx, hb.zz⟩
  have h0 : IsLogicalBasis [] LX LZ := ⟨hb.len, by simp, by simp, hb.pair, hb.xx, hb.zz⟩
  have h1 := hSb.finrank_ge
  rw [List.append_assoc, finrank_rowSpan] at h1
  have h2 : rank (S ++ (LX ++ LZ)) ≤ S.length + 2 * LX.length := by
    refine (rank_le_length _).trans ?_
    rw [List.length_append, List.length_append, ← hb.len]
    omega
  have h3 : S.length = rank S := length_subsystemStabilizers M
  have h4 := gauge_le (M := S ++ (LX ++ LZ)) h0 fun p hp =>
    (isCombination_iff _ p).2 (subset_rowSpan (List.mem_append_right _ hp))
  have h5 : rank S ≤ rank (subsystemStabilizers (S ++ (LX ++ LZ))) := by
    rw [← finrank_rowSpan S, ← finrank_rowSpan (subsystemStabilizers _)]
    refine Submodule.finrank_mono ?_
    rw [rowSpan_le]
    intro s hs
    rw [mem_subsystemStabilizers]
    refine ⟨subset_rowSpan (List.mem_append_left _ hs), fun r hr => ?_⟩
    rcases List.mem_append.1 hr with hr | hr
    · exact (C23_independent M).2.1 r hr s hs
    · rw [sform_comm]
      rcases List.mem_append.1 hr with hr | hr
      · rw [hSb.commX s hs r hr, neg_zero]
      · rw [hSb.commZ s hs r hr, neg_zero]
  obtain ⟨GX, GZ, -, -, h6⟩ := exists_gauge M
  rw [← hS] at h6
  unfold subsystemDimension
  rw [length_dropZero_rowReduce, length_subsystemStabilizers]
  omega

/-- **C104**, as far as it goes: if the logical operators and the gauge operators that the code computes
satisfy the defining relations, `get_distance` is right.  Logical operators: they commute with the gauge
generators and satisfy the relations of qudits.  Gauge operators: they are products of gauge generators and
satisfy the relations of qudits.  What is missing is that they do (they do not in general). -/
theorem C104_right_partial (wb : ℕ) (els : List F) (hnd : (0 :: els).Nodup)
    (hall : ∀ x, x ∈ 0 :: els) (hwb : n < 2 ^ wb) (h64 : n < 2 ^ 64) (M LX LZ GX GZ : Rows F (n + n))
    (hdim : (QCode.ofMatrix M (some true)).dimension ≠ 0)
    (hL : (QCode.ofMatrix M (some true)).getLogicalOps = some (LX ++ LZ)) (hb : IsLogicalBasis M LX LZ)
    (hG : (QCode.ofMatrix M (some true)).gaugeOps = some (GX ++ GZ)) (hg : IsLogicalBasis [] GX GZ)
    (hin : ∀ p ∈ GX ++ GZ, IsCombination M p) :
    ∃ d, ((QCode.ofMatrix M (some true)).distance wb (0 :: els) none).1 = some (some d) ∧
      IsCodeDistance M d := by
  obtain ⟨LX', LZ', e1, e2, e3, -⟩ := C70_pair_partial M _ hL
  have hlen : LX.length = (QCode.ofMatrix M (some true)).dimension := by
    have := congrArg List.length e1
    rw [List.length_append, List.length_append, ← hb.len] at this
    omega
  have hcount : rank M + rank (subsystemStabilizers M) + 2 * LX.length = 2 * n := by
    obtain ⟨LX₀, LZ₀, hb₀, hc₀⟩ := exists_logical M
    have h1 := logical_le hb
    have h2 := (C105_logical M).2 ⟨LX₀, LZ₀, hb₀, rfl⟩
    omega
  have hdual : (QCode.ofMatrix M (some true)).dualSubsystem =
      some (QCode.ofMatrix (subsystemStabilizers M ++ (LX ++ LZ)) (some true)) := by
    unfold QCode.dualSubsystem
    rw [hL, Option.map_some]
    simp only [hdim, ne_eq, not_false_eq_true, decide_true]
    rfl
  have hG' : (QCode.ofMatrix (subsystemStabilizers M ++ (LX ++ LZ)) (some true)).getLogicalOps =
      some (GX ++ GZ) := by
    rw [← hG]
    change _ = if true = true then (QCode.ofMatrix M (some true)).dualSubsystem.bind QCode.getLogicalOps
      else some []
    rw [if_pos rfl, hdual]
    rfl
  obtain ⟨GX', GZ', f1, f2, f3, -⟩ := C70_pair_partial _ _ hG'
  have hglen : 2 * GX.length + rank (subsystemStabilizers M) = rank M := by
    have h1 := dual_number hb hcount
    have := congrArg List.length f1
    rw [List.length_append, List.length_append, ← hg.len] at this
    change GX'.length = subsystemDimension (subsystemStabilizers M ++ (LX ++ LZ)) at f2
    omega
  have hne : LX ≠ [] := fun h => hdim (by rw [← hlen, h]; rfl)
  refine C104_subsystem_partial wb els hnd hall hwb h64 (QCode.ofMatrix M (some true)) rfl rfl hdim LX LZ
    (GX ++ GZ) hL hb hne hcount ?_ ?_
  · rw [← hG]
    have hd2 : ((QCode.ofMatrix M (some true)).rememberLogicals (LX ++ LZ)).dualSubsystem =
        (QCode.ofMatrix M (some true)).dualSubsystem := by
      rw [hdual]
      have hd : ((QCode.ofMatrix M (some true)).rememberLogicals (LX ++ LZ)).dimension ≠ 0 := by
        change (LX ++ LZ).length / 2 ≠ 0
        rw [List.length_append, ← hb.len]
        omega
      unfold QCode.dualSubsystem
      change Option.map _ (some (LX ++ LZ)) = _
      rw [Option.map_some]
      simp only [hd, ne_eq, not_false_eq_true, decide_true]
      rfl
    change (if true = true then ((QCode.ofMatrix M (some true)).rememberLogicals (LX ++ LZ)).dualSubsystem.bind
      QCode.getLogicalOps else some []) = if true = true then
        (QCode.ofMatrix M (some true)).dualSubsystem.bind QCode.getLogicalOps else some []
    rw [hd2]
  · intro p
    rw [isCombination_iff, isCombination_iff]
    have hin' : ∀ p ∈ GX ++ GZ, p ∈ rowSpan M := fun p hp => (isCombination_iff M p).1 (hin p hp)
    have hSM : ∀ s ∈ subsystemStabilizers M, s ∈ rowSpan M ∧ ∀ r ∈ M, sform r s = 0 := fun s hs =>
      (mem_subsystemStabilizers M s).1 (subset_rowSpan hs)
    have hcm : ∀ r ∈ subsystemStabilizers M, ∀ q ∈ GX ++ GZ, sform r q = 0 := fun r hr q hq => by
      rw [sform_comm, sform_span_left (hSM r hr).2 (hin' q hq), neg_zero]
    have hb2 : IsLogicalBasis (subsystemStabilizers M) GX GZ :=
      ⟨hg.len, fun r hr q hq => hcm r hr q (List.mem_append_left _ hq),
        fun r hr q hq => hcm r hr q (List.mem_append_right _ hq), hg.pair, hg.xx, hg.zz⟩
    have hle : rowSpan (subsystemStabilizers M ++ (GX ++ GZ)) ≤ rowSpan M := by
      rw [rowSpan_le]
      intro l hl
      rcases List.mem_append.1 hl with hl | hl
      · exact (hSM l hl).1
      · exact hin' l hl
    have h1 := hb2.finrank_ge
    rw [List.append_assoc] at h1
    have h2 : rank M = Module.finrank F (rowSpan M) := (finrank_rowSpan _).symm
    change p ∈ rowSpan (subsystemStabilizers M ++ (GX ++ GZ)) ↔ p ∈ rowSpan M
    rw [Submodule.eq_of_le_of_finrank_le hle (by omega)]

end

example : ∃ d, ((QCode.ofMatrix gaugeYZ (some true)).distance 64 [0, 1] none).1 = some (some d) ∧
    IsCodeDistance gaugeYZ d := by
  refine C104_right_partial 64 [1] (by decide) (by decide) (by decide) (by decide) gaugeYZ
    [![0, 1, 1, 0, 0, 1]] [![0, 0, 0, 0, 0, 1]] [![1, 0, 0, 1, 0, 0]] [![0, 0, 0, 1, 0, 0]]
    (by decide +kernel) (by decide +kernel)
    ⟨by decide, by decide +kernel, by decide +kernel, ?_, by decide +kernel, by decide +kernel⟩
    (by decide +kernel) ⟨by decide, by decide +kernel, by decide +kernel, ?_, by decide +kernel, by decide +kernel⟩
    ?_
  · intro i j hi hj
    obtain rfl : i = 0 := by simpa using hi
    obtain rfl : j = 0 := by simpa using hj
    exact (by decide +kernel :
      sform (n := 3) (![0, 1, 1, 0, 0, 1] : Fin (3 + 3) → ZMod 2) ![0, 0, 0, 0, 0, 1] = 1)
  · intro i j hi hj
    obtain rfl : i = 0 := by simpa using hi
    obtain rfl : j = 0 := by simpa using hj
    exact (by decide +kernel :
      sform (n := 3) (![1, 0, 0, 1, 0, 0] : Fin (3 + 3) → ZMod 2) ![0, 0, 0, 1, 0, 0] = 1)
  · intro p hp
    rw [isCombination_iff]
    refine subset_rowSpan ?_
    simp only [List.cons_append, List.nil_append, List.mem_cons, List.not_mem_nil, or_false] at hp
    rcases hp with rfl | rfl <;> simp [gaugeYZ]

/-- Both cases of `C104_nan` occur. -/
example : (QCode.ofMatrix gaugeYZ (some true)).dimension ≠ 0 ∧
    (QCode.ofMatrix ([![1, 0], ![0, 1]] : Rows (ZMod 2) (1 + 1)) (some true)).dimension = 0 := by
  decide +kernel

#print axioms C104_wrong_disagreement
#print axioms C104_raises_disagreement
#print axioms C104_nan
#print axioms C104_right_partial

end QLDPC.Props
