import Verif.Lemmas.QuditDistance
import Verif.Lemmas.SubsystemPair
import Verif.Props.CssDistance

/-!
# Properties C70, C72, C104: subsystem logical operators and exact distance of a general `QuditCode`
-/

namespace QLDPC.Props

open QLDPC QLDPC.Spec

set_option linter.unusedSectionVars false

variable {F : Type} [Field F] [DecidableEq F] {n : ℕ}

/-- **C70**, as far as it holds: whenever `get_logical_ops` of a subsystem code returns, it returns
`dimension` X-type and as many Z-type operators, X-type operator `i` and Z-type operator `j` pair to
`δ_ij`, and the Z-type operators are products of Z operators only, hence commute among themselves.  What
is missing (and false, see `C70_checks_disagreement` and `C70_xx_disagreement`): commutation with the
gauge generators and of the X-type operators among themselves. -/
theorem C70_pair_partial (M L : Rows F (n + n))
    (h : (QCode.ofMatrix M (some true)).getLogicalOps = some L) :
    ∃ LX LZ, L = LX ++ LZ ∧ LX.length = (QCode.ofMatrix M (some true)).dimension ∧
      LZ.length = LX.length ∧
      (∀ (i j : ℕ) (hi : i < LX.length) (hj : j < LZ.length),
        sform LX[i] LZ[j] = if i = j then 1 else 0) ∧
      (∀ p ∈ LZ, xPart p = 0) ∧ AllCommute LZ := by
  simp only [QCode.getLogicalOps, QCode.ofMatrix, Option.getD_some, if_true, Option.map_eq_some_iff] at h
  obtain ⟨⟨LX, LZ⟩, hp, rfl⟩ := h
  obtain ⟨h1, h2, h3, h4⟩ := subsystemLogicals_pair hp
  refine ⟨LX, LZ, rfl, h1, h2.trans h1.symm, h3, h4, ?_⟩
  intro p hp q hq
  rw [sform_eq, h4 p hp, h4 q hq, dot_zero_left, dot_zero_right, sub_zero]

/-- A gauge group with a non-CSS generator: the hypothesis is met. -/
example : ∃ L, (QCode.ofMatrix [![1, 0, 0, 0], ![0, 1, 1, 0]] (some true) :
    QCode (ZMod 2) 2).getLogicalOps = some L :=
  ⟨[![0, 1, 0, 1], ![0, 0, 0, 1]], by decide +kernel⟩

/-- What a stabilizer `QuditCode` object is assumed to satisfy, and what is shown to stay true: the checks
commute, known logical operators are logical operators in the right number, a known dimension and a known
distance are right. -/
structure StabOk (c : QCode F n) : Prop where
  stab : c.isSub = false
  comm : AllCommute c.matrix
  log : ∀ L, c.logicals? = some L →
    ∃ LX LZ, L = LX ++ LZ ∧ IsLogicalBasis c.matrix LX LZ ∧ codeDim c.matrix = n + LX.length
  dim : ∀ k, c.dim? = some k → codeDim c.matrix = n + k
  dist : ∀ d, c.dist? = some d → DistanceIs c.matrix d

/-- A new stabilizer code satisfies the assumptions. -/
theorem stabOk_ofMatrix (M : Rows F (n + n)) (hM : AllCommute M) : StabOk (QCode.ofMatrix M) := by
  rw [C20_default M hM]
  exact ⟨rfl, hM, (by intro _ h; cases h), (by intro _ h; cases h), (by intro _ h; cases h)⟩

theorem rank_of_codeDim {M : Rows F (n + n)} {k : ℕ} (h : codeDim M = n + k) : rank M + k = n := by
  rw [codeDim_eq] at h
  have := finrank_kernel M
  omega

theorem StabOk.logicals {c : QCode F n} (h : StabOk c) : ∃ LX LZ, c.getLogicalOps = some (LX ++ LZ) ∧
    LogComplete c.matrix LX LZ ∧ codeDim c.matrix = n + LX.length ∧ c.dimension = LX.length := by
  have hdim : ∀ LX : Rows F (n + n), codeDim c.matrix = n + LX.length →
      (∀ L, c.logicals? = some L → L.length / 2 = LX.length) →
      stabDimension c.matrix = LX.length → c.dimension = LX.length := by
    intro LX h1 h2 h3
    unfold QCode.dimension
    cases hk : c.dim? with
    | some k =>
      have := h.dim k hk
      simp only
      omega
    | none =>
      cases hL : c.logicals? with
      | some L => exact h2 L hL
      | none => simp only [h.stab]; exact h3
  obtain ⟨LX, LZ, h1, h2, h3, h4⟩ := stabLogicals_spec c.matrix h.comm
  cases hL : c.logicals? with
  | none =>
    refine ⟨LX, LZ, by simp [QCode.getLogicalOps, hL, h.stab, h1], logComplete_of_commute h.comm h2 h4,
      codeDim_eq_of_rank _ (by omega), hdim LX (codeDim_eq_of_rank _ (by omega)) (by simp [hL]) h3.symm⟩
  | some L =>
    obtain ⟨KX, KZ, rfl, hb, hk⟩ := h.log L hL
    refine ⟨KX, KZ, by simp [QCode.getLogicalOps, hL],
      logComplete_of_commute h.comm hb (rank_of_codeDim hk), hk, hdim KX hk ?_ ?_⟩
    · intro L' hL'
      rw [hL] at hL'
      cases hL'
      rw [List.length_append, ← hb.len]
      omega
    · have := rank_of_codeDim hk
      omega

/-- **C72**: for every stabilizer code and every state of its caches (not yet filled, or filled with right
values), `get_distance()` returns the least number of qudits a nontrivial logical operator acts on, or
`nan` exactly if there is none, and the object stays right. -/
theorem C72_exact (wb : ℕ) (els : List F) (hnd : (0 :: els).Nodup) (hall : ∀ x, x ∈ 0 :: els)
    (hwb : n < 2 ^ wb) (h64 : n < 2 ^ 64) (c : QCode F n) (h : StabOk c) :
    ∃ d c', c.distance wb (0 :: els) none = (some d, c') ∧ DistanceIs c.matrix d ∧
      (d = none ↔ codeDim c.matrix = n) ∧ c'.matrix = c.matrix ∧ c'.dist? = some d ∧ StabOk c' := by
  obtain ⟨LX, LZ, hL, hc, hk, hd⟩ := h.logicals
  have hnil : LX.length = 0 ↔ LX = [] := List.length_eq_zero_iff
  unfold QCode.distance QCode.distExact
  by_cases h0 : c.dimension = 0
  · have hX : LX = [] := by rw [← hnil]; omega
    refine ⟨none, { c with dist? := some none }, by simp [QCode.distIfKnown, h0],
      hc.not_nontrivial hX, by simp [hk, hX], rfl, rfl, h.stab, h.comm, h.log, h.dim, ?_⟩
    intro d hd'
    cases hd'
    exact hc.not_nontrivial hX
  · have hX : LX ≠ [] := by rw [Ne, ← hnil]; omega
    have hndist : ∀ d, DistanceIs c.matrix d → (d = none ↔ codeDim c.matrix = n) := by
      intro d hdd
      constructor
      · rintro rfl
        obtain ⟨l, hl, hl0⟩ := linearIndependent_ne_zero (L := LX ++ LZ) (by simp [hX]) hc.independent
        exact absurd ((hc.nontrivial_iff (l + 0)).2
          ⟨l, subset_rowSpan hl, hl0, 0, Submodule.zero_mem _, rfl⟩) (hdd _)
      · intro hh
        exact absurd (hnil.1 (by omega)) hX
    cases hdist : c.dist? with
    | some d =>
      exact ⟨d, c, by simp [QCode.distIfKnown, h0, hdist], h.dist d hdist, hndist d (h.dist d hdist), rfl,
        hdist, h⟩
    | none =>
      obtain ⟨d, hd1, hd2⟩ := pauliProductDistance_spec wb els hnd hall (hc.pos hX) hwb h64
        (L := LX ++ LZ) (by simp [hX]) hc.independent (c.stabilizerOpsCanon ++ [])
      have hS : rowSpan (c.stabilizerOpsCanon ++ []) = rowSpan c.matrix := by
        rw [List.append_nil]
        simp [QCode.stabilizerOpsCanon, h.stab, rowSpan_dropZero_rowReduce]
      have hdd : DistanceIs c.matrix (some d) := (hc.codeDistance _ hS d).2 hd2
      have hg : (c.rememberLogicals (LX ++ LZ)).gaugeOps = some [] := by
        simp [QCode.gaugeOps, QCode.rememberLogicals, h.stab]
      refine ⟨some d, { c.rememberLogicals (LX ++ LZ) with dist? := some (some d) }, ?_, hdd,
        hndist _ hdd, rfl, rfl, h.stab, h.comm, ?_, h.dim, ?_⟩
      · simp only [QCode.distIfKnown, h0, if_false, hdist, hL, hg, hd1]
      · intro L hL'
        cases hL'
        exact ⟨LX, LZ, rfl, hc.basis, hk⟩
      · intro d' hd'
        cases hd'
        exact hdd

/-- **C72**: `get_distance(bound=...)` of a general code never reports a wrong distance that was known
before: it returns the known (right) value, `nan` for codes without logical qudits, the block length if a
cutoff makes it skip all trials, and otherwise raises. -/
theorem C72_bound (wb : ℕ) (els : List F) (c : QCode F n) (h : StabOk c) (trials : ℕ)
    (cutoff : Option ℕ) (d : Option ℕ) (c' : QCode F n)
    (hd : c.distance wb els (some (trials + 1)) cutoff = (some d, c')) :
    (DistanceIs c.matrix d ∨
      (d = some n ∧ ∃ k, cutoff = some k ∧ n ≤ k ∧ ∃ d', DistanceIs c.matrix (some d') ∧ d' ≤ n)) ∧
      StabOk c' := by
  obtain ⟨LX, LZ, hL, hc, hk, hdim⟩ := h.logicals
  have hnil : LX.length = 0 ↔ LX = [] := List.length_eq_zero_iff
  unfold QCode.distance QCode.distBound QCode.distIfKnown at hd
  by_cases h0 : c.dimension = 0
  · have hX : LX = [] := by rw [← hnil]; omega
    simp only [h0, if_true, Prod.mk.injEq, Option.some.injEq] at hd
    obtain ⟨rfl, rfl⟩ := hd
    refine ⟨Or.inl (hc.not_nontrivial hX), h.stab, h.comm, h.log, h.dim, ?_⟩
    intro d hd'
    cases hd'
    exact hc.not_nontrivial hX
  · simp only [h0, if_false] at hd
    cases hdist : c.dist? with
    | some d' =>
      simp only [hdist, Prod.mk.injEq, Option.some.injEq] at hd
      obtain ⟨rfl, rfl⟩ := hd
      exact ⟨Or.inl (h.dist _ hdist), h⟩
    | none =>
      simp only [hdist] at hd
      cases cutoff with
      | none => simp at hd
      | some k =>
        simp only [Nat.succ_ne_zero, if_false] at hd
        split at hd
        · rename_i hk'
          simp only [Prod.mk.injEq, Option.some.injEq] at hd
          obtain ⟨rfl, rfl⟩ := hd
          refine ⟨Or.inr ⟨rfl, k, rfl, hk'.2, ?_⟩, h⟩
          have hX : LX ≠ [] := by rw [Ne, ← hnil]; omega
          obtain ⟨l, hl, hl0⟩ := linearIndependent_ne_zero (L := LX ++ LZ) (by simp [hX]) hc.independent
          have hne : {k | ∃ p, IsNontrivialLogical c.matrix p ∧ k = sweight p}.Nonempty :=
            ⟨_, l + 0, (hc.nontrivial_iff _).2 ⟨l, subset_rowSpan hl, hl0, 0, Submodule.zero_mem _, rfl⟩, rfl⟩
          refine ⟨_, ⟨Nat.sInf_mem hne, fun k hk => Nat.sInf_le hk⟩, ?_⟩
          obtain ⟨p, _, hp⟩ := Nat.sInf_mem hne
          rw [hp]
          exact sweight_le p
        · simp at hd

/-- **C104**, as far as it goes: `get_distance_exact` of a subsystem code that has not
computed its distance is the least number of qudits a nontrivial (dressed) logical operator acts on,
*provided* the logical operators and gauge operators it uses are right.  What is missing is that
`get_logical_ops` and `get_gauge_ops` of a non-CSS subsystem code return such operators; they do not in
general (C70). -/
theorem C104_subsystem_partial (wb : ℕ) (els : List F) (hnd : (0 :: els).Nodup)
    (hall : ∀ x, x ∈ 0 :: els) (hwb : n < 2 ^ wb) (h64 : n < 2 ^ 64) (c : QCode F n)
    (hsub : c.isSub = true) (hnone : c.dist? = none) (hdim : c.dimension ≠ 0)
    (LX LZ G : Rows F (n + n)) (hL : c.getLogicalOps = some (LX ++ LZ))
    (hb : IsLogicalBasis c.matrix LX LZ) (hne : LX ≠ [])
    (hcount : rank c.matrix + rank (subsystemStabilizers c.matrix) + 2 * LX.length = 2 * n)
    (hG : (c.rememberLogicals (LX ++ LZ)).gaugeOps = some G)
    (hspan : ∀ p, IsCombination (subsystemStabilizers c.matrix ++ G) p ↔ IsCombination c.matrix p) :
    ∃ d, (c.distance wb (0 :: els) none).1 = some (some d) ∧ IsCodeDistance c.matrix d := by
  have hc : LogComplete c.matrix LX LZ := ⟨hb, hcount⟩
  obtain ⟨d, hd1, hd2⟩ := pauliProductDistance_spec wb els hnd hall (hc.pos hne) hwb h64
    (L := LX ++ LZ) (by simp [hne]) hc.independent (c.stabilizerOpsCanon ++ G)
  have hS : rowSpan (c.stabilizerOpsCanon ++ G) = rowSpan c.matrix := by
    have e : c.stabilizerOpsCanon = subsystemStabilizers c.matrix := by
      simp [QCode.stabilizerOpsCanon, hsub]
    rw [e]
    ext p
    have := hspan p
    rw [isCombination_iff, isCombination_iff] at this
    exact this
  refine ⟨d, ?_, (hc.codeDistance _ hS d).2 hd2⟩
  simp only [QCode.distance, QCode.distExact, QCode.distIfKnown, hdim, if_false, hnone, hL, hG, hd1]

/-- The five-qubit code has distance 3. -/
example : ((QCode.ofMatrix fiveQubit).distance 64 [0, 1] none).1 = some (some 3) := by decide +kernel
example : StabOk (QCode.ofMatrix fiveQubit) := stabOk_ofMatrix _ (by unfold AllCommute; decide +kernel)

/-- A qutrit code that is not given in CSS form: checks `Z X X` and `X² Z Z`. -/
def qutritXZ : Rows (ZMod 3) (3 + 3) := [![0, 1, 1, 1, 0, 0], ![2, 0, 0, 0, 1, 1]]

example : ((QCode.ofMatrix qutritXZ).distance 64 [0, 1, 2] none).1 = some (some 2) := by decide +kernel
example : StabOk (QCode.ofMatrix qutritXZ) :=
  stabOk_ofMatrix _ (by unfold AllCommute; decide +kernel)

/-- Gauge generators `Y_1` and `Z_1` and the stabilizer `Z_2 Z_3` on three qubits: one gauge and one
logical qubit. -/
def gaugeYZ : Rows (ZMod 2) (3 + 3) := [![0, 0, 0, 0, 1, 1], ![1, 0, 0, 1, 0, 0], ![0, 0, 0, 1, 0, 0]]

example : ∃ d, ((QCode.ofMatrix gaugeYZ).distance 64 [0, 1] none).1 = some (some d) ∧
    IsCodeDistance gaugeYZ d := by
  have e : subsystemStabilizers (QCode.ofMatrix gaugeYZ).matrix = [![0, 0, 0, 0, 1, 1]] := by
    decide +kernel
  refine C104_subsystem_partial 64 [1] (by decide) (by decide) (by decide) (by decide)
    (QCode.ofMatrix gaugeYZ) (by decide +kernel) rfl (by decide +kernel) [![0, 1, 1, 0, 0, 1]]
    [![0, 0, 0, 0, 0, 1]] [![1, 0, 0, 1, 0, 0], ![0, 0, 0, 1, 0, 0]] (by decide +kernel)
    ⟨by decide, by decide +kernel, by decide +kernel, ?_, by decide +kernel, by decide +kernel⟩
    (by simp) (by decide +kernel) (by decide +kernel) ?_
  · intro i j hi hj
    obtain rfl : i = 0 := by simpa using hi
    obtain rfl : j = 0 := by simpa using hj
    exact (by decide +kernel :
      sform (n := 3) (![0, 1, 1, 0, 0, 1] : Fin (3 + 3) → ZMod 2) ![0, 0, 0, 0, 0, 1] = 1)
  · intro p
    rw [e]
    rfl

#print axioms C70_pair_partial
#print axioms C72_exact
#print axioms C72_bound
#print axioms C104_subsystem_partial

/-! ### Instances of the theorems: concrete cases meet the hypotheses -/

private theorem graph_stab : StabOk (QCode.ofMatrix ([Fin.append ![1, 0] ![0, 1]] : Rows (ZMod 2) (2 + 2)) (some false)) :=
  stabOk_ofMatrix _ (by unfold AllCommute; decide +kernel)

example : True := by
  obtain ⟨L, h⟩ := Option.isSome_iff_exists.1 (show ((QCode.ofMatrix ([![1, 1, 0, 0], ![0, 0, 1, 0]] : Rows (ZMod 2) (2 + 2)) (some true)).getLogicalOps).isSome = true by decide +kernel)
  have h1 := C70_pair_partial _ L h
  trivial

example : True := by
  obtain ⟨d, hd⟩ := Option.isSome_iff_exists.1 (show ((QCode.ofMatrix ([![1, 0, 0, 0]] : Rows (ZMod 2) (2 + 2))).distance 8 [0, 1] (some 3) (some 2)).1.isSome = true by decide +kernel)
  have h := C72_bound 8 [0, 1] (QCode.ofMatrix ([![1, 0, 0, 0]] : Rows (ZMod 2) (2 + 2))) (stabOk_ofMatrix _ (by unfold AllCommute; decide +kernel)) 2 (some 2) d _ (Prod.ext hd rfl)
  trivial

end QLDPC.Props
