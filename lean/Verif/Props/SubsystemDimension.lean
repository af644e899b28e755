import Verif.Lemmas.SymplecticGram
import Verif.Model.DistanceDispatch
import Verif.Props.GeneralEncoding
import Verif.Props.QuditDistance
import Verif.Props.Symplectic

/-!
# Property C105: numbers of logical, gauge and stabilizer qudits of a general code
-/

namespace QLDPC.Props

open QLDPC QLDPC.Spec

set_option linter.unusedSectionVars false

variable {F : Type} [Field F] [DecidableEq F] {n : ℕ}

/-- `k` is the greatest number of logical qudits of the code with checks or gauge generators `M`. -/
def IsLogicalNumber (M : List (Fin (n + n) → F)) (k : ℕ) : Prop :=
  IsGreatest {k | ∃ LX LZ, IsLogicalBasis M LX LZ ∧ LX.length = k} k

/-- `g` is the greatest number of qudits whose X and Z operators are products of the generators `M`. -/
def IsGaugeNumber (M : List (Fin (n + n) → F)) (g : ℕ) : Prop :=
  IsGreatest {g | ∃ GX GZ, IsLogicalBasis [] GX GZ ∧ (∀ p ∈ GX ++ GZ, IsCombination M p) ∧ GX.length = g} g

theorem mem_centralizer {M : Rows F (n + n)} {p : Fin (n + n) → F} :
    p ∈ kernel (M.map symplecticConjugate) ↔ ∀ r ∈ M, sform r p = 0 := mem_kernel_conj

theorem finrank_centralizer (M : Rows F (n + n)) :
    Module.finrank F (kernel (M.map symplecticConjugate)) + rank M = n + n := by
  have := finrank_kernel (M.map symplecticConjugate)
  rwa [rank_conj] at this

theorem sPerp_rowSpan (M : Rows F (n + n)) : sPerp (rowSpan M) = kernel (M.map symplecticConjugate) := by
  ext p
  rw [mem_sPerp, mem_kernel_conj]
  exact ⟨fun h r hr => h r (subset_rowSpan hr), fun h q hq => sform_span_left h hq⟩

theorem sPerp_centralizer (M : Rows F (n + n)) : sPerp (kernel (M.map symplecticConjugate)) = rowSpan M := by
  have hle : rowSpan M ≤ sPerp (kernel (M.map symplecticConjugate)) := by
    intro p hp q hq
    rw [sform_comm, sform_span_left (mem_kernel_conj.1 hq) hp, neg_zero]
  obtain ⟨L, hL⟩ : ∃ L : Rows F (n + n), rowSpan L = kernel (M.map symplecticConjugate) :=
    ⟨_, rowSpan_nullSpace _⟩
  have h1 := finrank_centralizer M
  have h2 := finrank_centralizer L
  rw [← sPerp_rowSpan, hL] at h2
  have h3 : rank L = Module.finrank F (kernel (M.map symplecticConjugate)) := by rw [← hL, finrank_rowSpan]
  refine (Submodule.eq_of_le_of_finrank_le hle ?_).symm
  have h4 : rank M = Module.finrank F (rowSpan M) := (finrank_rowSpan _).symm
  omega

/-- The stabilizers are what the generators and their centralizer have in common. -/
theorem stabs_eq (M : Rows F (n + n)) :
    rowSpan (subsystemStabilizers M) = rowSpan M ⊓ kernel (M.map symplecticConjugate) := by
  ext p
  rw [mem_subsystemStabilizers, Submodule.mem_inf, mem_kernel_conj]

theorem exists_logical (M : Rows F (n + n)) : ∃ LX LZ, IsLogicalBasis M LX LZ ∧
    rank M + rank (subsystemStabilizers M) + 2 * LX.length = 2 * n := by
  obtain ⟨LX, LZ, hb, hin, hc⟩ := exists_pairs (kernel (M.map symplecticConjugate))
  refine ⟨LX, LZ, ⟨hb.len, fun r hr l hl => mem_kernel_conj.1 (hin l (List.mem_append_left _ hl)) r hr,
    fun r hr l hl => mem_kernel_conj.1 (hin l (List.mem_append_right _ hl)) r hr, hb.pair, hb.xx, hb.zz⟩, ?_⟩
  rw [sPerp_centralizer, inf_comm, ← stabs_eq] at hc
  have := finrank_centralizer M
  have h4 : rank (subsystemStabilizers M) = Module.finrank F (rowSpan (subsystemStabilizers M)) := (finrank_rowSpan _).symm
  omega

theorem exists_gauge (M : Rows F (n + n)) : ∃ GX GZ, IsLogicalBasis [] GX GZ ∧
    (∀ p ∈ GX ++ GZ, IsCombination M p) ∧ rank (subsystemStabilizers M) + 2 * GX.length = rank M := by
  obtain ⟨GX, GZ, hb, hin, hc⟩ := exists_pairs (rowSpan M)
  refine ⟨GX, GZ, hb, fun p hp => (isCombination_iff M p).2 (hin p hp), ?_⟩
  rw [sPerp_rowSpan, ← stabs_eq] at hc
  have h4 : rank (subsystemStabilizers M) = Module.finrank F (rowSpan (subsystemStabilizers M)) := (finrank_rowSpan _).symm
  have h5 : rank M = Module.finrank F (rowSpan M) := (finrank_rowSpan _).symm
  omega

theorem logical_le {M LX LZ : Rows F (n + n)} (h : IsLogicalBasis M LX LZ) :
    rank M + rank (subsystemStabilizers M) + 2 * LX.length ≤ 2 * n := by
  have hle : rowSpan (M ++ LX ++ LZ) ≤ kernel ((subsystemStabilizers M).map symplecticConjugate) := by
    rw [rowSpan_le]
    intro l hl
    rw [mem_kernel_conj]
    intro s hs
    obtain ⟨h1, h2⟩ := (mem_subsystemStabilizers M s).1 (subset_rowSpan hs)
    rcases List.mem_append.1 hl with hl | hl
    · rcases List.mem_append.1 hl with hl | hl
      · rw [sform_comm, h2 l hl, neg_zero]
      · exact sform_span_left (fun r hr => h.commX r hr l hl) h1
    · exact sform_span_left (fun r hr => h.commZ r hr l hl) h1
  have h1 := h.finrank_ge
  have h2 := finrank_centralizer (subsystemStabilizers M)
  have h3 := Submodule.finrank_mono hle
  omega

theorem gauge_le {M GX GZ : Rows F (n + n)} (h : IsLogicalBasis [] GX GZ)
    (hin : ∀ p ∈ GX ++ GZ, IsCombination M p) :
    rank (subsystemStabilizers M) + 2 * GX.length ≤ rank M := by
  have hin' : ∀ p ∈ GX ++ GZ, p ∈ rowSpan M := fun p hp => (isCombination_iff M p).1 (hin p hp)
  have hc : ∀ r ∈ subsystemStabilizers M, ∀ p ∈ GX ++ GZ, sform r p = 0 := by
    intro r hr p hp
    have h2 := ((mem_subsystemStabilizers M r).1 (subset_rowSpan hr)).2
    rw [sform_comm, sform_span_left h2 (hin' p hp), neg_zero]
  have hb : IsLogicalBasis (subsystemStabilizers M) GX GZ :=
    ⟨h.len, fun r hr p hp => hc r hr p (List.mem_append_left _ hp),
      fun r hr p hp => hc r hr p (List.mem_append_right _ hp), h.pair, h.xx, h.zz⟩
  have hle : rowSpan (subsystemStabilizers M ++ GX ++ GZ) ≤ rowSpan M := by
    rw [rowSpan_le]
    intro l hl
    rw [List.append_assoc] at hl
    rcases List.mem_append.1 hl with hl | hl
    · exact ((mem_subsystemStabilizers M l).1 (subset_rowSpan hl)).1
    · exact hin' l hl
  have h1 := hb.finrank_ge
  have h3 := Submodule.finrank_mono hle
  have h4 : rank M = Module.finrank F (rowSpan M) := (finrank_rowSpan _).symm
  omega

/-- **C105**: `dimension` of a subsystem code is the greatest number of logical qudits: of pairs of X and Z
operators that commute with all gauge generators and satisfy the relations of qudits. -/
theorem C105_logical (M : Rows F (n + n)) :
    IsLogicalNumber M (QCode.ofMatrix M (some true)).dimension := by
  obtain ⟨LX, LZ, hb, hc⟩ := exists_logical M
  have hk : (QCode.ofMatrix M (some true)).dimension = LX.length := by
    change subsystemDimension M = _
    unfold subsystemDimension
    rw [length_dropZero_rowReduce, length_subsystemStabilizers]
    omega
  rw [hk]
  refine ⟨⟨LX, LZ, hb, rfl⟩, ?_⟩
  rintro k ⟨LX', LZ', hb', rfl⟩
  have := logical_le hb'
  omega

/-- **C105**: `gauge_dimension` of a subsystem code is the greatest number of gauge qudits: of pairs of X and
Z operators in the gauge group that satisfy the relations of qudits. -/
theorem C105_gauge (M : Rows F (n + n)) :
    IsGaugeNumber M (QCode.ofMatrix M (some true)).gaugeDimension := by
  obtain ⟨GX, GZ, hb, hin, hc⟩ := exists_gauge M
  have hk : (QCode.ofMatrix M (some true)).gaugeDimension = GX.length := by
    change QLDPC.gaugeDimension M = _
    unfold QLDPC.gaugeDimension
    rw [length_dropZero_rowReduce, length_subsystemStabilizers]
    omega
  rw [hk]
  refine ⟨⟨GX, GZ, hb, hin, rfl⟩, ?_⟩
  rintro k ⟨GX', GZ', hb', hin', rfl⟩
  have := gauge_le hb' hin'
  omega

/-- **C105**: logical qudits, gauge qudits and stabilizers make up all qudits. -/
theorem C105_total (M : Rows F (n + n)) :
    let c := QCode.ofMatrix M (some true)
    c.dimension + c.gaugeDimension + c.stabilizerOps.length = n := by
  intro c
  change subsystemDimension M + QLDPC.gaugeDimension M + (subsystemStabilizers M).length = n
  obtain ⟨LX, LZ, -, h1⟩ := exists_logical M
  obtain ⟨GX, GZ, -, -, h2⟩ := exists_gauge M
  unfold subsystemDimension QLDPC.gaugeDimension
  rw [length_dropZero_rowReduce, length_subsystemStabilizers]
  omega

/-- **C105** for stabilizer codes: if the checks commute, the number of logical qudits is the same whether or
not the code is declared a subsystem code, and there are no gauge qudits. -/
theorem C105_stabilizer (M : Rows F (n + n)) (hM : AllCommute M) (sub : Option Bool) :
    IsLogicalNumber M (QCode.ofMatrix M sub).dimension ∧ (QCode.ofMatrix M sub).gaugeDimension = 0 ∧
      IsGaugeNumber M 0 ∧ (QCode.ofMatrix M sub).dimension + rank M = n := by
  have hr := rank_subsystemStabilizers hM
  have h1 := C105_logical M
  have h2 := C105_gauge M
  obtain ⟨LX, LZ, -, h3⟩ := exists_logical M
  have e1 : subsystemDimension M = LX.length := by
    unfold subsystemDimension
    rw [length_dropZero_rowReduce, length_subsystemStabilizers]
    omega
  have e2 : stabDimension M = LX.length := by
    unfold stabDimension
    rw [length_dropZero_rowReduce]
    omega
  have e3 : QLDPC.gaugeDimension M = 0 := by
    unfold QLDPC.gaugeDimension
    rw [length_dropZero_rowReduce, length_subsystemStabilizers]
    omega
  have e4 : (QCode.ofMatrix M sub).dimension = LX.length := by
    change (if (sub.getD (isSubsystem M)) = true then subsystemDimension M else stabDimension M) = _
    split <;> assumption
  have e5 : (QCode.ofMatrix M sub).gaugeDimension = 0 := by
    change (if (sub.getD (isSubsystem M)) = true then QLDPC.gaugeDimension M else 0) = 0
    split
    · exact e3
    · rfl
  change IsLogicalNumber M (subsystemDimension M) at h1
  change IsGaugeNumber M (QLDPC.gaugeDimension M) at h2
  rw [e4, e5]
  rw [e1] at h1
  rw [e3] at h2
  exact ⟨h1, rfl, h2, by omega⟩

/-- **C105** with the default of `is_subsystem_code`, for all checks. -/
theorem C105_default (M : Rows F (n + n)) : IsLogicalNumber M (QCode.ofMatrix M).dimension ∧
    IsGaugeNumber M (QCode.ofMatrix M).gaugeDimension := by
  by_cases hM : AllCommute M
  · obtain ⟨h1, h2, h3, -⟩ := C105_stabilizer M hM none
    exact ⟨h1, by rw [h2]; exact h3⟩
  · have : isSubsystem M = true := by
      rw [← Bool.not_eq_false, C17_subsystem]
      exact hM
    have e : QCode.ofMatrix M = QCode.ofMatrix M (some true) := by
      unfold QCode.ofMatrix
      rw [Option.getD_none, this, Option.getD_some]
    rw [e]
    exact ⟨C105_logical M, C105_gauge M⟩

/-- **C105**: whenever `get_code_params` of a new code returns, it returns the number of qudits and the number
of logical qudits; without logical qudits the distance is `nan`. -/
theorem C105_params (wb : ℕ) (els : List F) (M : Rows F (n + n)) (bound : Option ℤ) (cutoff : Option ℕ)
    (m k : ℕ) (d : Option ℕ) (h : (QCode.ofMatrix M).codeParams wb els bound cutoff = some (m, k, d)) :
    m = n ∧ IsLogicalNumber M k ∧ (k = 0 → d = none) := by
  have hdim := (C105_default M).1
  set c := QCode.ofMatrix M with hc
  have key : ∀ r : Option (Option ℕ) × QCode F n, c.getDistance wb els bound cutoff = r →
      r.1 ≠ none → r.2.dimension = c.dimension ∧ (c.dimension = 0 → r.1 = some none) := by
    intro r hr hne
    by_cases h0 : c.dimension = 0
    · have h2 : c.distIfKnown = (some none, { c with dist? := some none }) := by
        unfold QCode.distIfKnown
        rw [if_pos h0]
      have hr' : r = (some none, { c with dist? := some none }) := by
        rw [← hr]
        unfold QCode.getDistance QCode.distExact QCode.distBound
        cases boundTrials bound <;> simp only [h2]
      rw [hr']
      exact ⟨rfl, fun _ => rfl⟩
    · refine ⟨?_, fun h => absurd h h0⟩
      have h2 : c.distIfKnown = (none, c) := by
        unfold QCode.distIfKnown
        rw [if_neg h0]
        rfl
      have hexact : (c.distExact wb els).1 ≠ none → (c.distExact wb els).2.dimension = c.dimension := by
        unfold QCode.distExact
        simp only [h2]
        cases hL : c.getLogicalOps with
        | none => simp
        | some L =>
          have hLen : L.length / 2 = c.dimension := by
            by_cases hM : AllCommute M
            · obtain ⟨LX, LZ, h3, h4, -, h6⟩ := (stabOk_ofMatrix M hM).logicals
              rw [← hc, hL, Option.some.injEq] at h3
              rw [← hc] at h6
              rw [h3, List.length_append, ← h4.basis.len, h6]
              omega
            · have e : c = QCode.ofMatrix M (some true) := by
                rw [hc]
                unfold QCode.ofMatrix
                rw [Option.getD_none, Option.getD_some]
                congr 1
                rw [← Bool.not_eq_false, C17_subsystem]
                exact hM
              obtain ⟨LX, LZ, rfl, h3, h4, -⟩ := C70_pair_partial M L (by rw [← e]; exact hL)
              rw [List.length_append, h4, ← e] at *
              omega
          simp only
          split
          · simp
          · split
            · simp
            · intro _
              exact hLen
      rw [← hr] at hne ⊢
      unfold QCode.getDistance at hne ⊢
      cases hb : boundTrials bound with
      | none => simp only [hb] at hne ⊢; exact hexact hne
      | some t =>
        simp only
        unfold QCode.distBound
        simp only [h2]
        split
        · rfl
        · split
          · rfl
          · split <;> rfl
  unfold QCode.codeParams at h
  rcases hr : c.getDistance wb els bound cutoff with ⟨d', c'⟩
  rw [hr] at h
  cases d' with
  | none => cases h
  | some d' =>
    obtain ⟨k1, k2⟩ := key _ hr (by simp)
    simp only [Option.some.injEq, Prod.mk.injEq] at h k2
    obtain ⟨rfl, rfl, rfl⟩ := h
    change c'.dimension = c.dimension at k1
    refine ⟨rfl, by rw [k1]; exact hdim, fun h0 => k2 (by rw [← k1]; exact h0)⟩

/-- The Bacon-Shor code on a 2 × 2 grid has one logical qubit, one gauge qubit and two stabilizers. -/
example : let c := QCode.ofMatrix ([![1, 1, 0, 0, 0, 0, 0, 0], ![0, 0, 1, 1, 0, 0, 0, 0],
      ![0, 0, 0, 0, 1, 0, 1, 0], ![0, 0, 0, 0, 0, 1, 0, 1]] : Rows (ZMod 2) (4 + 4))
    c.isSub = true ∧ c.dimension = 1 ∧ c.gaugeDimension = 1 ∧ c.stabilizerOps.length = 2 := by
  decide +kernel

/-- A code whose parameters are returned, and checks that commute. -/
example : ((QCode.ofMatrix ([![1, 0, 0, 0], ![0, 1, 1, 0]] : Rows (ZMod 2) (2 + 2))).codeParams 64 [0, 1]
      none none).isSome = true ∧
    AllCommute ([![1, 1, 0, 0], ![0, 0, 1, 1]] : Rows (ZMod 2) (2 + 2)) := by
  refine ⟨by decide +kernel, ?_⟩
  unfold AllCommute
  decide +kernel

#print axioms C105_logical
#print axioms C105_gauge
#print axioms C105_total
#print axioms C105_stabilizer
#print axioms C105_default
#print axioms C105_params

/-! ### Instances of the theorems: concrete cases meet the hypotheses -/

example := C105_stabilizer ([Fin.append ![1, 0] ![0, 1], Fin.append ![0, 1] ![1, 0]] : Rows (ZMod 2) (2 + 2)) (by unfold AllCommute; decide +kernel) (some true)

example : True := by
  obtain ⟨⟨m, k, d⟩, h⟩ := Option.isSome_iff_exists.1 (show ((QCode.ofMatrix ([![1, 0, 0, 0], ![0, 1, 1, 0]] : Rows (ZMod 2) (2 + 2))).codeParams 64 [0, 1]
      none none).isSome = true by decide +kernel)
  have h1 := C105_params 64 [0, 1] _ none none m k d h
  trivial

end QLDPC.Props
