import Verif.Model.ProductFamilies
import Verif.Props.ProductDistance
import Verif.Props.Families
import Verif.Props.Simplex

/-!
# C78: surface and toric codes that are hypergraph products, Bacon-Shor codes and SHYPS codes
-/

namespace QLDPC.Props

open QLDPC QLDPC.Spec

set_option linter.unusedSectionVars false

variable {F : Type} [Field F] [DecidableEq F] {n m : ℕ}

theorem hgp_dimension (A : Rows F n) (B : Rows F m) :
    codeDim (hgpX id A B) + codeDim (hgpZ id A B) = n * m + A.length * B.length +
      (codeDim A * codeDim B + codeDim (transposeRows id A) * codeDim (transposeRows id B)) := by
  obtain ⟨-, h1, h2, -⟩ := C46_logicals A B
  rw [← h2, ← h1, Nat.add_comm]

theorem codeDim_transpose (A : Rows F n) : codeDim (transposeRows id A) + n = codeDim A + A.length := by
  have h1 := codeDim_add_rank A
  have h2 := codeDim_add_rank (transposeRows id A)
  rw [rank_transposeRows] at h2
  omega

theorem repetition_length {c : CCode F n} (hc : repetitionCode F n = some c) : c.matrix.length = n - 1 := by
  unfold repetitionCode at hc
  split at hc
  · cases hc
  · cases hc; simp

theorem isWord_ring_transpose (hn : 2 ≤ n) (w : Fin (ringCode F n).matrix.length → F) :
    IsWord (transposeRows id (ringCode F n).matrix) w ↔ ∃ x, w = fun _ => x := by
  have hl : (ringCode F n).matrix.length = n := by simp [ringCode]
  -- constant words satisfy all checks, and the code has dimension one
  have hone : (fun _ => 1) ∈ codeSpace (transposeRows id (ringCode F n).matrix) := by
    show _ ∈ kernel _
    rw [mem_kernel_transposeRows]
    intro k
    have hget : ∀ i : Fin (ringCode F n).matrix.length, (ringCode F n).matrix.get i k * 1 =
        (if i.val = k.val then 1 else 0) - (if i.val = (k.val + (n - 1)) % n then 1 else 0) := by
      intro i
      have hi : i.val < n := by have := i.isLt; omega
      have hk := k.isLt
      have e : (ringCode F n).matrix.get i k = edgeRow n i.val ((i.val + 1) % n) k := by
        show (((List.range n).map fun row => edgeRow n row ((row + 1) % n))[i.val]'(by simpa using hi)) k = _
        rw [List.getElem_map, List.getElem_range]
      rw [e, mul_one, edgeRow]
      have m1 : (i.val + 1) % n = if i.val + 1 = n then 0 else i.val + 1 := by
        split_ifs with h
        · rw [h, Nat.mod_self]
        · exact Nat.mod_eq_of_lt (by omega)
      have m2 : (k.val + (n - 1)) % n = if k.val = 0 then n - 1 else k.val - 1 := by
        split_ifs with h
        · rw [h, Nat.zero_add]; exact Nat.mod_eq_of_lt (by omega)
        · rw [show k.val + (n - 1) = (k.val - 1) + n by omega, Nat.add_mod_right]
          exact Nat.mod_eq_of_lt (by omega)
      rw [m1, m2]
      split_ifs <;> first | omega | simp
    rw [Finset.sum_congr rfl fun i _ => hget i, Finset.sum_sub_distrib]
    have s : ∀ t, t < n → ∑ i : Fin (ringCode F n).matrix.length, (if i.val = t then (1 : F) else 0) = 1 := by
      intro t ht
      rw [Finset.sum_eq_single ⟨t, by omega⟩]
      · simp
      · intro b _ hb
        rw [if_neg fun h => hb (Fin.ext h)]
      · intro h; exact absurd (Finset.mem_univ _) h
    rw [s _ k.isLt, s _ (Nat.mod_lt _ (by omega)), sub_self]
  have hd : codeDim (transposeRows id (ringCode F n).matrix) = 1 := by
    have h1 := codeDim_transpose (ringCode F n).matrix
    have h2 := (C30_ring_partial (F := F) n hn).2.1
    omega
  have hne : (fun _ => 1 : Fin (ringCode F n).matrix.length → F) ≠ 0 := fun h =>
    one_ne_zero (congrFun h ⟨0, by omega⟩)
  constructor
  · intro hw
    have := (finrank_eq_one_iff_of_nonzero' (⟨_, hone⟩ : codeSpace (transposeRows id (ringCode F n).matrix))
      (fun h => hne (congrArg Subtype.val h))).1 hd ⟨w, hw⟩
    obtain ⟨c, hc⟩ := this
    refine ⟨c, ?_⟩
    have hv : c • (fun _ => 1) = w := congrArg Subtype.val hc
    rw [← hv]
    funext i
    simp
  · rintro ⟨x, rfl⟩
    have : (fun _ => x) = x • (fun _ => 1 : Fin (ringCode F n).matrix.length → F) := by funext i; simp
    rw [this]
    exact (codeSpace _).smul_mem x hone

/-- **C78**: the surface code that is not rotated has the recorded parameters, for all side lengths. -/
theorem C78_surface (rows cols : ℕ) (hr : 1 ≤ rows) (hc : 1 ≤ cols) :
    ∃ code, planarSurfaceCode F rows cols = some code ∧ code.1 = rows * cols + (rows - 1) * (cols - 1) ∧
      HasParameters code.2.hx code.2.hz code.2.dimension code.2.distX code.2.distZ ∧
      code.2.dimension = 1 ∧ code.2.distX = cols ∧ code.2.distZ = rows := by
  obtain ⟨a, ha, -, da, -, ma, -⟩ := C30_repetition (F := F) rows hr
  obtain ⟨b, hb, -, db, -, mb, -⟩ := C30_repetition (F := F) cols hc
  have la := repetition_length ha
  have lb := repetition_length hb
  obtain ⟨dx, dz⟩ := C77_hgp_independent a.matrix b.matrix ma mb (by omega) (by omega)
  refine ⟨_, by unfold planarSurfaceCode; rw [ha, hb], by simp only; rw [la, lb], ⟨C46_checks_commute _ _, ?_, dx, dz⟩, rfl, rfl, rfl⟩
  have h1 := codeDim_transpose a.matrix
  have h2 := hgp_dimension a.matrix b.matrix
  have h3 : codeDim (transposeRows id a.matrix) = 0 := by omega
  rw [h3, da, db, zero_mul] at h2
  exact h2

/-- **C78**: the toric code that is not rotated has the recorded parameters if both sides are at least 2. -/
theorem C78_toric_partial (rows cols : ℕ) (hr : 2 ≤ rows) (hc : 2 ≤ cols) :
    let code := planarToricCode F rows cols
    code.1 = 2 * rows * cols ∧
      HasParameters code.2.hx code.2.hz code.2.dimension code.2.distX code.2.distZ ∧
      code.2.dimension = 2 ∧ code.2.distX = min rows cols ∧ code.2.distZ = min rows cols := by
  obtain ⟨-, da, -, ma, -⟩ := C30_ring_partial (F := F) rows hr
  obtain ⟨-, db, -, mb, -⟩ := C30_ring_partial (F := F) cols hc
  have la : (ringCode F rows).matrix.length = rows := by simp [ringCode]
  have lb : (ringCode F cols).matrix.length = cols := by simp [ringCode]
  have ta : IsMinDistance (transposeRows id (ringCode F rows).matrix) rows := by
    convert minDistance_constant (by omega) (isWord_ring_transpose (F := F) hr) using 1; exact la.symm
  have tb : IsMinDistance (transposeRows id (ringCode F cols).matrix) cols := by
    convert minDistance_constant (by omega) (isWord_ring_transpose (F := F) hc) using 1; exact lb.symm
  obtain ⟨dx, dz⟩ := C77_hgp _ _ ma mb ta tb
  refine ⟨?_, ⟨C46_checks_commute _ _, ?_, ?_, dz⟩, rfl, rfl, rfl⟩
  · show rows * cols + _ = _
    rw [la, lb]; ring
  · have h1 := codeDim_transpose (ringCode F rows).matrix
    have h1' := codeDim_transpose (ringCode F cols).matrix
    have h2 := hgp_dimension (ringCode F rows).matrix (ringCode F cols).matrix
    have h3 : codeDim (transposeRows id (ringCode F rows).matrix) = 1 := by omega
    have h4 : codeDim (transposeRows id (ringCode F cols).matrix) = 1 := by omega
    rw [h3, h4, da, db] at h2
    exact h2
  · show IsXDistance _ _ (min rows cols)
    rw [min_comm]; exact dx

/-- **C78** fails for side length 1: every operator that commutes with the Z checks of `ToricCode(1, rotated=False)`
is a product of X checks, yet two logical qudits and distance 1 are recorded. -/
theorem C78_toric_disagreement : (planarToricCode F 1 1).2.dimension = 2 ∧ (planarToricCode F 1 1).2.distX = 1 ∧
    ∀ v, ¬ IsNontrivialX (planarToricCode F 1 1).2.hx (planarToricCode F 1 1).2.hz v := by
  refine ⟨rfl, rfl, fun v hv => ?_⟩
  have h0 : ∀ u, ¬ (IsWord (ringCode F 1).matrix u ∧ u ≠ 0) := by
    rintro u ⟨hu, hu0⟩
    refine hu0 (funext fun i => ?_)
    have := hu (edgeRow 1 0 0) (by simp [ringCode])
    simp only [edgeRow, Finset.univ_unique, Fin.default_eq_zero, Finset.sum_singleton, Fin.val_zero,
      if_pos, neg_mul, one_mul, neg_eq_zero] at this
    rw [Subsingleton.elim i 0, this]; rfl
  have hd : codeDim (transposeRows id (ringCode F 1).matrix) = 0 := by
    have h1 := codeDim_transpose (ringCode F 1).matrix
    have h2 : (ringCode F 1).matrix.length = 1 := by simp [ringCode]
    have h3 : codeDim (ringCode F 1).matrix = 0 := by
      unfold codeDim
      rw [Submodule.finrank_eq_zero, eq_bot_iff]
      intro u hu
      by_contra hne
      exact h0 u ⟨hu, hne⟩
    omega
  have hS : pairedWeights (ringCode F 1).matrix (ringCode F 1).matrix ∪
      pairedWeights (transposeRows id (ringCode F 1).matrix) (transposeRows id (ringCode F 1).matrix) = ∅ := by
    rw [pairedWeights_eq_empty hd, Set.union_empty]
    ext w
    simp only [Set.mem_empty_iff_false, iff_false]
    rintro ⟨⟨u, hu⟩, -⟩
    exact h0 u hu
  have hne : {k | ∃ v, IsNontrivialX (planarToricCode F 1 1).2.hx (planarToricCode F 1 1).2.hz v ∧
      k = hammingNorm v}.Nonempty := ⟨_, v, hv, rfl⟩
  have hl : IsXDistance (planarToricCode F 1 1).2.hx (planarToricCode F 1 1).2.hz _ := ⟨Nat.sInf_mem hne, fun k hk => Nat.sInf_le hk⟩
  have := (C77_hgp_x (ringCode F 1).matrix (ringCode F 1).matrix _).1 hl
  rw [hS] at this
  exact this.1

/-- What is recorded for a subsystem code describes it: the stabilizers generate all products of gauge generators
that commute with the gauge generators, the logical operators are a symplectic basis of bare logical operators,
as many as the dimension computed from the gauge generators, and the distances are `dx` and `dz`. -/
structure DescribesSubsystem {N : ℕ} (code : KnownSubsystem F N) (k dx dz : ℕ) : Prop where
  stabsX : ∀ v, IsCombination code.stabs.1 v ↔ IsStabX code.hx code.hz v
  stabsZ : ∀ v, IsCombination code.stabs.2 v ↔ IsStabX code.hz code.hx v
  logicals : IsCssLogicalBasis code.hx code.hz code.logicals.1 code.logicals.2
  count : code.logicals.1.length = k
  dimension : cssDimension code.hx code.hz true = k
  distance_x : IsXDistance code.hx code.hz dx
  distance_z : IsXDistance code.hz code.hx dz

theorem shpCode_describes {a : CCode F n} {b : CCode F m} (ga : a.gen? = none) (gb : b.gen? = none)
    {dA dB : ℕ} (ha : IsMinDistance a.matrix dA) (hb : IsMinDistance b.matrix dB) :
    DescribesSubsystem (shpCode a b) (codeDim a.matrix * codeDim b.matrix) dB dA := by
  have ga' : a.generator = (CCode.ofMatrix a.matrix).generator := by unfold CCode.generator; rw [ga]; rfl
  have gb' : b.generator = (CCode.ofMatrix b.matrix).generator := by unfold CCode.generator; rw [gb]; rfl
  have hs := C48_stabilizers a b (by rw [ga']; exact C48_generator a.matrix) (by rw [gb']; exact C48_generator b.matrix)
  obtain ⟨h1, h2, h3⟩ := C48_logicals a.matrix b.matrix
  have e : shpLogicals a b = shpLogicals (CCode.ofMatrix a.matrix) (CCode.ofMatrix b.matrix) := by
    unfold shpLogicals; rw [ga', gb']
  have hd := C77_shp a.matrix b.matrix ha hb
  refine ⟨hs.1, hs.2, ?_, ?_, h3, hd.1, hd.2⟩
  · show IsCssLogicalBasis _ _ (shpLogicals a b).1 (shpLogicals a b).2
    rw [e]; exact h1
  · show (shpLogicals a b).1.length = _
    rw [e]; exact h2

/-- **C78**: the Bacon-Shor code on any lattice encodes one qudit, with X distance the number of columns and Z
distance the number of rows. -/
theorem C78_bacon_shor (rows : ℕ) (cols : Option ℕ) (hr : 1 ≤ rows) (hc : 1 ≤ cols.getD rows) :
    ∃ code, baconShorCode F rows cols = some code ∧ code.1 = rows * cols.getD rows ∧
      DescribesSubsystem code.2 1 (cols.getD rows) rows := by
  obtain ⟨a, ha, -, da, -, ma, -⟩ := C30_repetition (F := F) rows hr
  obtain ⟨b, hb, -, db, -, mb, -⟩ := C30_repetition (F := F) (cols.getD rows) hc
  have hg : ∀ {k : ℕ} {c : CCode F k}, repetitionCode F k = some c → c.gen? = none := by
    intro k c h
    unfold repetitionCode at h
    split at h
    · cases h
    · cases h; rfl
  have := shpCode_describes (hg ha) (hg hb) ma mb
  rw [da, db] at this
  exact ⟨⟨_, shpCode a b⟩, by unfold baconShorCode; rw [ha, hb], rfl, this⟩

/-- **C78**: SHYPS codes exist for dimensions 2 to 7; the recorded dimension and distances are right. -/
theorem C78_shyps (hbin : ∀ x : F, x = 0 ∨ x = 1) (dimX : ℕ) (dimZ : Option ℕ) :
    ((∃ code, shypsCode F dimX dimZ = some code) ↔
      (2 ≤ dimX ∧ dimX ≤ 7) ∧ 2 ≤ dimZ.getD dimX ∧ dimZ.getD dimX ≤ 7) ∧
    ∀ code, shypsCode F dimX dimZ = some code →
      code.1 = (2 ^ dimX - 1) * (2 ^ dimZ.getD dimX - 1) ∧
      DescribesSubsystem code.2 (dimX * dimZ.getD dimX) (2 ^ (dimZ.getD dimX - 1)) (2 ^ (dimX - 1)) ∧
      code.2.dim? = some (dimX * dimZ.getD dimX) ∧
      code.2.distX? = some (some (2 ^ (dimZ.getD dimX - 1))) ∧ code.2.distZ? = some (some (2 ^ (dimX - 1))) := by
  rw [← C75_exists (F := F), ← C75_exists (F := F)]
  unfold shypsCode
  cases ha : simplexCode F dimX with
  | none => simp
  | some a =>
    cases hb : simplexCode F (dimZ.getD dimX) with
    | none => simp
    | some b =>
      refine ⟨by simp, ?_⟩
      rintro code h
      cases h
      obtain ⟨da, -, -, ma, ea⟩ := C75_parameters hbin dimX a ha
      obtain ⟨db, -, -, mb, eb⟩ := C75_parameters hbin _ b hb
      have hg : ∀ {k : ℕ} {c}, simplexCode F k = some c → c.gen? = none := by
        intro k c h
        unfold simplexCode at h
        rw [Option.map_eq_some_iff] at h
        obtain ⟨s, -, rfl⟩ := h
        rfl
      have := shpCode_describes (hg ha) (hg hb) ma mb
      rw [da, db] at this
      exact ⟨rfl, ⟨this.1, this.2, this.3, this.4, this.5, this.6, this.7⟩, rfl, eb, ea⟩

example : ∃ code, planarSurfaceCode (ZMod 3) 3 4 = some code ∧ code.1 = 18 ∧ code.2.distX = 4 := by
  obtain ⟨c, h1, h2, -, -, h3, -⟩ := C78_surface (F := ZMod 3) 3 4 (by norm_num) (by norm_num)
  exact ⟨c, h1, h2, h3⟩

example : ∃ code, shypsCode (ZMod 2) 3 (some 2) = some code ∧ code.1 = 21 := by
  obtain ⟨h1, h2⟩ := C78_shyps (F := ZMod 2) (by decide) 3 (some 2)
  obtain ⟨c, hc⟩ := h1.2 (by decide)
  exact ⟨c, hc, (h2 c hc).1⟩

#print axioms C78_surface
#print axioms C78_toric_partial
#print axioms C78_toric_disagreement
#print axioms C78_bacon_shor
#print axioms C78_shyps

/-! ### Instances of the theorems: concrete cases meet the hypotheses -/

example := C78_toric_partial (F := ZMod 2) 3 4 (by decide) (by decide)
example := C78_bacon_shor (F := ZMod 3) 3 (some 4) (by decide) (by decide)

end QLDPC.Props
