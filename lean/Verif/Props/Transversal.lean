import Verif.Lemmas.TransversalSearch
import Verif.Lemmas.StdStabilizer
import Verif.Lemmas.GeneralEncoders
import Verif.Lemmas.Stack
import Verif.Props.Encoding
import Verif.Props.Circuits

/-!
# Transversal logical gates (C81, C82)
-/

namespace QLDPC.Props

open QLDPC QLDPC.Spec

variable {n : ℕ}

/-! ## Codes and their encoders -/

/-- The reduced stabilizers of a stabilizer code. -/
abbrev stabs (M : Rows (ZMod 2) (n + n)) : Rows (ZMod 2) (n + n) := dropZero (rowReduce M)

theorem stabs_frame (M : Rows (ZMod 2) (n + n)) (hM : AllCommute M) :
    ∃ LX LZ D, (QCode.ofMatrix M (some false)).encodingTableau = some (LX ++ D, LZ ++ stabs M) ∧
      (QCode.ofMatrix M (some false)).getLogicalOps = some (LX ++ LZ) ∧
      LX.length = (QCode.ofMatrix M (some false)).dimension ∧ LX.length + rank M = n ∧ IsLogicalBasis M LX LZ ∧
      Frame (stabs M) LX LZ [] [] D ∧ rowSpan (stabs M) = rowSpan M := by
  obtain ⟨LX, LZ, D, S, h1, h2, h3, h4, h5, rfl, h6, h7, h8⟩ := C61_stabilizer M hM
  refine ⟨LX, LZ, D, h1, h2, h3, h5, h6, ⟨by simpa using h7, h4, rfl⟩, ?_⟩
  ext p
  rw [← isCombination_iff, ← isCombination_iff, h8]

/-- Bits of conjugated operators, as a linear map. -/
def opMapₗ (T : Tableau n) : (Fin (n + n) → ZMod 2) →ₗ[ZMod 2] (Fin (n + n) → ZMod 2) where
  toFun := T.opMap
  map_add' u v := by
    rw [opMap_eq, opMap_eq, opMap_eq]
    simp only [SPauli.xPart_add, SPauli.zPart_add, add_smul, Finset.sum_add_distrib]
    abel
  map_smul' a u := by
    rw [opMap_eq, opMap_eq, smul_add, Finset.smul_sum, Finset.smul_sum]
    simp only [RingHom.id_apply, smul_smul]
    rfl

theorem mem_rowSpan_opMap {T : Tableau n} (hT : T.Valid) (M : Rows (ZMod 2) (n + n)) (u : Fin (n + n) → ZMod 2) :
    T.opMap u ∈ rowSpan (M.map T.opMap) ↔ u ∈ rowSpan M := by
  have e : M.map T.opMap = M.map (opMapₗ T) := rfl
  rw [e, rowSpan_map]
  constructor
  · rintro ⟨v, hv, e⟩
    rw [← hT.opMap_inj e]; exact hv
  · intro hu
    exact ⟨u, hu, rfl⟩

theorem deformString_eq (T : Tableau n) (M : Rows (ZMod 2) (n + n)) :
    (M.map fun r => (T.apply (SPauli.plus r)).op) = M.map T.opMap :=
  List.map_congr_left fun r _ => Tableau.apply_op _ _

/-- Encoders of deformed codes. -/
theorem deformed_frame {M : Rows (ZMod 2) (n + n)} (hM : AllCommute M) {LX LZ : Rows (ZMod 2) (n + n)}
    (hops : (QCode.ofMatrix M (some false)).getLogicalOps = some (LX ++ LZ))
    (hk : LX.length = (QCode.ofMatrix M (some false)).dimension) (hn : LX.length + rank M = n) (hL : IsLogicalBasis M LX LZ)
    {circ : List Instr} {d : QCode (ZMod 2) n} (hd : (QCode.ofMatrix M (some false)).deformed circ true = some d) :
    ∃ D', d.encodingTableau = some (LX ++ D', LZ ++ stabs (M.map (circuitTableau n circ).opMap)) ∧
      IsLogicalBasis (M.map (circuitTableau n circ).opMap) LX LZ ∧
      Frame (stabs (M.map (circuitTableau n circ).opMap)) LX LZ [] [] D' ∧
      rowSpan (stabs (M.map (circuitTableau n circ).opMap)) = rowSpan (M.map (circuitTableau n circ).opMap) := by
  have hV := circuitTableau_valid (n := n) circ
  unfold QCode.deformed at hd
  simp only [if_true] at hd
  rw [hops, Option.bind_some, deformString_eq (circuitTableau n circ)] at hd
  cases he : (QCode.ofMatrix ((QCode.ofMatrix M (some false)).matrix.map (circuitTableau n circ).opMap)
      (some (QCode.ofMatrix M (some false)).isSub)).setLogicalOps (LX ++ LZ) with
  | error e => rw [he] at hd; simp [Except.toOption] at hd
  | ok d' =>
    rw [he] at hd
    simp only [Except.toOption, Option.some.injEq] at hd
    subst hd
    obtain ⟨LX', LZ', e0, e1, e2, e3, e4, e5, e6, e7⟩ := C21_accepted_partial _ _ _ he
    have hr : rank (M.map (circuitTableau n circ).opMap) = rank M := by
      have e : M.map (circuitTableau n circ).opMap = M.map (opMapₗ (circuitTableau n circ)) := rfl
      rw [← finrank_rowSpan, ← finrank_rowSpan, e, rowSpan_map]
      exact (LinearEquiv.finrank_eq (Submodule.equivMapOfInjective (opMapₗ (circuitTableau n circ)) hV.opMap_inj (rowSpan M))).symm
    have e6' : d'.matrix = M.map (circuitTableau n circ).opMap := e6
    have hLX : LX.length = LX'.length := by
      have := congrArg List.length e0
      rw [List.length_append, List.length_append, ← hL.len] at this
      omega
    have hdim : LX.length = d'.dimension := by rw [hLX, e1, e7]
    have hcm : AllCommute d'.matrix := by
      rw [e6']
      intro p hp q hq
      obtain ⟨p, hp', rfl⟩ := List.mem_map.1 hp
      obtain ⟨q, hq', rfl⟩ := List.mem_map.1 hq
      rw [hV.sform_opMap]; exact hM p hp' q hq'
    have hcm' : ∀ r ∈ d'.matrix, ∀ l ∈ LX ++ LZ, sform r l = 0 := by rw [e6]; exact e3
    have hlog : IsLogicalBasis d'.matrix LX LZ :=
      { len := hL.len, pair := hL.pair, xx := hL.xx, zz := hL.zz
        commX := fun r hr l hl => hcm' r hr l (List.mem_append_left _ hl)
        commZ := fun r hr l hl => hcm' r hr l (List.mem_append_right _ hl) }
    obtain ⟨D', h1, h2, h3⟩ := C61_stored d' (setLogicalOps_isSub he) hcm e5 hlog hdim (by rw [e6', hr, hn])
    rw [e6'] at h1 h2 h3 hlog
    refine ⟨D', h1, hlog, ⟨by simpa using h2, hL.len, rfl⟩, ?_⟩
    ext p
    rw [← isCombination_iff, ← isCombination_iff, h3]

theorem deformed_iff {M LX LZ : Rows (ZMod 2) (n + n)}
    (hops : (QCode.ofMatrix M (some false)).getLogicalOps = some (LX ++ LZ))
    (hk : LX.length = (QCode.ofMatrix M (some false)).dimension) (hL : IsLogicalBasis M LX LZ) (circ : List Instr) :
    (∃ d, (QCode.ofMatrix M (some false)).deformed circ true = some d) ↔
      ∀ r ∈ M, ∀ l ∈ LX ++ LZ, sform ((circuitTableau n circ).opMap r) l = 0 := by
  have hV := circuitTableau_valid (n := n) circ
  unfold QCode.deformed
  simp only [if_true]
  rw [hops, Option.bind_some, deformString_eq (circuitTableau n circ)]
  have hr : rank (M.map (circuitTableau n circ).opMap) = rank M := by
    have e : M.map (circuitTableau n circ).opMap = M.map (opMapₗ (circuitTableau n circ)) := rfl
    rw [← finrank_rowSpan, ← finrank_rowSpan, e, rowSpan_map]
    exact (LinearEquiv.finrank_eq (Submodule.equivMapOfInjective (opMapₗ (circuitTableau n circ)) hV.opMap_inj (rowSpan M))).symm
  constructor
  · rintro ⟨d, hd⟩
    cases he : (QCode.ofMatrix ((QCode.ofMatrix M (some false)).matrix.map (circuitTableau n circ).opMap)
        (some (QCode.ofMatrix M (some false)).isSub)).setLogicalOps (LX ++ LZ) with
    | error e => rw [he] at hd; simp [Except.toOption] at hd
    | ok d' =>
      obtain ⟨LX', LZ', -, -, -, e3, -⟩ := C21_accepted_partial _ _ _ he
      intro r hr l hl
      exact e3 _ (List.mem_map_of_mem hr) l hl
  · intro h
    obtain ⟨d, hd⟩ := C21_accepts (QCode.ofMatrix ((QCode.ofMatrix M (some false)).matrix.map (circuitTableau n circ).opMap)
        (some (QCode.ofMatrix M (some false)).isSub)) LX LZ
      { len := hL.len, pair := hL.pair, xx := hL.xx, zz := hL.zz
        commX := fun r hr l hl => by
          obtain ⟨r, hr', rfl⟩ := List.mem_map.1 hr
          exact h r hr' l (List.mem_append_left _ hl)
        commZ := fun r hr l hl => by
          obtain ⟨r, hr', rfl⟩ := List.mem_map.1 hr
          exact h r hr' l (List.mem_append_right _ hl) }
      (by
        rw [hk]
        change stabDimension M = stabDimension (M.map (circuitTableau n circ).opMap)
        unfold stabDimension
        rw [dropZero_rowReduce, dropZero_rowReduce, List.length_map, List.length_map]
        change n - rank M = n - rank (M.map (circuitTableau n circ).opMap)
        rw [hr])
    exact ⟨d, by rw [hd]; rfl⟩

theorem frame_nil (S LX LZ D : Rows (ZMod 2) (n + n)) : frameTableau S LX LZ [] [] D = tableauOf (LX ++ D) (LZ ++ S) := by
  unfold frameTableau
  rw [List.append_nil, List.append_nil]

theorem css_frame (c : CssCode (ZMod 2) n) (h : CssOk c) :
    ∃ LX LZ GX GZ D, c.encodingTableau = some (LX ++ GX ++ D, LZ ++ GZ ++ c.canonicalStabs) ∧
      (∃ L, c.logicals = some L ∧ xzRows L = LX ++ LZ) ∧ LX.length = c.dimension ∧ GX.length = c.gaugeDimension ∧
      Frame c.canonicalStabs LX LZ GX GZ D ∧
      rowSpan (c.canonicalStabs ++ GX ++ GZ) = rowSpan (blockDiag2 c.hx c.hz) := by
  obtain ⟨LX, LZ, GX, GZ, D, S, h1, h2, -, h3, h4, h5, h6, rfl, h7, -, h8⟩ := C61_css c h
  refine ⟨LX, LZ, GX, GZ, D, h1, h2, h3, h5, ⟨h7, h4, h6⟩, ?_⟩
  ext p
  rw [← isCombination_iff, h8, mem_rowSpan_blockDiag2, isCombination_iff, isCombination_iff]

/-- The common part of all cases. -/
theorem data_core {S LX LZ GX GZ D S' GX' GZ' D' : Rows (ZMod 2) (n + n)} (h : Frame S LX LZ GX GZ D)
    (h' : Frame S' LX LZ GX' GZ' D') (hg : GX.length = GX'.length) {k g : ℕ} (hk : LX.length = k) (hgd : GX.length = g)
    {c : List Instr} (hc : ∀ u, (circuitTableau n c).opMap u ∈ rowSpan (S' ++ GX' ++ GZ') ↔ u ∈ rowSpan (S ++ GX ++ GZ)) :
    ∃ T c', ∃ u : Fin (n + n) → ZMod 2, automorphismData k g (frameTableau S LX LZ GX GZ D)
      (frameTableau S' LX LZ GX' GZ' D').inverse c = some (T, c') ∧ c' = pauliStringCircuit u ++ c ∧ T.Valid ∧
      ImplementsLogical S S' LX LZ (circuitTableau n c').apply T.apply := by
  subst hk hgd
  exact h.data h' hg ((h.sectors_iff h' hg c).2 hc)

theorem tableau_core {S LX LZ GX GZ D S' GX' GZ' D' : Rows (ZMod 2) (n + n)} (h : Frame S LX LZ GX GZ D)
    (h' : Frame S' LX LZ GX' GZ' D') (hg : GX.length = GX'.length) {k g : ℕ} (hk : LX.length = k) (hgd : GX.length = g)
    (c : List Instr) :
    ((∃ T, logicalTableau k g (frameTableau S LX LZ GX GZ D) (frameTableau S' LX LZ GX' GZ' D').inverse c = some T) ↔
      ∀ u, (circuitTableau n c).opMap u ∈ rowSpan (S' ++ GX' ++ GZ') ↔ u ∈ rowSpan (S ++ GX ++ GZ)) ∧
    ∀ T, logicalTableau k g (frameTableau S LX LZ GX GZ D) (frameTableau S' LX LZ GX' GZ' D').inverse c = some T →
      T.Valid ∧ ∀ P, ∃ s, SPauli.InStabilizerGroup S' s ∧
        (circuitTableau n c).apply (SPauli.logical LX LZ P) = SPauli.logical LX LZ (T.apply P) * s := by
  subst hk hgd
  exact ⟨h.logicalTableau_iff h' hg c, fun T e => h.logicalTableau_spec h' hg c e⟩

/-- Circuits of automorphisms preserve the row span of the parity checks. -/
theorem aut_span {g : GateSet} {σ : Equiv.Perm (Fin (g.numSectors * n))}
    (hσ : σ ∈ Subgroup.closure {τ | τ ∈ columnPerms g g.numSectors n}) {matrix : Rows (ZMod 2) (n + n)}
    (haut : ∀ c, IsWord (instrumental g (effectiveChecks matrix [] false)) c →
      IsWord (instrumental g (effectiveChecks matrix [] false)) (c ∘ σ)) :
    ∃ circ, automorphismCircuit g n (callPerm σ) = some circ ∧
      ∀ u, (circuitTableau n (circ.map Instr.gate)).opMap u ∈ rowSpan matrix ↔ u ∈ rowSpan matrix := by
  obtain ⟨circ, h1, h2⟩ := C63_checks hσ matrix [] haut
  refine ⟨circ, h1, fun u => ?_⟩
  rw [opMap_circuit circ (automorphismCircuit_inRange h1), ← isCombination_iff, ← isCombination_iff, h2]

/-! ## C81: what the circuits do -/

/-- **C81** for stabilizer codes.  For every automorphism of the instrumental code that the gate set generates: the call
succeeds; the circuit is the circuit of the automorphism behind Pauli gates; it maps the stabilizer group to itself,
with signs, and acts on logical operators as the returned tableau says, with signs.  The signs are those of the
row-reduced stabilizers. -/
theorem C81_stabilizer (M : Rows (ZMod 2) (n + n)) (hM : AllCommute M) {g : GateSet}
    {σ : Equiv.Perm (Fin (g.numSectors * n))} (hσ : σ ∈ Subgroup.closure {τ | τ ∈ columnPerms g g.numSectors n})
    (haut : ∀ c, IsWord (instrumental g (effectiveChecks M [] false)) c →
      IsWord (instrumental g (effectiveChecks M [] false)) (c ∘ σ)) :
    ∃ LX LZ circ T, ∃ u : Fin (n + n) → ZMod 2, (QCode.ofMatrix M (some false)).getLogicalOps = some (LX ++ LZ) ∧
      LX.length = (QCode.ofMatrix M (some false)).dimension ∧ LX.length = LZ.length ∧
      automorphismCircuit g n (callPerm σ) = some circ ∧
      (QCode.ofMatrix M (some false)).transversalData g false (callPerm σ) =
        some (T, pauliStringCircuit u ++ circ.map Instr.gate) ∧ T.Valid ∧
      ImplementsLogical (stabs M) (stabs M) LX LZ
        (circuitTableau n (pauliStringCircuit u ++ circ.map Instr.gate)).apply T.apply := by
  obtain ⟨LX, LZ, D, h1, h2, h3, h4, h5, hF, hS⟩ := stabs_frame M hM
  obtain ⟨circ, e, hc⟩ := aut_span hσ haut
  obtain ⟨T, c', u, e1, rfl, e3, e4⟩ := data_core hF hF rfl h3 rfl (c := circ.map Instr.gate) (by
    simpa only [List.append_nil, hS] using hc)
  refine ⟨LX, LZ, circ, T, u, h2, h3, hF.lenL, e, ?_, e3, e4⟩
  unfold QCode.transversalData QCode.encoderDecoder
  rw [e, Option.bind_some, h1, Option.bind_some]
  simp only [Bool.false_eq_true, if_false, Option.bind_some]
  rw [← frame_nil]
  exact e1

/-- **C81** for CSS codes, both stabilizer codes and subsystem codes. -/
theorem C81_css (c : CssCode (ZMod 2) n) (h : CssOk c) {g : GateSet}
    {σ : Equiv.Perm (Fin (g.numSectors * n))} (hσ : σ ∈ Subgroup.closure {τ | τ ∈ columnPerms g g.numSectors n})
    (haut : ∀ w, IsWord (instrumental g (effectiveChecks (blockDiag2 c.hx c.hz) [] false)) w →
      IsWord (instrumental g (effectiveChecks (blockDiag2 c.hx c.hz) [] false)) (w ∘ σ)) :
    ∃ LX LZ circ T, ∃ u : Fin (n + n) → ZMod 2, (∃ L, c.logicals = some L ∧ xzRows L = LX ++ LZ) ∧
      LX.length = c.dimension ∧ LX.length = LZ.length ∧ automorphismCircuit g n (callPerm σ) = some circ ∧
      c.transversalData g false (callPerm σ) = some (T, pauliStringCircuit u ++ circ.map Instr.gate) ∧ T.Valid ∧
      ImplementsLogical c.canonicalStabs c.canonicalStabs LX LZ
        (circuitTableau n (pauliStringCircuit u ++ circ.map Instr.gate)).apply T.apply := by
  obtain ⟨LX, LZ, GX, GZ, D, h1, h2, h3, h4, hF, hS⟩ := css_frame c h
  obtain ⟨circ, e, hc⟩ := aut_span hσ haut
  obtain ⟨T, c', u, e1, rfl, e3, e4⟩ := data_core hF hF rfl h3 h4 (c := circ.map Instr.gate) (by rw [hS]; exact hc)
  refine ⟨LX, LZ, circ, T, u, h2, h3, hF.lenL, e, ?_, e3, e4⟩
  unfold CssCode.transversalData CssCode.encoderDecoder
  rw [e, Option.bind_some, h1, Option.bind_some]
  exact e1

/-- **C81** if the code may be deformed: whenever the call succeeds, for whatever permutation, the circuit maps the
stabilizers to those of the deformed code and acts on the logical operators, which are the same for both codes, as the
returned tableau says. -/
theorem C81_deform (M : Rows (ZMod 2) (n + n)) (hM : AllCommute M) {g : GateSet} {σ : ℕ → ℕ}
    {d : Tableau (QCode.ofMatrix M (some false)).dimension × List Instr}
    (hd : (QCode.ofMatrix M (some false)).transversalData g true σ = some d) :
    ∃ LX LZ circ, ∃ u : Fin (n + n) → ZMod 2, (QCode.ofMatrix M (some false)).getLogicalOps = some (LX ++ LZ) ∧
      LX.length = (QCode.ofMatrix M (some false)).dimension ∧ LX.length = LZ.length ∧
      automorphismCircuit g n σ = some circ ∧ d.2 = pauliStringCircuit u ++ circ.map Instr.gate ∧ d.1.Valid ∧
      IsLogicalBasis (M.map (conjugateBy circ)) LX LZ ∧
      ImplementsLogical (stabs M) (stabs (M.map (conjugateBy circ))) LX LZ (circuitTableau n d.2).apply d.1.apply := by
  obtain ⟨LX, LZ, D, h1, h2, h3, h4, h5, hF, hS⟩ := stabs_frame M hM
  unfold QCode.transversalData QCode.encoderDecoder at hd
  simp only [if_true] at hd
  rw [Option.bind_eq_some_iff] at hd
  obtain ⟨circ, e, hd⟩ := hd
  rw [h1, Option.bind_some, Option.bind_eq_some_iff] at hd
  obtain ⟨ed, hed, hd⟩ := hd
  rw [Option.bind_eq_some_iff] at hed
  obtain ⟨c', hc', hed⟩ := hed
  obtain ⟨D', f1, hL', hF', hS'⟩ := deformed_frame hM h2 h3 h4 h5 hc'
  rw [f1, Option.map_some, Option.some.injEq] at hed
  subst hed
  obtain ⟨T, c'', u, e1, e2, e3, e4⟩ := data_core hF hF' rfl h3 rfl (c := circ.map Instr.gate) (by
    simp only [List.append_nil, hS, hS']
    exact mem_rowSpan_opMap (circuitTableau_valid _) M)
  rw [frame_nil, frame_nil] at e1
  have hd := e1.symm.trans hd
  rw [Option.some.injEq] at hd
  subst hd
  have hmap : M.map (circuitTableau n (circ.map Instr.gate)).opMap = M.map (conjugateBy circ) :=
    List.map_congr_left fun r _ => opMap_circuit circ (automorphismCircuit_inRange e) r
  rw [hmap] at e4 hL'
  exact ⟨LX, LZ, circ, u, h2, h3, hF.lenL, e, e2, e3, hL', e4⟩

/-- **C81**: the call for a deformed code succeeds precisely if the images of the stabilizers commute with all logical
operators. -/
theorem C81_deform_iff (M : Rows (ZMod 2) (n + n)) (hM : AllCommute M) {g : GateSet} {σ : ℕ → ℕ} {circ : List Gate}
    (hc : automorphismCircuit g n σ = some circ) :
    ∃ L, (QCode.ofMatrix M (some false)).getLogicalOps = some L ∧
      ((∃ d, (QCode.ofMatrix M (some false)).transversalData g true σ = some d) ↔
        ∀ r ∈ M, ∀ l ∈ L, sform (conjugateBy circ r) l = 0) := by
  obtain ⟨LX, LZ, D, h1, h2, h3, h4, h5, hF, hS⟩ := stabs_frame M hM
  refine ⟨_, h2, ?_⟩
  have hi := deformed_iff h2 h3 h5 (circ.map Instr.gate)
  simp only [opMap_circuit circ (automorphismCircuit_inRange hc)] at hi
  rw [← hi]
  unfold QCode.transversalData QCode.encoderDecoder
  simp only [if_true]
  rw [hc, Option.bind_some, h1, Option.bind_some]
  constructor
  · rintro ⟨d, hd⟩
    rw [Option.bind_eq_some_iff] at hd
    obtain ⟨ed, hed, -⟩ := hd
    rw [Option.bind_eq_some_iff] at hed
    obtain ⟨c', hc', -⟩ := hed
    exact ⟨c', hc'⟩
  · rintro ⟨c', hc'⟩
    obtain ⟨D', f1, -, hF', hS'⟩ := deformed_frame hM h2 h3 h4 h5 hc'
    obtain ⟨T, c'', u, e1, -, -, -⟩ := data_core hF hF' rfl h3 rfl (c := circ.map Instr.gate) (by
      simp only [List.append_nil, hS, hS']
      exact mem_rowSpan_opMap (circuitTableau_valid _) M)
    rw [frame_nil, frame_nil] at e1
    rw [hc', Option.bind_some, f1, Option.map_some, Option.bind_some]
    exact ⟨_, e1⟩

/-! ### `get_logical_tableau` -/

/-- **C81**, `get_logical_tableau` for stabilizer codes and all circuits: it succeeds precisely if the circuit maps the
group generated by the parity checks to itself, modulo signs; and then the tableau says what the circuit does to
logical operators, up to stabilizers, with signs. -/
theorem C81_logical_tableau (M : Rows (ZMod 2) (n + n)) (hM : AllCommute M) (c : List Instr) :
    ((∃ T, (QCode.ofMatrix M (some false)).getLogicalTableau c false = some T) ↔
      ∀ p, IsCombination M ((circuitTableau n c).apply p).op ↔ IsCombination M p.op) ∧
    ∃ LX LZ, (QCode.ofMatrix M (some false)).getLogicalOps = some (LX ++ LZ) ∧
      LX.length = (QCode.ofMatrix M (some false)).dimension ∧ LX.length = LZ.length ∧
      ∀ T, (QCode.ofMatrix M (some false)).getLogicalTableau c false = some T → T.Valid ∧
        ∀ P, ∃ s, SPauli.InStabilizerGroup (stabs M) s ∧
          (circuitTableau n c).apply (SPauli.logical LX LZ P) = SPauli.logical LX LZ (T.apply P) * s := by
  obtain ⟨LX, LZ, D, h1, h2, h3, h4, h5, hF, hS⟩ := stabs_frame M hM
  obtain ⟨t1, t2⟩ := tableau_core hF hF rfl h3 rfl c
  have e : (QCode.ofMatrix M (some false)).getLogicalTableau c false =
      logicalTableau (QCode.ofMatrix M (some false)).dimension 0 (frameTableau (stabs M) LX LZ [] [] D)
        (frameTableau (stabs M) LX LZ [] [] D).inverse c := by
    unfold QCode.getLogicalTableau QCode.encoderDecoder
    rw [h1, Option.bind_some, frame_nil]
    rfl
  simp only [List.append_nil, hS] at t1
  rw [e]
  refine ⟨t1.trans ⟨fun h p => ?_, fun h u => ?_⟩, LX, LZ, h2, h3, hF.lenL, t2⟩
  · rw [isCombination_iff, isCombination_iff, Tableau.apply_op]; exact h p.op
  · have := h ⟨0, u⟩
    rw [isCombination_iff, isCombination_iff, Tableau.apply_op] at this
    exact this

/-- **C81**, `get_logical_tableau` for CSS codes, both stabilizer codes and subsystem codes, and all circuits. -/
theorem C81_logical_tableau_css (code : CssCode (ZMod 2) n) (h : CssOk code) (c : List Instr) :
    ((∃ T, code.getLogicalTableau c false = some T) ↔ ∀ p : SPauli n,
      (IsCombination code.hx (xPart ((circuitTableau n c).apply p).op) ∧ IsCombination code.hz (zPart ((circuitTableau n c).apply p).op)) ↔
        IsCombination code.hx (xPart p.op) ∧ IsCombination code.hz (zPart p.op)) ∧
    ∃ LX LZ, (∃ L, code.logicals = some L ∧ xzRows L = LX ++ LZ) ∧ LX.length = code.dimension ∧ LX.length = LZ.length ∧
      ∀ T, code.getLogicalTableau c false = some T → T.Valid ∧
        ∀ P, ∃ s, SPauli.InStabilizerGroup code.canonicalStabs s ∧
          (circuitTableau n c).apply (SPauli.logical LX LZ P) = SPauli.logical LX LZ (T.apply P) * s := by
  obtain ⟨LX, LZ, GX, GZ, D, h1, h2, h3, h4, hF, hS⟩ := css_frame code h
  obtain ⟨t1, t2⟩ := tableau_core hF hF rfl h3 h4 c
  have e : code.getLogicalTableau c false =
      logicalTableau code.dimension code.gaugeDimension (frameTableau code.canonicalStabs LX LZ GX GZ D)
        (frameTableau code.canonicalStabs LX LZ GX GZ D).inverse c := by
    unfold CssCode.getLogicalTableau CssCode.encoderDecoder
    rw [h1]
    rfl
  simp only [hS, mem_rowSpan_blockDiag2] at t1
  rw [e]
  refine ⟨t1.trans ⟨fun h p => ?_, fun h u => ?_⟩, LX, LZ, h2, h3, hF.lenL, t2⟩
  · simp only [isCombination_iff, Tableau.apply_op]; exact h p.op
  · have := h ⟨0, u⟩
    simp only [isCombination_iff, Tableau.apply_op] at this
    exact this

/-! ### Signs -/

/-- **C81**: signs have a meaning.  For the operators of any encoding tableau, no scalar except 1 is a product of
stabilizers, and a circuit implements at most one logical gate. -/
theorem C81_unique {S LX LZ GX GZ D : Rows (ZMod 2) (n + n)} (h : IsTableau (LX ++ GX ++ D) (LZ ++ GZ ++ S))
    (hL : LX.length = LZ.length) (hG : GX.length = GZ.length) :
    (∀ a, SPauli.InStabilizerGroup S (SPauli.scalar a) → a = 0) ∧
      ∀ (S₀ : Rows (ZMod 2) (n + n)) (φ : SPauli n → SPauli n) (t t' : SPauli LX.length → SPauli LX.length),
        ImplementsLogical S₀ S LX LZ φ t → ImplementsLogical S₀ S LX LZ φ t' → t = t' := by
  have hF : Frame S LX LZ GX GZ D := ⟨h, hL, hG⟩
  refine ⟨fun a ha => hF.scalar_stab ha, fun S₀ φ t t' hi hi' => funext fun P => ?_⟩
  obtain ⟨s, hs, e⟩ := hi.logical P
  obtain ⟨s', hs', e'⟩ := hi'.logical P
  exact hF.logical_inj hs hs' (e.symm.trans e')

/-! ## C82: searches -/

theorem opMap_pauli (u : Fin (n + n) → ZMod 2) (c : List Instr) (w : Fin (n + n) → ZMod 2) :
    (circuitTableau n (pauliStringCircuit u ++ c)).opMap w = (circuitTableau n c).opMap w := by
  have e := Tableau.apply_op (circuitTableau n (pauliStringCircuit u ++ c)) ⟨0, w⟩
  rw [apply_circuit_append, apply_pauliString, Tableau.apply_op, conjPauli_op] at e
  exact e.symm

/-- If the data of a permutation can be computed, its circuit preserves the code. -/
theorem data_success {S LX LZ GX GZ D S' GX' GZ' D' : Rows (ZMod 2) (n + n)} (h : Frame S LX LZ GX GZ D)
    (h' : Frame S' LX LZ GX' GZ' D') (hg : GX.length = GX'.length) {k g : ℕ} (hk : LX.length = k) (hgd : GX.length = g)
    {c : List Instr} {d : Tableau k × List Instr} (hd : automorphismData k g (frameTableau S LX LZ GX GZ D)
      (frameTableau S' LX LZ GX' GZ' D').inverse c = some d) :
    ∃ u : Fin (n + n) → ZMod 2, d.2 = pauliStringCircuit u ++ c ∧ d.1.Valid ∧
      ImplementsLogical S S' LX LZ (circuitTableau n d.2).apply d.1.apply := by
  have hc : ∀ u, (circuitTableau n c).opMap u ∈ rowSpan (S' ++ GX' ++ GZ') ↔ u ∈ rowSpan (S ++ GX ++ GZ) := by
    unfold automorphismData at hd
    simp only at hd
    rw [Option.map_eq_some_iff] at hd
    obtain ⟨T, hT, -⟩ := hd
    have := (tableau_core h h' hg hk hgd _).1.1 ⟨T, hT⟩
    intro u
    rw [← this u, opMap_pauli]
  obtain ⟨T, c', u, e1, e2, e3, e4⟩ := data_core h h' hg hk hgd hc
  rw [hd, Option.some.injEq] at e1
  subst e1
  exact ⟨u, e2, e3, e4⟩

/-- What is needed about the data of one permutation. -/
def DataOk {k : ℕ} (S S' LX LZ : Rows (ZMod 2) (n + n)) (c : List Instr) (d : Tableau k × List Instr) : Prop :=
  ∃ u : Fin (n + n) → ZMod 2, d.2 = pauliStringCircuit u ++ c ∧ d.1.Valid ∧
    ImplementsLogical S S' LX LZ (circuitTableau n d.2).apply d.1.apply

theorem mapM_some_iff {α β : Type} (f : α → Option β) (l : List α) (r : List β) (h : l.mapM f = some r) :
    (∀ b ∈ r, ∃ a ∈ l, f a = some b) ∧ ∀ a ∈ l, ∃ b ∈ r, f a = some b := by
  induction l generalizing r with
  | nil =>
    simp only [List.mapM_nil, Option.pure_def, Option.some.injEq] at h
    subst h
    simp
  | cons x l ih =>
    rw [List.mapM_cons] at h
    simp only [Option.bind_eq_bind, Option.bind_eq_some_iff, Option.pure_def, Option.some.injEq] at h
    obtain ⟨b, hb, r', hr', rfl⟩ := h
    obtain ⟨h1, h2⟩ := ih r' hr'
    constructor
    · intro y hy
      rcases List.mem_cons.1 hy with rfl | hy
      · exact ⟨x, List.mem_cons_self, hb⟩
      · obtain ⟨a, ha, e⟩ := h1 y hy
        exact ⟨a, List.mem_cons_of_mem _ ha, e⟩
    · intro a ha
      rcases List.mem_cons.1 ha with rfl | ha
      · exact ⟨b, List.mem_cons_self, hb⟩
      · obtain ⟨y, hy, e⟩ := h2 a ha
        exact ⟨y, List.mem_cons_of_mem _ hy, e⟩

/-- What the recorded matches are, after the search over `auts`. -/
def Recorded {k : ℕ} (f : (ℕ → ℕ) → Option (Tableau k × List Instr)) (auts : List (ℕ → ℕ)) (t : Tableau k)
    (m : Option (Tableau k × List Instr)) : Prop :=
  (∀ d, m = some d → ∃ σ ∈ auts, f σ = some d ∧ equivModPaulis t d.1 = true) ∧
    (m = none → ∀ σ ∈ auts, ∃ d, f σ = some d ∧ equivModPaulis t d.1 = false)

theorem forall₂_zipWith {α β γ : Type} {P : α → β → Prop} {Q : α → γ → Prop} {h : α → β → γ}
    (hPQ : ∀ t m, P t m → Q t (h t m)) {ts : List α} {ms : List β} (H : List.Forall₂ P ts ms) :
    List.Forall₂ Q ts (List.zipWith h ts ms) := by
  induction H with
  | nil => exact List.Forall₂.nil
  | cons h1 _ ih => exact List.Forall₂.cons (hPQ _ _ h1) ih

theorem searchLoop_spec {k : ℕ} {f : (ℕ → ℕ) → Option (Tableau k × List Instr)} {targets : List (Tableau k)}
    (auts : List (ℕ → ℕ)) : ∀ (pre : List (ℕ → ℕ)) {found res : List (Option (Tableau k × List Instr))},
      List.Forall₂ (Recorded f pre) targets found → searchLoop f targets auts found = some res →
      List.Forall₂ (Recorded f (pre ++ auts)) targets res := by
  induction auts with
  | nil =>
    intro pre found res h hr
    rw [searchLoop, Option.some.injEq] at hr
    subst hr
    rwa [List.append_nil]
  | cons σ auts ih =>
    intro pre found res h hr
    rw [searchLoop, Option.bind_eq_some_iff] at hr
    obtain ⟨d, hd, hr⟩ := hr
    have step : List.Forall₂ (Recorded f (pre ++ [σ])) targets (recordMatches d targets found) := by
      refine forall₂_zipWith (fun t m hm => ?_) h
      cases m with
      | some m =>
        simp only [Option.isNone_some, Bool.false_and, Bool.false_eq_true, if_false]
        refine ⟨fun d' e => ?_, fun e => by simp at e⟩
        obtain ⟨τ, hτ, e1, e2⟩ := hm.1 d' e
        exact ⟨τ, List.mem_append_left _ hτ, e1, e2⟩
      | none =>
        simp only [Option.isNone_none, Bool.true_and]
        split
        · rename_i he
          refine ⟨fun d' e => ?_, fun e => by simp at e⟩
          rw [Option.some.injEq] at e
          subst e
          exact ⟨σ, List.mem_append_right _ List.mem_cons_self, hd, he⟩
        · rename_i he
          refine ⟨fun d' e => by simp at e, fun _ τ hτ => ?_⟩
          rcases List.mem_append.1 hτ with hτ | hτ
          · exact hm.2 rfl τ hτ
          · rw [List.mem_singleton] at hτ
            subst hτ
            exact ⟨d, hd, by simpa using he⟩
    simp only at hr
    split at hr
    · have := ih (pre ++ [σ]) step hr
      rwa [List.append_assoc, List.singleton_append] at this
    · rename_i hall
      rw [Option.some.injEq] at hr
      subst hr
      have hsome : ∀ m ∈ recordMatches d targets found, m ≠ none := by
        intro m hm e
        subst e
        exact hall (List.any_eq_true.2 ⟨none, hm, rfl⟩)
      generalize recordMatches d targets found = ms at step hsome
      clear hall ih h
      induction step with
      | nil => exact List.Forall₂.nil
      | cons h1 _ ih2 =>
        refine List.Forall₂.cons ⟨fun d' e => ?_, fun e => absurd e (hsome _ List.mem_cons_self)⟩
          (ih2 fun m hm => hsome m (List.mem_cons_of_mem _ hm))
        obtain ⟨τ, hτ, e1, e2⟩ := h1.1 d' e
        refine ⟨τ, ?_, e1, e2⟩
        rcases List.mem_append.1 hτ with hτ | hτ
        · exact List.mem_append_left _ hτ
        · rw [List.mem_singleton] at hτ
          subst hτ
          exact List.mem_append_right _ List.mem_cons_self

theorem searchLoop_some {k : ℕ} {f : (ℕ → ℕ) → Option (Tableau k × List Instr)} {targets : List (Tableau k)}
    (auts : List (ℕ → ℕ)) (h : ∀ σ ∈ auts, ∃ d, f σ = some d) :
    ∀ found, ∃ res, searchLoop f targets auts found = some res := by
  induction auts with
  | nil => intro found; exact ⟨found, rfl⟩
  | cons σ auts ih =>
    intro found
    obtain ⟨d, hd⟩ := h σ List.mem_cons_self
    rw [searchLoop, hd, Option.bind_some]
    simp only
    split
    · exact ih (fun τ hτ => h τ (List.mem_cons_of_mem _ hτ)) _
    · exact ⟨_, rfl⟩

/-- Automorphisms after the last match do not matter, not even if their data cannot be computed. -/
theorem searchLoop_append {k : ℕ} {f : (ℕ → ℕ) → Option (Tableau k × List Instr)} {targets : List (Tableau k)}
    (auts rest : List (ℕ → ℕ)) (hne : auts ≠ []) : ∀ {found res : List (Option (Tableau k × List Instr))},
      searchLoop f targets auts found = some res → res.any Option.isNone = false →
      searchLoop f targets (auts ++ rest) found = some res := by
  induction auts with
  | nil => exact absurd rfl hne
  | cons σ auts ih =>
    intro found res h hres
    rw [searchLoop, Option.bind_eq_some_iff] at h
    obtain ⟨d, hd, h⟩ := h
    rw [List.cons_append, searchLoop, hd, Option.bind_some]
    simp only at h ⊢
    split at h
    · rename_i hany
      rw [if_pos hany]
      cases auts with
      | nil =>
        rw [searchLoop, Option.some.injEq] at h
        rw [h, hres] at hany
        exact absurd hany (by simp)
      | cons τ auts => exact ih (by simp) h hres
    · rename_i hany
      rw [if_neg hany]
      exact h

theorem search_core {k : ℕ} {S LX LZ : Rows (ZMod 2) (n + n)} (hk : LX.length = k)
    {auts : List (ℕ → ℕ)} {f : (ℕ → ℕ) → Option (Tableau k × List Instr)} {A : (ℕ → ℕ) → List Instr}
    {S' : (ℕ → ℕ) → Rows (ZMod 2) (n + n)}
    (hf : ∀ σ d, f σ = some d → DataOk S (S' σ) LX LZ (A σ) d ∧ (∃ GX GZ D, Frame S LX LZ GX GZ D) ∧
      ∃ GX' GZ' D', Frame (S' σ) LX LZ GX' GZ' D')
    {targets : List (Tableau k)} (hT : ∀ t ∈ targets, t.Valid) {found : List (Option (Tableau k × List Instr))}
    (hs : searchLoop f targets auts (targets.map fun _ => none) = some found) :
    List.Forall₂ (fun t r =>
      (∀ c, r = some c → ∃ σ ∈ auts, (∃ d, f σ = some d) ∧ ∃ u v : Fin (n + n) → ZMod 2,
        c = pauliStringCircuit v ++ (pauliStringCircuit u ++ A σ) ∧
        ImplementsLogical S (S' σ) LX LZ (circuitTableau n c).apply t.apply) ∧
      (r = none → ∀ σ ∈ auts, (∃ d, f σ = some d) ∧ ∀ u : Fin (n + n) → ZMod 2,
        ¬ ImplementsLogical S (S' σ) LX LZ (circuitTableau n (pauliStringCircuit u ++ A σ)).apply t.apply))
      targets (correctedCircuits LX LZ targets found) := by
  subst hk
  have h0 : List.Forall₂ (Recorded f []) targets (targets.map fun _ => none) := by
    rw [List.forall₂_map_right_iff, List.forall₂_same]
    exact fun t _ => ⟨fun d e => by simp at e, fun _ σ hσ => by simp at hσ⟩
  have h1 := searchLoop_spec auts [] h0 hs
  rw [List.nil_append] at h1
  have h2 : List.Forall₂ (fun t m => t.Valid ∧ Recorded f auts t m) targets found := by
    clear hs h0
    induction h1 with
    | nil => exact List.Forall₂.nil
    | cons a _ ih => exact List.Forall₂.cons ⟨hT _ List.mem_cons_self, a⟩ (ih fun t ht => hT t (List.mem_cons_of_mem _ ht))
  refine forall₂_zipWith (fun t m hm => ⟨fun c hc => ?_, fun hn σ hσ => ?_⟩) h2
  · rw [Option.map_eq_some_iff] at hc
    obtain ⟨d, rfl, rfl⟩ := hc
    obtain ⟨σ, hσ, e1, e2⟩ := hm.2.1 d rfl
    obtain ⟨⟨u, hu, hV, hi⟩, ⟨GX, GZ, D, hF⟩, -⟩ := hf σ d e1
    exact ⟨σ, hσ, ⟨d, e1⟩, u, _, by rw [hu], hF.correct hm.1 hV hi e2⟩
  · rw [Option.map_eq_none_iff] at hn
    obtain ⟨d, e1, e2⟩ := hm.2.2 hn σ hσ
    obtain ⟨⟨u', hu', hV, hi'⟩, -, GX', GZ', D', hF'⟩ := hf σ d e1
    refine ⟨⟨d, e1⟩, fun u hi => ?_⟩
    rw [hu'] at hi'
    have := hF'.unique hi hi'
    rw [e2] at this
    exact absurd this (by simp)

/-! ### Codes -/

/-- The reduced stabilizers of a code with the given parity checks, or gauge generators if `sub` is set. -/
abbrev codeStabs (sub : Bool) (M : Rows (ZMod 2) (n + n)) : Rows (ZMod 2) (n + n) :=
  (QCode.ofMatrix M (some sub)).stabilizerOpsCanon

/-- The stabilizers after the circuit of a permutation. -/
abbrev stabsAfter (sub : Bool) (M : Rows (ZMod 2) (n + n)) (deform : Bool) (circ : List Gate) : Rows (ZMod 2) (n + n) :=
  if deform then codeStabs sub (M.map (conjugateBy circ)) else codeStabs sub M

/-- Encoders of deformed codes whose logical operators have been kept. -/
theorem deformed_general {M LX LZ : Rows (ZMod 2) (n + n)} {sub : Bool} {circ : List Instr} {d : QCode (ZMod 2) n}
    (he : (QCode.ofMatrix (M.map (circuitTableau n circ).opMap) (some sub)).setLogicalOps (LX ++ LZ) = .ok d)
    (hlen : LX.length = LZ.length) {t : Rows (ZMod 2) (n + n) × Rows (ZMod 2) (n + n)} (ht : d.encodingTableau = some t) :
    ∃ GX GZ D, t = (LX ++ GX ++ D, LZ ++ GZ ++ codeStabs sub (M.map (circuitTableau n circ).opMap)) ∧
      Frame (codeStabs sub (M.map (circuitTableau n circ).opMap)) LX LZ GX GZ D ∧
      GX.length = (QCode.ofMatrix M (some sub)).gaugeDimension := by
  have hV := circuitTableau_valid (n := n) circ
  obtain ⟨LX', LZ', e0, e1, e2, -, -, e5, e6, e7⟩ := C21_accepted_partial _ _ _ he
  have hsub := setLogicalOps_isSub he
  have hLX : LX.length = LX'.length := by
    have := congrArg List.length e0
    rw [List.length_append, List.length_append] at this
    omega
  have hs : d.stabilizerOpsCanon = codeStabs sub (M.map (circuitTableau n circ).opMap) := by
    unfold codeStabs QCode.stabilizerOpsCanon
    rw [e6, hsub]
  have hg : d.gaugeDimension = (QCode.ofMatrix M (some sub)).gaugeDimension := by
    unfold QCode.gaugeDimension
    rw [e6, hsub]
    change (if sub = true then QLDPC.gaugeDimension (M.map (opMapₗ (circuitTableau n circ))) else 0) =
      if sub = true then QLDPC.gaugeDimension M else 0
    obtain ⟨r1, r2⟩ := rank_radical_map (f := opMapₗ (circuitTableau n circ)) hV.opMap_inj (fun p q => hV.sform_opMap p q) M
    unfold QLDPC.gaugeDimension
    rw [length_reduced, length_reduced, length_subsystemStabilizers, length_subsystemStabilizers, r1, r2]
  obtain ⟨GX, GZ, D, a1, a2, a3⟩ := QCode.frame e5 (by omega) (by omega) (by
    intro h
    rw [e7, e6]
    rw [hsub] at h
    have h' : sub = true := h
    subst h'
    rfl) ht
  rw [hs] at a1 a2
  exact ⟨GX, GZ, D, a1, a2, a3.trans hg⟩

theorem map_opMap (M : Rows (ZMod 2) (n + n)) {g : GateSet} {σ : ℕ → ℕ} {circ : List Gate}
    (h : automorphismCircuit g n σ = some circ) :
    M.map (circuitTableau n (circ.map Instr.gate)).opMap = M.map (conjugateBy circ) :=
  List.map_congr_left fun r _ => opMap_circuit circ (automorphismCircuit_inRange h) r

/-- The data of permutations, for all codes. -/
theorem code_data {M LX LZ : Rows (ZMod 2) (n + n)} {sub : Bool}
    (hops : (QCode.ofMatrix M (some sub)).getLogicalOps = some (LX ++ LZ))
    (hx : LX.length = (QCode.ofMatrix M (some sub)).dimension) (hz : LZ.length = (QCode.ofMatrix M (some sub)).dimension)
    {g : GateSet} {deform : Bool} {σ : ℕ → ℕ} {d : Tableau (QCode.ofMatrix M (some sub)).dimension × List Instr}
    (hd : (QCode.ofMatrix M (some sub)).transversalData g deform σ = some d) :
    ∃ circ, automorphismCircuit g n σ = some circ ∧
      DataOk (codeStabs sub M) (stabsAfter sub M deform circ) LX LZ (circ.map Instr.gate) d ∧
      (∃ GX GZ D, Frame (codeStabs sub M) LX LZ GX GZ D) ∧
      ∃ GX' GZ' D', Frame (stabsAfter sub M deform circ) LX LZ GX' GZ' D' ∧
        GX'.length = (QCode.ofMatrix M (some sub)).gaugeDimension := by
  unfold QCode.transversalData QCode.encoderDecoder at hd
  rw [Option.bind_eq_some_iff] at hd
  obtain ⟨circ, e, hd⟩ := hd
  rw [Option.bind_eq_some_iff] at hd
  obtain ⟨ed, hed, hd⟩ := hd
  rw [Option.bind_eq_some_iff] at hed
  obtain ⟨t, ht, hed⟩ := hed
  obtain ⟨GX, GZ, D, rfl, hF, hG⟩ := QCode.frame hops hx hz (by
    intro h
    have h' : sub = true := h
    subst h'
    rfl) ht
  refine ⟨circ, e, ?_⟩
  cases deform with
  | false =>
    simp only [Bool.false_eq_true, if_false, Option.some.injEq] at hed
    subst hed
    exact ⟨data_success hF hF rfl hx hG hd, ⟨GX, GZ, D, hF⟩, GX, GZ, D, hF, hG⟩
  | true =>
    simp only [if_true] at hed
    rw [Option.bind_eq_some_iff] at hed
    obtain ⟨c', hc', hed⟩ := hed
    rw [Option.map_eq_some_iff] at hed
    obtain ⟨t', ht', rfl⟩ := hed
    unfold QCode.deformed at hc'
    simp only [if_true] at hc'
    rw [hops, Option.bind_some, deformString_eq] at hc'
    cases he : (QCode.ofMatrix ((QCode.ofMatrix M (some sub)).matrix.map (circuitTableau n (circ.map Instr.gate)).opMap)
        (some (QCode.ofMatrix M (some sub)).isSub)).setLogicalOps (LX ++ LZ) with
    | error e => rw [he] at hc'; simp [Except.toOption] at hc'
    | ok d' =>
      rw [he] at hc'
      simp only [Except.toOption, Option.some.injEq] at hc'
      subst hc'
      obtain ⟨GX', GZ', D', rfl, hF', hG'⟩ := deformed_general (M := M) (sub := sub) he (hx.trans hz.symm) ht'
      have hS : codeStabs sub (M.map (circuitTableau n (circ.map Instr.gate)).opMap) = stabsAfter sub M true circ := by
        rw [map_opMap M e]; rfl
      rw [hS] at hF' hd
      exact ⟨data_success hF hF' (hG.trans hG'.symm) hx hG hd, ⟨GX, GZ, D, hF⟩, GX', GZ', D', hF', hG'⟩

/-- **C81** for all codes on qubits, stabilizer codes and subsystem codes, CSS or not, with or without deformation:
whenever the call succeeds, for whatever permutation, the circuit is that of the permutation behind Pauli gates, maps
the stabilizers of the code to those of the code after the circuit, and acts on the code's logical operators as the
returned tableau says.  (If the code's logical or gauge operators do not have the right commutation relations, Stim
refuses to construct a tableau.) -/
theorem C81_returned (M : Rows (ZMod 2) (n + n)) (sub : Bool) {g : GateSet} {deform : Bool} {σ : ℕ → ℕ}
    {d : Tableau (QCode.ofMatrix M (some sub)).dimension × List Instr}
    (hd : (QCode.ofMatrix M (some sub)).transversalData g deform σ = some d) :
    ∃ LX LZ circ, ∃ u : Fin (n + n) → ZMod 2, (QCode.ofMatrix M (some sub)).getLogicalOps = some (LX ++ LZ) ∧
      LX.length = (QCode.ofMatrix M (some sub)).dimension ∧ LX.length = LZ.length ∧
      automorphismCircuit g n σ = some circ ∧ d.2 = pauliStringCircuit u ++ circ.map Instr.gate ∧ d.1.Valid ∧
      ImplementsLogical (codeStabs sub M) (stabsAfter sub M deform circ) LX LZ (circuitTableau n d.2).apply d.1.apply := by
  have hex : ∃ L, (QCode.ofMatrix M (some sub)).getLogicalOps = some L := by
    have h := hd
    unfold QCode.transversalData QCode.encoderDecoder QCode.encodingTableau at h
    simp only [Option.bind_eq_some_iff] at h
    obtain ⟨_, _, _, ⟨_, ⟨L, hL, _⟩, _⟩, _⟩ := h
    exact ⟨L, hL⟩
  obtain ⟨L, hL⟩ := hex
  obtain ⟨LX, LZ, rfl, hx, hz⟩ := ofMatrix_logicals hL
  obtain ⟨circ, a1, ⟨u, b1, b2, b3⟩, -⟩ := code_data hL hx hz hd
  exact ⟨LX, LZ, circ, u, hL, hx, hx.trans hz.symm, a1, b1, b2, b3⟩

/-! ### CSS codes -/

/-- The stabilizers of a CSS code after the circuit of a permutation. -/
abbrev cssStabsAfter (c : CssCode (ZMod 2) n) (deform : Bool) (circ : List Gate) : Rows (ZMod 2) (n + n) :=
  if deform then codeStabs c.isSub ((blockDiag2 c.hx c.hz).map (conjugateBy circ)) else c.canonicalStabs

theorem rank_blockDiag2 (A B : Rows (ZMod 2) n) : rank (blockDiag2 A B) = rank A + rank B := by
  have h := finrank_blockDiag2 A B
  have h1 := finrank_kernel A
  have h2 := finrank_kernel B
  have h3 := finrank_kernel (blockDiag2 A B)
  omega

theorem css_gaugeDimension {c : CssCode (ZMod 2) n} (h : CssOk c) :
    (QCode.ofMatrix (blockDiag2 c.hx c.hz) (some c.isSub)).gaugeDimension = c.gaugeDimension := by
  unfold QCode.gaugeDimension CssCode.gaugeDimension
  change (if c.isSub = true then _ else _) = _
  cases hs : c.isSub with
  | false => rfl
  | true =>
    rw [if_pos rfl, if_pos rfl]
    change QLDPC.gaugeDimension (blockDiag2 c.hx c.hz) = _
    obtain ⟨SX, SZ, e1, -, -, t1, t2, l1, l2⟩ := canonicalStabs_spec h
    unfold QLDPC.gaugeDimension
    have e2 : ∀ N : Rows (ZMod 2) n, (dropZero (rowReduce N)).length = rank N := by
      intro N; rw [dropZero_rowReduce, List.length_map]; rfl
    have e3 : rank (subsystemStabilizers (blockDiag2 c.hx c.hz)) = rank (blockDiag2 SX SZ) := by
      apply rank_eq_of_rowSpan_eq
      ext p
      rw [mem_subsystemStabilizers, mem_rowSpan_blockDiag2, mem_rowSpan_blockDiag2, t1, t2, Submodule.mem_inf,
        Submodule.mem_inf]
      have e4 : (∀ r ∈ blockDiag2 c.hx c.hz, sform r p = 0) ↔ xPart p ∈ kernel c.hz ∧ zPart p ∈ kernel c.hx := by
        unfold blockDiag2
        simp only [List.forall_mem_append, List.forall_mem_map, sform_eq, xPart_append, zPart_append, dot_zero_left,
          sub_zero, zero_sub, neg_eq_zero]
        exact And.comm
      rw [e4]
      tauto
    rw [length_reduced, length_subsystemStabilizers, rank_blockDiag2, e3, rank_blockDiag2, e1, e2, e2]
    unfold blockDiag2
    rw [List.length_append, List.length_map, List.length_map, l1, l2]

theorem css_data {c : CssCode (ZMod 2) n} (h : CssOk c) :
    ∃ LX LZ GX GZ D, (∃ L, c.logicals = some L ∧ xzRows L = LX ++ LZ) ∧ LX.length = c.dimension ∧
      Frame c.canonicalStabs LX LZ GX GZ D ∧
      ∀ (g : GateSet) (deform : Bool) (σ : ℕ → ℕ) (d : Tableau c.dimension × List Instr),
        c.transversalData g deform σ = some d →
        ∃ circ, automorphismCircuit g n σ = some circ ∧
          DataOk c.canonicalStabs (cssStabsAfter c deform circ) LX LZ (circ.map Instr.gate) d ∧
          ∃ GX' GZ' D', Frame (cssStabsAfter c deform circ) LX LZ GX' GZ' D' := by
  obtain ⟨LX, LZ, GX, GZ, D, h1, h2, h3, h4, hF, hS⟩ := css_frame c h
  refine ⟨LX, LZ, GX, GZ, D, h2, h3, hF, ?_⟩
  intro g deform σ d hd
  unfold CssCode.transversalData CssCode.encoderDecoder at hd
  rw [Option.bind_eq_some_iff] at hd
  obtain ⟨circ, e, hd⟩ := hd
  rw [h1, Option.bind_some] at hd
  refine ⟨circ, e, ?_⟩
  cases deform with
  | false =>
    simp only [Bool.false_eq_true, if_false, Option.bind_some] at hd
    exact ⟨data_success hF hF rfl h3 h4 hd, _, _, _, hF⟩
  | true =>
    simp only [if_true] at hd
    rw [Option.bind_eq_some_iff] at hd
    obtain ⟨ed, hed, hd⟩ := hd
    rw [Option.bind_eq_some_iff] at hed
    obtain ⟨c', hc', hed⟩ := hed
    rw [Option.map_eq_some_iff] at hed
    obtain ⟨t', ht', rfl⟩ := hed
    unfold CssCode.deformed at hc'
    simp only at hc'
    obtain ⟨L, hL, hL'⟩ := h2
    rw [hL, Option.bind_some, hL', deformString_eq] at hc'
    cases he : (QCode.ofMatrix ((blockDiag2 c.hx c.hz).map (circuitTableau n (circ.map Instr.gate)).opMap)
        (some c.isSub)).setLogicalOps (LX ++ LZ) with
    | error e => rw [he] at hc'; simp [Except.toOption] at hc'
    | ok d' =>
      rw [he] at hc'
      simp only [Except.toOption, Option.some.injEq] at hc'
      subst hc'
      obtain ⟨GX', GZ', D', rfl, hF', hG'⟩ := deformed_general he hF.lenL ht'
      rw [css_gaugeDimension h] at hG'
      have hS : codeStabs c.isSub ((blockDiag2 c.hx c.hz).map (circuitTableau n (circ.map Instr.gate)).opMap) =
          cssStabsAfter c true circ := by
        rw [map_opMap _ e]; rfl
      rw [hS] at hF' hd
      exact ⟨data_success hF hF' (h4.trans hG'.symm) h3 h4 hd, GX', GZ', D', hF'⟩

/-- **C81** for CSS codes, with or without deformation, whenever the call succeeds. -/
theorem C81_returned_css (c : CssCode (ZMod 2) n) (h : CssOk c) {g : GateSet} {deform : Bool} {σ : ℕ → ℕ}
    {d : Tableau c.dimension × List Instr} (hd : c.transversalData g deform σ = some d) :
    ∃ LX LZ circ, ∃ u : Fin (n + n) → ZMod 2, (∃ L, c.logicals = some L ∧ xzRows L = LX ++ LZ) ∧
      LX.length = c.dimension ∧ LX.length = LZ.length ∧ automorphismCircuit g n σ = some circ ∧
      d.2 = pauliStringCircuit u ++ circ.map Instr.gate ∧ d.1.Valid ∧
      ImplementsLogical c.canonicalStabs (cssStabsAfter c deform circ) LX LZ (circuitTableau n d.2).apply d.1.apply := by
  obtain ⟨LX, LZ, GX, GZ, D, h2, h3, hF, hdata⟩ := css_data h
  obtain ⟨circ, a1, ⟨u, b1, b2, b3⟩, -⟩ := hdata g deform σ d hd
  exact ⟨LX, LZ, circ, u, h2, h3, hF.lenL, a1, b1, b2, b3⟩

/-! ### Searches -/

theorem circuits_core (M : Rows (ZMod 2) (n + n)) (sub : Bool) (g : GateSet) (deform : Bool) (auts : List (ℕ → ℕ))
    (targets : List (Tableau (QCode.ofMatrix M (some sub)).dimension)) (hT : ∀ t ∈ targets, t.Valid)
    {res : List (Option (List Instr))}
    (hres : (QCode.ofMatrix M (some sub)).getTransversalCircuits g deform auts targets = some res) :
    ∃ LX LZ, (QCode.ofMatrix M (some sub)).getLogicalOps = some (LX ++ LZ) ∧
      LX.length = (QCode.ofMatrix M (some sub)).dimension ∧ LX.length = LZ.length ∧
      List.Forall₂ (fun t r =>
        (∀ c, r = some c → ∃ σ ∈ auts, (∃ d, (QCode.ofMatrix M (some sub)).transversalData g deform σ = some d) ∧ ∃ circ, automorphismCircuit g n σ = some circ ∧ ∃ u v : Fin (n + n) → ZMod 2,
          c = pauliStringCircuit v ++ (pauliStringCircuit u ++ circ.map Instr.gate) ∧
          ImplementsLogical (codeStabs sub M) (stabsAfter sub M deform circ) LX LZ (circuitTableau n c).apply t.apply) ∧
        (r = none → ∀ σ ∈ auts, (∃ d, (QCode.ofMatrix M (some sub)).transversalData g deform σ = some d) ∧ ∃ circ, automorphismCircuit g n σ = some circ ∧ ∀ u : Fin (n + n) → ZMod 2,
          ¬ ImplementsLogical (codeStabs sub M) (stabsAfter sub M deform circ) LX LZ
            (circuitTableau n (pauliStringCircuit u ++ circ.map Instr.gate)).apply t.apply)) targets res := by
  unfold QCode.getTransversalCircuits at hres
  rw [Option.bind_eq_some_iff] at hres
  obtain ⟨found, hs, hres⟩ := hres
  rw [Option.map_eq_some_iff] at hres
  obtain ⟨L, hL, rfl⟩ := hres
  obtain ⟨LX, LZ, rfl, hx, hz⟩ := ofMatrix_logicals hL
  refine ⟨LX, LZ, hL, hx, hx.trans hz.symm, ?_⟩
  have e1 : (LX ++ LZ).take (QCode.ofMatrix M (some sub)).dimension = LX := by rw [← hx]; simp
  have e2 : (LX ++ LZ).drop (QCode.ofMatrix M (some sub)).dimension = LZ := by rw [← hx]; simp
  rw [e1, e2]
  refine (search_core hx (A := fun σ => ((automorphismCircuit g n σ).getD []).map Instr.gate)
    (S' := fun σ => stabsAfter sub M deform ((automorphismCircuit g n σ).getD [])) (by
      intro σ d h
      obtain ⟨circ, a1, a2, a3, GX', GZ', D', a4, -⟩ := code_data hL hx hz h
      simp only [a1, Option.getD_some]
      exact ⟨a2, a3, _, _, _, a4⟩) hT hs).imp fun t r hr => ⟨fun c hc => ?_, fun hn σ hσ => ?_⟩
  · obtain ⟨σ, hσ, ⟨d, hd⟩, u, v, b1, b2⟩ := hr.1 c hc
    obtain ⟨circ, a1, -⟩ := code_data hL hx hz hd
    simp only [a1, Option.getD_some] at b1 b2
    exact ⟨σ, hσ, ⟨d, hd⟩, circ, a1, u, v, b1, b2⟩
  · obtain ⟨⟨d, hd⟩, b⟩ := hr.2 hn σ hσ
    obtain ⟨circ, a1, -⟩ := code_data hL hx hz hd
    simp only [a1, Option.getD_some] at b
    exact ⟨⟨d, hd⟩, circ, a1, b⟩

/-- **C82** for all codes on qubits, stabilizer codes and subsystem codes, with or without deformation, and all lists of
permutations for which the search does not raise.  A returned circuit is the circuit of one of the permutations behind
Pauli gates, and implements precisely the requested logical gate, signs included.  If no circuit is returned, then no
circuit of a permutation behind any Pauli gates implements the requested logical gate. -/
theorem C82_circuits (M : Rows (ZMod 2) (n + n)) (sub : Bool) (g : GateSet) (deform : Bool) (auts : List (ℕ → ℕ))
    (targets : List (Tableau (QCode.ofMatrix M (some sub)).dimension)) (hT : ∀ t ∈ targets, t.Valid)
    {res : List (Option (List Instr))}
    (hres : (QCode.ofMatrix M (some sub)).getTransversalCircuits g deform auts targets = some res) :
    ∃ LX LZ, (QCode.ofMatrix M (some sub)).getLogicalOps = some (LX ++ LZ) ∧
      LX.length = (QCode.ofMatrix M (some sub)).dimension ∧ LX.length = LZ.length ∧
      List.Forall₂ (fun t r =>
        (∀ c, r = some c → ∃ σ ∈ auts, ∃ circ, automorphismCircuit g n σ = some circ ∧ ∃ u v : Fin (n + n) → ZMod 2,
          c = pauliStringCircuit v ++ (pauliStringCircuit u ++ circ.map Instr.gate) ∧
          ImplementsLogical (codeStabs sub M) (stabsAfter sub M deform circ) LX LZ (circuitTableau n c).apply t.apply) ∧
        (r = none → ∀ σ ∈ auts, ∃ circ, automorphismCircuit g n σ = some circ ∧ ∀ u : Fin (n + n) → ZMod 2,
          ¬ ImplementsLogical (codeStabs sub M) (stabsAfter sub M deform circ) LX LZ
            (circuitTableau n (pauliStringCircuit u ++ circ.map Instr.gate)).apply t.apply)) targets res := by
  obtain ⟨LX, LZ, a1, a2, a3, a4⟩ := circuits_core M sub g deform auts targets hT hres
  exact ⟨LX, LZ, a1, a2, a3, a4.imp fun t r hr => ⟨fun c hc => (hr.1 c hc).imp fun σ h => ⟨h.1, h.2.2⟩,
    fun hn σ hσ => (hr.2 hn σ hσ).2⟩⟩

/-- **C82** for CSS codes, both stabilizer codes and subsystem codes, with or without deformation. -/
theorem C82_circuits_css (c : CssCode (ZMod 2) n) (h : CssOk c) (g : GateSet) (deform : Bool) (auts : List (ℕ → ℕ))
    (targets : List (Tableau c.dimension)) (hT : ∀ t ∈ targets, t.Valid) {res : List (Option (List Instr))}
    (hres : c.getTransversalCircuits g deform auts targets = some res) :
    ∃ LX LZ, (∃ L, c.logicals = some L ∧ xzRows L = LX ++ LZ) ∧ LX.length = c.dimension ∧ LX.length = LZ.length ∧
      List.Forall₂ (fun t r =>
        (∀ c', r = some c' → ∃ σ ∈ auts, ∃ circ, automorphismCircuit g n σ = some circ ∧ ∃ u v : Fin (n + n) → ZMod 2,
          c' = pauliStringCircuit v ++ (pauliStringCircuit u ++ circ.map Instr.gate) ∧
          ImplementsLogical c.canonicalStabs (cssStabsAfter c deform circ) LX LZ (circuitTableau n c').apply t.apply) ∧
        (r = none → ∀ σ ∈ auts, ∃ circ, automorphismCircuit g n σ = some circ ∧ ∀ u : Fin (n + n) → ZMod 2,
          ¬ ImplementsLogical c.canonicalStabs (cssStabsAfter c deform circ) LX LZ
            (circuitTableau n (pauliStringCircuit u ++ circ.map Instr.gate)).apply t.apply)) targets res := by
  obtain ⟨LX, LZ, GX, GZ, D, ⟨L, h2, h2'⟩, h3, hF, hdata⟩ := css_data h
  refine ⟨LX, LZ, ⟨L, h2, h2'⟩, h3, hF.lenL, ?_⟩
  unfold CssCode.getTransversalCircuits at hres
  rw [Option.bind_eq_some_iff] at hres
  obtain ⟨found, hs, hres⟩ := hres
  rw [h2, Option.map_some, Option.some.injEq] at hres
  subst hres
  have e1 : (LX ++ LZ).take c.dimension = LX := by rw [← h3]; simp
  have e2 : (LX ++ LZ).drop c.dimension = LZ := by rw [← h3]; simp
  rw [h2', e1, e2]
  refine (search_core h3 (A := fun σ => ((automorphismCircuit g n σ).getD []).map Instr.gate)
    (S' := fun σ => cssStabsAfter c deform ((automorphismCircuit g n σ).getD [])) (by
      intro σ d h
      obtain ⟨circ, a1, a2, a3⟩ := hdata g deform σ d h
      simp only [a1, Option.getD_some]
      exact ⟨a2, ⟨_, _, _, hF⟩, a3⟩) hT hs).imp fun t r hr => ⟨fun c' hc => ?_, fun hn σ hσ => ?_⟩
  · obtain ⟨σ, hσ, ⟨d, hd⟩, u, v, b1, b2⟩ := hr.1 c' hc
    obtain ⟨circ, a1, -⟩ := hdata g deform σ d hd
    simp only [a1, Option.getD_some] at b1 b2
    exact ⟨σ, hσ, circ, a1, u, v, b1, b2⟩
  · obtain ⟨⟨d, hd⟩, b⟩ := hr.2 hn σ hσ
    obtain ⟨circ, a1, -⟩ := hdata g deform σ d hd
    simp only [a1, Option.getD_some] at b
    exact ⟨circ, a1, b⟩

/-- **C82**: the search for automorphisms of the instrumental code does not raise. -/
theorem C82_succeeds (M : Rows (ZMod 2) (n + n)) (hM : AllCommute M) {g : GateSet}
    (auts : List (Equiv.Perm (Fin (g.numSectors * n))))
    (hσ : ∀ σ ∈ auts, σ ∈ Subgroup.closure {τ | τ ∈ columnPerms g g.numSectors n})
    (haut : ∀ σ ∈ auts, ∀ c, IsWord (instrumental g (effectiveChecks M [] false)) c →
      IsWord (instrumental g (effectiveChecks M [] false)) (c ∘ σ))
    (targets : List (Tableau (QCode.ofMatrix M (some false)).dimension)) :
    ∃ res, (QCode.ofMatrix M (some false)).getTransversalCircuits g false (auts.map callPerm) targets = some res := by
  obtain ⟨LX, LZ, D, -, h2, -⟩ := stabs_frame M hM
  obtain ⟨found, hf⟩ := searchLoop_some (f := (QCode.ofMatrix M (some false)).transversalData g false)
    (targets := targets) (auts.map callPerm) (by
      intro τ hτ
      obtain ⟨σ, hs, rfl⟩ := List.mem_map.1 hτ
      obtain ⟨-, -, circ, T, u, -, -, -, -, e, -⟩ := C81_stabilizer M hM (hσ σ hs) (haut σ hs)
      exact ⟨_, e⟩) (targets.map fun _ => none)
  unfold QCode.getTransversalCircuits
  rw [hf, Option.bind_some, h2]
  exact ⟨_, rfl⟩

/-- **C82**: the search for automorphisms of the instrumental code of a CSS code does not raise. -/
theorem C82_succeeds_css (c : CssCode (ZMod 2) n) (h : CssOk c) {g : GateSet}
    (auts : List (Equiv.Perm (Fin (g.numSectors * n))))
    (hσ : ∀ σ ∈ auts, σ ∈ Subgroup.closure {τ | τ ∈ columnPerms g g.numSectors n})
    (haut : ∀ σ ∈ auts, ∀ w, IsWord (instrumental g (effectiveChecks (blockDiag2 c.hx c.hz) [] false)) w →
      IsWord (instrumental g (effectiveChecks (blockDiag2 c.hx c.hz) [] false)) (w ∘ σ))
    (targets : List (Tableau c.dimension)) :
    ∃ res, c.getTransversalCircuits g false (auts.map callPerm) targets = some res := by
  obtain ⟨LX, LZ, GX, GZ, D, -, ⟨L, h2, -⟩, -⟩ := css_frame c h
  obtain ⟨found, hf⟩ := searchLoop_some (f := c.transversalData g false) (targets := targets) (auts.map callPerm) (by
      intro τ hτ
      obtain ⟨σ, hs, rfl⟩ := List.mem_map.1 hτ
      obtain ⟨-, -, circ, T, u, -, -, -, -, e, -⟩ := C81_css c h (hσ σ hs) (haut σ hs)
      exact ⟨_, e⟩) (targets.map fun _ => none)
  unfold CssCode.getTransversalCircuits
  rw [hf, Option.bind_some, h2]
  exact ⟨_, rfl⟩

/-- **C82**: the search ends once there is a circuit for every requested logical gate.  What comes later in the
enumeration of the automorphisms has no influence, even if its data cannot be computed. -/
theorem C82_early_exit (c : QCode (ZMod 2) n) (g : GateSet) (deform : Bool) (auts rest : List (ℕ → ℕ)) (hne : auts ≠ [])
    (targets : List (Tableau c.dimension)) {circuits : List (List Instr)}
    (h : c.getTransversalCircuits g deform auts targets = some (circuits.map some)) (hl : circuits.length = targets.length) :
    c.getTransversalCircuits g deform (auts ++ rest) targets = some (circuits.map some) := by
  unfold QCode.getTransversalCircuits at h ⊢
  rw [Option.bind_eq_some_iff] at h
  obtain ⟨found, hs, hr⟩ := h
  have h0 : List.Forall₂ (fun (_ : Tableau c.dimension) (_ : Option (Tableau c.dimension × List Instr)) => True) targets found := by
    have h0 : List.Forall₂ (Recorded (c.transversalData g deform) []) targets (targets.map fun _ => none) := by
      rw [List.forall₂_map_right_iff, List.forall₂_same]
      exact fun t _ => ⟨fun d e => by simp at e, fun _ σ hσ => by simp at hσ⟩
    exact (searchLoop_spec auts [] h0 hs).imp fun _ _ _ => trivial
  rw [Option.map_eq_some_iff] at hr
  obtain ⟨L, hL, hr⟩ := hr
  rw [searchLoop_append auts rest hne hs, Option.bind_some, hL, Option.map_some, hr]
  clear hs hL
  unfold correctedCircuits at hr
  induction h0 generalizing circuits with
  | nil => rfl
  | @cons t m ts ms _ _ ih =>
    cases circuits with
    | nil => simp at hl
    | cons r circuits =>
      rw [List.zipWith_cons_cons, List.map_cons, List.cons.injEq] at hr
      rw [List.any_cons, ih (by simpa using hl) hr.2]
      cases m with
      | none => simp at hr
      | some m => rfl

/-- **C82**, `get_transversal_circuit`: the first entry of the list for one logical gate, which always is there. -/
theorem C82_single (c : QCode (ZMod 2) n) (g : GateSet) (deform : Bool) (auts : List (ℕ → ℕ)) (target : Tableau c.dimension)
    (r : Option (List Instr)) :
    c.getTransversalCircuit g deform auts target = some r ↔ c.getTransversalCircuits g deform auts [target] = some [r] := by
  unfold QCode.getTransversalCircuit
  have hlen : ∀ res, c.getTransversalCircuits g deform auts [target] = some res → res.length = 1 := by
    intro res h
    unfold QCode.getTransversalCircuits at h
    rw [Option.bind_eq_some_iff] at h
    obtain ⟨found, hs, hr⟩ := h
    rw [Option.map_eq_some_iff] at hr
    obtain ⟨L, -, rfl⟩ := hr
    have h0 : List.Forall₂ (Recorded (c.transversalData g deform) []) [target] ([target].map fun _ => none) :=
      List.Forall₂.cons ⟨fun d e => by simp at e, fun _ σ hσ => by simp at hσ⟩ List.Forall₂.nil
    have := (searchLoop_spec auts [] h0 hs).length_eq
    unfold correctedCircuits
    rw [List.length_zipWith, ← this]
    rfl
  constructor
  · intro h
    rw [Option.bind_eq_some_iff] at h
    obtain ⟨res, hres, h⟩ := h
    have h1 := hlen res hres
    rw [hres]
    match res, h1 with
    | [r'], _ => simpa using h
  · intro h
    rw [h]
    rfl

/-- **C82**: what the comparisons of tableaus mean.  Two logical gates are equivalent precisely if they differ by a Pauli
operator, and a logical gate is left out as a Pauli operator precisely if it is conjugation by one. -/
theorem C82_comparisons {k : ℕ} {T U : Tableau k} (hT : T.Valid) (hU : U.Valid) :
    (equivModPaulis T U = true ↔ ∃ Q : SPauli k, ∀ P, T.apply P = U.apply (Q * P * Q⁻¹)) ∧
      (isPauliTableau T = true ↔ ∃ Q : SPauli k, ∀ P, T.apply P = Q * P * Q⁻¹) := by
  have key : ∀ U : Tableau k, U.Valid → (equivModPaulis T U = true ↔ ∃ Q : SPauli k, ∀ P, T.apply P = U.apply (Q * P * Q⁻¹)) := by
    intro U hU
    rw [equiv_iff hT hU]
    constructor
    · rintro ⟨v, hv⟩
      exact ⟨⟨0, v⟩, fun P => by rw [conj_eq]; exact hv P⟩
    · rintro ⟨Q, hQ⟩
      exact ⟨Q.op, fun P => by rw [← conj_eq]; exact hQ P⟩
  refine ⟨key U hU, ?_⟩
  rw [isPauli_eq, key _ Tableau.valid_identity]
  simp only [Tableau.apply_identity]

/-- **C82**, `get_transversal_ops` for all codes: everything that is returned is the logical gate and the circuit
of a generator and the circuit implements the gate; with `remove_redundancies`, no returned gate is a Pauli operator
or equals another one up to a Pauli operator, and the gate of every generator is a Pauli operator or equals a returned
gate up to a Pauli operator; without, the gates of all generators are returned. -/
theorem C82_ops (M : Rows (ZMod 2) (n + n)) (sub : Bool) (g : GateSet) (deform : Bool) (gens : List (ℕ → ℕ))
    {data ops : List (Tableau (QCode.ofMatrix M (some sub)).dimension × List Instr)}
    (hall : (QCode.ofMatrix M (some sub)).getTransversalOps g deform false gens = some data)
    (hops : (QCode.ofMatrix M (some sub)).getTransversalOps g deform true gens = some ops) :
    gens.mapM ((QCode.ofMatrix M (some sub)).transversalData g deform) = some data ∧
    (∀ L, (QCode.ofMatrix M (some sub)).getLogicalOps = some L → ∃ LX LZ, L = LX ++ LZ ∧
      LX.length = (QCode.ofMatrix M (some sub)).dimension ∧ LX.length = LZ.length ∧
      ∀ d ∈ data, d.1.Valid ∧ ∃ σ ∈ gens, ∃ circ, automorphismCircuit g n σ = some circ ∧
        (∃ u : Fin (n + n) → ZMod 2, d.2 = pauliStringCircuit u ++ circ.map Instr.gate) ∧
        ImplementsLogical (codeStabs sub M) (stabsAfter sub M deform circ) LX LZ (circuitTableau n d.2).apply d.1.apply) ∧
    (∀ d ∈ ops, d ∈ data ∧ ¬ ∃ Q, ∀ P, d.1.apply P = Q * P * Q⁻¹) ∧
    ops.Pairwise (fun d e => ¬ ∃ Q, ∀ P, e.1.apply P = d.1.apply (Q * P * Q⁻¹)) ∧
    ∀ d ∈ data, (∃ Q, ∀ P, d.1.apply P = Q * P * Q⁻¹) ∨ ∃ e ∈ ops, ∃ Q, ∀ P, d.1.apply P = e.1.apply (Q * P * Q⁻¹) := by
  unfold QCode.getTransversalOps at hall hops
  rw [Option.map_eq_some_iff] at hall hops
  obtain ⟨data', hd, e⟩ := hall
  rw [transversalOps_all] at e
  subst e
  obtain ⟨data', hd', rfl⟩ := hops
  rw [hd, Option.some.injEq] at hd'
  subst hd'
  have hval : ∀ LX LZ, (QCode.ofMatrix M (some sub)).getLogicalOps = some (LX ++ LZ) →
      LX.length = (QCode.ofMatrix M (some sub)).dimension → LZ.length = (QCode.ofMatrix M (some sub)).dimension →
      ∀ d ∈ data', d.1.Valid ∧ ∃ σ ∈ gens, ∃ circ, automorphismCircuit g n σ = some circ ∧
        (∃ u : Fin (n + n) → ZMod 2, d.2 = pauliStringCircuit u ++ circ.map Instr.gate) ∧
        ImplementsLogical (codeStabs sub M) (stabsAfter sub M deform circ) LX LZ (circuitTableau n d.2).apply d.1.apply := by
    intro LX LZ hL hx hz d hdm
    obtain ⟨σ, hσ, e⟩ := (mapM_some_iff _ _ _ hd).1 d hdm
    obtain ⟨circ, a1, ⟨u, b1, b2, b3⟩, -⟩ := code_data hL hx hz e
    exact ⟨b2, σ, hσ, circ, a1, ⟨u, b1⟩, b3⟩
  obtain ⟨s1, s2, s3⟩ := transversalOps_spec data'
  have hvalid : ∀ d ∈ data', d.1.Valid := by
    intro d hdm
    obtain ⟨σ, -, e⟩ := (mapM_some_iff _ _ _ hd).1 d hdm
    obtain ⟨-, -, -, -, -, -, -, -, -, hv, -⟩ := C81_returned M sub e
    exact hv
  refine ⟨hd, fun L hL => ?_, ?_, ?_, ?_⟩
  · obtain ⟨LX, LZ, rfl, hx, hz⟩ := ofMatrix_logicals hL
    exact ⟨LX, LZ, rfl, hx, hx.trans hz.symm, hval LX LZ hL hx hz⟩
  · intro d hdm
    obtain ⟨a, b⟩ := s1 d hdm
    refine ⟨a, ?_⟩
    have hv := hvalid d a
    rw [← (C82_comparisons hv hv).2, b]
    simp
  · refine List.Pairwise.imp_of_mem ?_ s2
    intro a b ha hb hab
    rw [← (C82_comparisons (hvalid b (s1 b hb).1) (hvalid a (s1 a ha).1)).1, hab]
    simp
  · intro d hdm
    have hv := hvalid d hdm
    rcases s3 d hdm with h | ⟨e, he, h⟩
    · exact Or.inl ((C82_comparisons hv hv).2.1 h)
    · refine Or.inr ⟨e, he, ?_⟩
      rcases h with rfl | h
      · exact ⟨1, fun P => by simp⟩
      · exact (C82_comparisons hv (hvalid e (s1 e he).1)).1.1 h

/-- **C82**, `get_transversal_ops` for CSS codes, both stabilizer codes and subsystem codes: everything that is returned is the logical gate and the circuit
of a generator and the circuit implements the gate; with `remove_redundancies`, no returned gate is a Pauli operator
or equals another one up to a Pauli operator, and the gate of every generator is a Pauli operator or equals a returned
gate up to a Pauli operator; without, the gates of all generators are returned. -/
theorem C82_ops_css (c : CssCode (ZMod 2) n) (h : CssOk c) (g : GateSet) (deform : Bool) (gens : List (ℕ → ℕ))
    {data ops : List (Tableau c.dimension × List Instr)}
    (hall : c.getTransversalOps g deform false gens = some data)
    (hops : c.getTransversalOps g deform true gens = some ops) :
    gens.mapM (c.transversalData g deform) = some data ∧
    (∃ LX LZ, (∃ L, c.logicals = some L ∧ xzRows L = LX ++ LZ) ∧
      LX.length = c.dimension ∧ LX.length = LZ.length ∧
      ∀ d ∈ data, d.1.Valid ∧ ∃ σ ∈ gens, ∃ circ, automorphismCircuit g n σ = some circ ∧
        (∃ u : Fin (n + n) → ZMod 2, d.2 = pauliStringCircuit u ++ circ.map Instr.gate) ∧
        ImplementsLogical c.canonicalStabs (cssStabsAfter c deform circ) LX LZ (circuitTableau n d.2).apply d.1.apply) ∧
    (∀ d ∈ ops, d ∈ data ∧ ¬ ∃ Q, ∀ P, d.1.apply P = Q * P * Q⁻¹) ∧
    ops.Pairwise (fun d e => ¬ ∃ Q, ∀ P, e.1.apply P = d.1.apply (Q * P * Q⁻¹)) ∧
    ∀ d ∈ data, (∃ Q, ∀ P, d.1.apply P = Q * P * Q⁻¹) ∨ ∃ e ∈ ops, ∃ Q, ∀ P, d.1.apply P = e.1.apply (Q * P * Q⁻¹) := by
  obtain ⟨LX, LZ, GX, GZ, D, h2, h3, hF, hdata⟩ := css_data h
  unfold CssCode.getTransversalOps at hall hops
  rw [Option.map_eq_some_iff] at hall hops
  obtain ⟨data', hd, e⟩ := hall
  rw [transversalOps_all] at e
  subst e
  obtain ⟨data', hd', rfl⟩ := hops
  rw [hd, Option.some.injEq] at hd'
  subst hd'
  have hval : ∀ d ∈ data', d.1.Valid ∧ ∃ σ ∈ gens, ∃ circ, automorphismCircuit g n σ = some circ ∧
        (∃ u : Fin (n + n) → ZMod 2, d.2 = pauliStringCircuit u ++ circ.map Instr.gate) ∧
        ImplementsLogical c.canonicalStabs (cssStabsAfter c deform circ) LX LZ (circuitTableau n d.2).apply d.1.apply := by
    intro d hdm
    obtain ⟨σ, hσ, e⟩ := (mapM_some_iff _ _ _ hd).1 d hdm
    obtain ⟨circ, a1, ⟨u, b1, b2, b3⟩, -⟩ := hdata g deform σ d e
    exact ⟨b2, σ, hσ, circ, a1, ⟨u, b1⟩, b3⟩
  obtain ⟨s1, s2, s3⟩ := transversalOps_spec data'
  refine ⟨hd, ⟨LX, LZ, h2, h3, hF.lenL, hval⟩, ?_, ?_, ?_⟩
  · intro d hdm
    obtain ⟨a, b⟩ := s1 d hdm
    refine ⟨a, ?_⟩
    have hv := (hval d a).1
    rw [← (C82_comparisons hv hv).2, b]
    simp
  · refine List.Pairwise.imp_of_mem ?_ s2
    intro a b ha hb hab
    rw [← (C82_comparisons (hval b (s1 b hb).1).1 (hval a (s1 a ha).1).1).1, hab]
    simp
  · intro d hdm
    have hv := (hval d hdm).1
    rcases s3 d hdm with h' | ⟨e, he, h'⟩
    · exact Or.inl ((C82_comparisons hv hv).2.1 h')
    · refine Or.inr ⟨e, he, ?_⟩
      rcases h' with rfl | h'
      · exact ⟨1, fun P => by simp⟩
      · exact (C82_comparisons hv (hval e (s1 e he).1).1).1.1 h'

/-! ## Examples -/

/-- Pauli strings on two qubits. -/
def pauliXZ2 (x z : Fin 2 → ZMod 2) : Fin (2 + 2) → ZMod 2 := Fin.append x z

/-- The code with the checks `XX` and `YY`. -/
def checksXXYY : Rows (ZMod 2) (2 + 2) := [pauliXZ2 ![1, 1] ![0, 0], pauliXZ2 ![1, 1] ![1, 1]]

/-- Hadamard gates on both qubits exchange the X and the Z columns. -/
def hadamards2 : Equiv.Perm (Fin (2 * 2)) := Equiv.swap 0 2 * Equiv.swap 1 3

/-- The hypotheses of `C81_stabilizer` are met. -/
theorem hadamards2_ok : AllCommute checksXXYY ∧
    hadamards2 ∈ Subgroup.closure {τ | τ ∈ columnPerms { h := true } (GateSet.numSectors { h := true }) 2} ∧
    ∀ c : Fin (2 * 2) → ZMod 2, IsWord (instrumental { h := true } (effectiveChecks checksXXYY [] false)) c →
      IsWord (instrumental { h := true } (effectiveChecks checksXXYY [] false)) (c ∘ hadamards2) := by
  refine ⟨by unfold AllCommute; decide +kernel, ?_, ?_⟩
  · refine Subgroup.mul_mem _ (Subgroup.subset_closure ?_) (Subgroup.subset_closure ?_)
    · change Equiv.swap (0 : Fin (2 * 2)) 2 ∈ columnPerms { h := true } 2 2
      decide +kernel
    · change Equiv.swap (1 : Fin (2 * 2)) 3 ∈ columnPerms { h := true } 2 2
      decide +kernel
  · unfold IsWord
    decide +kernel

/-- **C81** fails if signs are taken to be those of the given parity checks: for the checks `XX`, `YY`, whose group
contains `-ZZ`, the circuit returned for the automorphism that exchanges X and Z columns consists of two Hadamard gates
and maps `XX` to `+ZZ`.  (The row-reduced stabilizers are `XX`, `ZZ`.) -/
theorem C81_disagreement :
    ((QCode.ofMatrix checksXXYY (some false)).transversalData { h := true } false (callPerm hadamards2)).map Prod.snd =
        some [Instr.gate (.H 0), Instr.gate (.H 1)] ∧
      SPauli.InStabilizerGroup checksXXYY (SPauli.plus (pauliXZ2 ![1, 1] ![0, 0])) ∧
      ¬ SPauli.InStabilizerGroup checksXXYY
        ((circuitTableau 2 [Instr.gate (.H 0), Instr.gate (.H 1)]).apply (SPauli.plus (pauliXZ2 ![1, 1] ![0, 0]))) := by
  refine ⟨by decide +kernel, ?_, ?_⟩
  · have := SPauli.Generated.mul (SPauli.Generated.one (G := fun p => ∃ s ∈ checksXXYY, p = SPauli.plus s))
      ⟨pauliXZ2 ![1, 1] ![0, 0], by decide +kernel, rfl⟩
    rw [one_mul] at this
    exact this
  · have e : (circuitTableau 2 [Instr.gate (.H 0), Instr.gate (.H 1)]).apply (SPauli.plus (pauliXZ2 ![1, 1] ![0, 0])) =
        SPauli.plus (pauliXZ2 ![0, 0] ![1, 1]) := by decide +kernel
    rw [e]
    have key : ∀ p, SPauli.InStabilizerGroup checksXXYY p → p ∈ ([1, SPauli.plus (pauliXZ2 ![1, 1] ![0, 0]),
        SPauli.plus (pauliXZ2 ![1, 1] ![1, 1]), SPauli.scalar 2 * SPauli.plus (pauliXZ2 ![0, 0] ![1, 1])] : List (SPauli 2)) := by
      intro p hp
      induction hp with
      | one => decide +kernel
      | mul _ hq ih =>
        obtain ⟨s, hs, rfl⟩ := hq
        have h4 : ∀ p ∈ ([1, SPauli.plus (pauliXZ2 ![1, 1] ![0, 0]),
          SPauli.plus (pauliXZ2 ![1, 1] ![1, 1]), SPauli.scalar 2 * SPauli.plus (pauliXZ2 ![0, 0] ![1, 1])] : List (SPauli 2)),
          ∀ s ∈ checksXXYY, p * SPauli.plus s ∈ ([1, SPauli.plus (pauliXZ2 ![1, 1] ![0, 0]),
          SPauli.plus (pauliXZ2 ![1, 1] ![1, 1]), SPauli.scalar 2 * SPauli.plus (pauliXZ2 ![0, 0] ![1, 1])] : List (SPauli 2)) := by
          decide +kernel
        exact h4 _ ih s hs
    intro h
    have := key _ h
    revert this
    decide +kernel

/-- A Pauli correction is needed: `H` maps the stabilizer `Y` to `-Y`. -/
example : ((QCode.ofMatrix [(Fin.append ![1] ![1] : Fin (1 + 1) → ZMod 2)] (some false)).transversalData { h := true } false
    (callPerm (Equiv.swap (0 : Fin (2 * 1)) 1))).map Prod.snd = some [Instr.Z 0, Instr.gate (.H 0)] := by decide +kernel

/-- The `[[4, 2, 2]]` code. -/
def checks422 : Rows (ZMod 2) (4 + 4) := [Fin.append ![1, 1, 1, 1] 0, Fin.append 0 ![1, 1, 1, 1]]

/-- Exchanging the first two qubits is a logical gate on the two logical qubits. -/
example : let c := QCode.ofMatrix checks422 (some false)
    c.dimension = 2 ∧ (match c.transversalData { swap := true } false (callPerm (Equiv.swap (0 : Fin (2 * 4)) 1 * Equiv.swap 4 5)) with
      | some d => d.2 == [Instr.gate (.SWAP 0 1)] && !isPauliTableau d.1
      | none => false) = true := by decide +kernel

/-- A search that finds a circuit for the logical gate of an automorphism with other signs. -/
example : let c := QCode.ofMatrix checks422 (some false)
    let auts := [callPerm (1 : Equiv.Perm (Fin (2 * 4))), callPerm (Equiv.swap (0 : Fin (2 * 4)) 1 * Equiv.swap 4 5)]
    (match c.transversalData { swap := true } false (callPerm (Equiv.swap (0 : Fin (2 * 4)) 1 * Equiv.swap 4 5)) with
      | some d => (match c.getTransversalCircuits { swap := true } false auts
            [⟨fun j => SPauli.scalar 2 * d.1.xs j, d.1.zs⟩, ⟨d.1.zs, d.1.xs⟩] with
          | some [some r, none] => decide (2 < r.length)
          | _ => false)
      | none => false) = true := by decide +kernel

/-- The gauge generators `XX` and `ZI` of a subsystem code on two qubits. -/
def gauge2 : Rows (ZMod 2) (2 + 2) := [pauliXZ2 ![1, 1] ![0, 0], pauliXZ2 ![0, 0] ![1, 0]]

/-- The hypotheses of `C81_returned` and `C82_circuits` are met by a subsystem code: a logical qubit, a gauge qubit. -/
example : let c := QCode.ofMatrix gauge2 (some true)
    c.dimension = 1 ∧ c.gaugeDimension = 1 ∧
      (c.transversalData { swap := true } false (callPerm (1 : Equiv.Perm (Fin (2 * 2))))).isSome = true ∧
      ((c.getTransversalCircuits { swap := true } true [callPerm (1 : Equiv.Perm (Fin (2 * 2)))]
        [Tableau.identity _]).map (List.map Option.isSome)) = some [true] := by
  decide +kernel

/-- Exchanging the qubits does not keep the logical operators of this code, so a deformed code is refused. -/
example : ((QCode.ofMatrix gauge2 (some true)).transversalData { swap := true } true
    (callPerm (Equiv.swap (1 : Fin (2 * 2)) 0 * Equiv.swap 3 2))).isSome = false := by decide +kernel

/-- The search for the logical identity ends before a permutation for which the data cannot be computed. -/
example : let c := QCode.ofMatrix gauge2 (some true)
    let bad := callPerm (Equiv.swap (0 : Fin (2 * 2)) 1)
    (c.transversalData { swap := true } false bad).isSome = false ∧
      ((c.getTransversalCircuit { swap := true } false [callPerm (1 : Equiv.Perm (Fin (2 * 2))), bad] (Tableau.identity _)).map Option.isSome) =
        some true ∧
      (c.getTransversalCircuit { swap := true } false [bad, callPerm (1 : Equiv.Perm (Fin (2 * 2)))] (Tableau.identity _)).isSome = false := by
  decide +kernel

#print axioms C81_stabilizer
#print axioms C81_css
#print axioms C81_deform
#print axioms C81_deform_iff
#print axioms C81_logical_tableau
#print axioms C81_logical_tableau_css
#print axioms C81_unique
#print axioms C81_returned
#print axioms C81_returned_css
#print axioms C81_disagreement
#print axioms C82_circuits
#print axioms C82_circuits_css
#print axioms C82_succeeds
#print axioms C82_succeeds_css
#print axioms C82_early_exit
#print axioms C82_single
#print axioms C82_comparisons
#print axioms C82_ops
#print axioms C82_ops_css

/-! ### Instances of the theorems: concrete cases meet the hypotheses -/

private def graphState' : Rows (ZMod 2) (2 + 2) := [Fin.append ![1, 0] ![0, 1], Fin.append ![0, 1] ![1, 0]]
private theorem graphState'_commute : AllCommute graphState' := by unfold AllCommute; decide +kernel
private theorem c422_css : CssOk (CssCode.ofMatrices ([![1, 1, 1, 1]] : Rows (ZMod 2) 4) [![1, 1, 1, 1]] (some false) false) :=
  cssOk_ofMatrices _ _ _ _ (fun _ => by decide +kernel) (by simp)
example := C81_logical_tableau graphState' graphState'_commute []
example := C81_logical_tableau_css _ c422_css []

example := C81_stabilizer checksXXYY hadamards2_ok.1 hadamards2_ok.2.1 hadamards2_ok.2.2
example := C82_succeeds checksXXYY hadamards2_ok.1 (g := { h := true }) [hadamards2] (List.forall_mem_singleton.2 hadamards2_ok.2.1)
  (List.forall_mem_singleton.2 hadamards2_ok.2.2) []
example : True := by
  obtain ⟨d, hd⟩ := Option.isSome_iff_exists.1 (show ((QCode.ofMatrix gauge2 (some true)).transversalData { swap := true } false
    (callPerm (1 : Equiv.Perm (Fin (2 * 2))))).isSome = true by decide +kernel)
  have h := C81_returned gauge2 true hd
  trivial
example : True := by
  obtain ⟨d, hd⟩ := Option.isSome_iff_exists.1 (show ((QCode.ofMatrix checks422 (some false)).transversalData { swap := true } true
    (callPerm (1 : Equiv.Perm (Fin (2 * 4))))).isSome = true by decide +kernel)
  have h := C81_deform checks422 (by unfold AllCommute; decide +kernel) hd
  trivial
example : True := by
  obtain ⟨circ, hc⟩ := Option.isSome_iff_exists.1 (show (automorphismCircuit { swap := true } 4
    (callPerm (Equiv.swap (0 : Fin (2 * 4)) 1 * Equiv.swap 4 5))).isSome = true by decide +kernel)
  have h := C81_deform_iff checks422 (by unfold AllCommute; decide +kernel) hc
  trivial
example : True := by
  obtain ⟨d, hd⟩ := Option.isSome_iff_exists.1 (show ((CssCode.ofMatrices ([![1, 1, 1, 1]] : Rows (ZMod 2) 4) [![1, 1, 1, 1]] (some false) false).transversalData
    { swap := true } false (callPerm (Equiv.swap (0 : Fin (2 * 4)) 1 * Equiv.swap 4 5))).isSome = true by decide +kernel)
  have h := C81_returned_css _ (cssOk_ofMatrices _ _ _ _ (fun _ => by decide +kernel) (by simp)) hd
  trivial
example : True := by
  obtain ⟨res, hres⟩ := Option.isSome_iff_exists.1 (show ((QCode.ofMatrix gauge2 (some true)).getTransversalCircuits { swap := true } true
    [callPerm (1 : Equiv.Perm (Fin (2 * 2)))] []).isSome = true by decide +kernel)
  have h := C82_circuits gauge2 true _ _ _ [] (by simp) hres
  trivial
example : True := by
  obtain ⟨data, hall⟩ := Option.isSome_iff_exists.1 (show ((QCode.ofMatrix checks422 (some false)).getTransversalOps { swap := true } false false
    [callPerm (Equiv.swap (0 : Fin (2 * 4)) 1 * Equiv.swap 4 5)]).isSome = true by decide +kernel)
  obtain ⟨ops, hops⟩ := Option.isSome_iff_exists.1 (show ((QCode.ofMatrix checks422 (some false)).getTransversalOps { swap := true } false true
    [callPerm (Equiv.swap (0 : Fin (2 * 4)) 1 * Equiv.swap 4 5)]).isSome = true by decide +kernel)
  have h := C82_ops checks422 false _ _ _ hall hops
  trivial

example : True := by
  obtain ⟨res, hres⟩ := Option.isSome_iff_exists.1 (show ((CssCode.ofMatrices ([![1, 1, 1, 1]] : Rows (ZMod 2) 4) [![1, 1, 1, 1]] (some false) false).getTransversalCircuits
    { swap := true } false [callPerm (Equiv.swap (0 : Fin (2 * 4)) 1 * Equiv.swap 4 5)] []).isSome = true by decide +kernel)
  have h := C82_circuits_css _ (cssOk_ofMatrices _ _ _ _ (fun _ => by decide +kernel) (by simp)) _ _ _ [] (by simp) hres
  trivial
example : True := by
  obtain ⟨data, hall⟩ := Option.isSome_iff_exists.1 (show ((CssCode.ofMatrices ([![1, 1, 1, 1]] : Rows (ZMod 2) 4) [![1, 1, 1, 1]] (some false) false).getTransversalOps
    { swap := true } false false [callPerm (Equiv.swap (0 : Fin (2 * 4)) 1 * Equiv.swap 4 5)]).isSome = true by decide +kernel)
  obtain ⟨ops, hops⟩ := Option.isSome_iff_exists.1 (show ((CssCode.ofMatrices ([![1, 1, 1, 1]] : Rows (ZMod 2) 4) [![1, 1, 1, 1]] (some false) false).getTransversalOps
    { swap := true } false true [callPerm (Equiv.swap (0 : Fin (2 * 4)) 1 * Equiv.swap 4 5)]).isSome = true by decide +kernel)
  have h := C82_ops_css _ (cssOk_ofMatrices _ _ _ _ (fun _ => by decide +kernel) (by simp)) _ _ _ hall hops
  trivial
private def swap422 : Equiv.Perm (Fin (2 * 4)) := Equiv.swap 0 1 * Equiv.swap 4 5
private theorem swap422_mem : swap422 ∈ Subgroup.closure {τ | τ ∈ columnPerms { swap := true } (GateSet.numSectors { swap := true }) 4} :=
  Subgroup.subset_closure (by show _ ∈ columnPerms { swap := true } 2 4; decide +kernel)
private theorem swap422_aut : ∀ w : Fin (GateSet.numSectors { swap := true } * 4) → ZMod 2,
    IsWord (instrumental { swap := true } (effectiveChecks (blockDiag2 [![1, 1, 1, 1]] [![1, 1, 1, 1]]) [] false)) w →
      IsWord (instrumental { swap := true } (effectiveChecks (blockDiag2 [![1, 1, 1, 1]] [![1, 1, 1, 1]]) [] false)) (w ∘ swap422) := by
  show ∀ w : Fin (2 * 4) → ZMod 2, _
  unfold IsWord; decide +kernel
example := C81_css _ c422_css swap422_mem swap422_aut
example := C82_succeeds_css _ c422_css (g := { swap := true }) [swap422] (List.forall_mem_singleton.2 swap422_mem) (List.forall_mem_singleton.2 swap422_aut) []
example := C82_comparisons (k := 2) (Tableau.valid_identity (n := 2)) (Tableau.valid_identity (n := 2))
example : True := by
  obtain ⟨res, hres⟩ := Option.isSome_iff_exists.1 (show ((QCode.ofMatrix gauge2 (some true)).getTransversalCircuits { swap := true } true
    [callPerm (1 : Equiv.Perm (Fin (2 * 2)))] [Tableau.identity _]).isSome = true by decide +kernel)
  have hl : ((QCode.ofMatrix gauge2 (some true)).getTransversalCircuits { swap := true } true
    [callPerm (1 : Equiv.Perm (Fin (2 * 2)))] [Tableau.identity _]).map (List.map Option.isSome) = some [true] := by decide +kernel
  rw [hres] at hl
  obtain ⟨circ, rfl⟩ : ∃ circ, res = [some circ] := by
    match res, hl with
    | [some c], _ => exact ⟨c, rfl⟩
  have h := C82_early_exit _ _ _ _ [callPerm (Equiv.swap (0 : Fin (2 * 2)) 1)] (by simp) _ (circuits := [circ]) hres rfl
  trivial

end QLDPC.Props
