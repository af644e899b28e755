import Verif.Props.Transversal

/-!
# C81: transversal circuits of CSS stabilizer codes that may be deformed

The call succeeds precisely if the images of the checks commute with the logical operators, as for other stabilizer
codes (`C81_deform_iff`); what it returns is covered by `C81_returned_css`.
-/

namespace QLDPC.Props

open QLDPC QLDPC.Spec

variable {n : ℕ}

theorem rank_map_opMap (M : Rows (ZMod 2) (n + n)) (circ : List Instr) :
    rank (M.map (circuitTableau n circ).opMap) = rank M := by
  have hV := circuitTableau_valid (n := n) circ
  have e : M.map (circuitTableau n circ).opMap = M.map (opMapₗ (circuitTableau n circ)) := rfl
  rw [← finrank_rowSpan, ← finrank_rowSpan, e, rowSpan_map]
  exact (LinearEquiv.finrank_eq (Submodule.equivMapOfInjective (opMapₗ (circuitTableau n circ)) hV.opMap_inj (rowSpan M))).symm

/-- Encoders of codes with stored logical operators. -/
theorem stored_frame {M : Rows (ZMod 2) (n + n)} (hM : AllCommute M) {LX LZ : Rows (ZMod 2) (n + n)}
    (hn : LX.length + rank M = n) (hL : IsLogicalBasis M LX LZ) {circ : List Instr} {d : QCode (ZMod 2) n}
    (he : (QCode.ofMatrix (M.map (circuitTableau n circ).opMap) (some false)).setLogicalOps (LX ++ LZ) = .ok d) :
    ∃ D', d.encodingTableau = some (LX ++ D', LZ ++ stabs (M.map (circuitTableau n circ).opMap)) ∧
      Frame (stabs (M.map (circuitTableau n circ).opMap)) LX LZ [] [] D' ∧
      rowSpan (stabs (M.map (circuitTableau n circ).opMap)) = rowSpan (M.map (circuitTableau n circ).opMap) := by
  have hV := circuitTableau_valid (n := n) circ
  obtain ⟨LX', LZ', e0, e1, e2, e3, e4, e5, e6, e7⟩ := C21_accepted_partial _ _ _ he
  have e6' : d.matrix = M.map (circuitTableau n circ).opMap := e6
  have hLX : LX.length = LX'.length := by
    have := congrArg List.length e0
    rw [List.length_append, List.length_append, ← hL.len] at this
    omega
  have hdim : LX.length = d.dimension := by rw [hLX, e1, e7]
  have hcm : AllCommute d.matrix := by
    rw [e6']
    intro p hp q hq
    obtain ⟨p, hp', rfl⟩ := List.mem_map.1 hp
    obtain ⟨q, hq', rfl⟩ := List.mem_map.1 hq
    rw [hV.sform_opMap]; exact hM p hp' q hq'
  have hcm' : ∀ r ∈ d.matrix, ∀ l ∈ LX ++ LZ, sform r l = 0 := by rw [e6]; exact e3
  have hlog : IsLogicalBasis d.matrix LX LZ :=
    { len := hL.len, pair := hL.pair, xx := hL.xx, zz := hL.zz
      commX := fun r hr l hl => hcm' r hr l (List.mem_append_left _ hl)
      commZ := fun r hr l hl => hcm' r hr l (List.mem_append_right _ hl) }
  obtain ⟨D', h1, h2, h3⟩ := C61_stored d (setLogicalOps_isSub he) hcm e5 hlog hdim (by rw [e6', rank_map_opMap, hn])
  rw [e6'] at h1 h2 h3
  refine ⟨D', h1, ⟨by simpa using h2, hL.len, rfl⟩, ?_⟩
  ext p
  rw [← isCombination_iff, ← isCombination_iff, h3]

theorem stored_iff {M LX LZ : Rows (ZMod 2) (n + n)} (hn : LX.length + rank M = n) (hL : IsLogicalBasis M LX LZ)
    (circ : List Instr) :
    (∃ d, (QCode.ofMatrix (M.map (circuitTableau n circ).opMap) (some false)).setLogicalOps (LX ++ LZ) = .ok d) ↔
      ∀ r ∈ M, ∀ l ∈ LX ++ LZ, sform ((circuitTableau n circ).opMap r) l = 0 := by
  constructor
  · rintro ⟨d, hd⟩
    obtain ⟨LX', LZ', -, -, -, e3, -⟩ := C21_accepted_partial _ _ _ hd
    intro r hr l hl
    exact e3 _ (List.mem_map_of_mem hr) l hl
  · intro h
    obtain ⟨d, hd⟩ := C21_accepts (QCode.ofMatrix (M.map (circuitTableau n circ).opMap) (some false)) LX LZ
      { len := hL.len, pair := hL.pair, xx := hL.xx, zz := hL.zz
        commX := fun r hr l hl => by
          obtain ⟨r, hr', rfl⟩ := List.mem_map.1 hr
          exact h r hr' l (List.mem_append_left _ hl)
        commZ := fun r hr l hl => by
          obtain ⟨r, hr', rfl⟩ := List.mem_map.1 hr
          exact h r hr' l (List.mem_append_right _ hl) }
      (by
        change LX.length = stabDimension (M.map (circuitTableau n circ).opMap)
        unfold stabDimension
        rw [dropZero_rowReduce, List.length_map]
        change LX.length = n - rank (M.map (circuitTableau n circ).opMap)
        rw [rank_map_opMap]
        omega)
    exact ⟨d, hd⟩

/-- **C81**, CSS stabilizer codes: the call for a deformed code succeeds precisely if the images of the checks commute
with all logical operators. -/
theorem C81_deform_css_iff (c : CssCode (ZMod 2) n) (h : CssOk c) (hsub : c.isSub = false) {g : GateSet} {σ : ℕ → ℕ}
    {circ : List Gate} (hc : automorphismCircuit g n σ = some circ) :
    ∃ L, c.logicals = some L ∧
      ((∃ d, c.transversalData g true σ = some d) ↔
        ∀ r ∈ blockDiag2 c.hx c.hz, ∀ l ∈ xzRows L, sform (conjugateBy circ r) l = 0) := by
  obtain ⟨LX, LZ, GX, GZ, D, h1, ⟨L, hL1, hL2⟩, h3, h4, hF, hS⟩ := css_frame c h
  have hg : c.gaugeDimension = 0 := by unfold CssCode.gaugeDimension; rw [hsub]; rfl
  rw [hg, List.length_eq_zero_iff] at h4
  subst h4
  have hGZ : GZ = [] := List.length_eq_zero_iff.1 hF.lenG.symm
  subst hGZ
  refine ⟨L, hL1, ?_⟩
  have hM : AllCommute (blockDiag2 c.hx c.hz) := by
    have hxz := h.sub hsub
    intro p hp q hq
    unfold blockDiag2 at hp hq
    rw [List.mem_append, List.mem_map, List.mem_map] at hp hq
    rcases hp with ⟨x, hx, rfl⟩ | ⟨x, hx, rfl⟩ <;> rcases hq with ⟨y, hy, rfl⟩ | ⟨y, hy, rfl⟩
    · simp [sform_eq, xPart_append, zPart_append, dot_zero_left, dot_zero_right]
    · have := hxz x hx y hy
      simp only [sform_eq, xPart_append, zPart_append, dot_zero_left, sub_zero]
      exact this
    · have := hxz y hy x hx
      simp only [sform_eq, xPart_append, zPart_append, dot_zero_left, zero_sub, neg_eq_zero]
      rw [dot_comm]
      exact this
    · simp [sform_eq, xPart_append, zPart_append, dot_zero_left, dot_zero_right]
  have hLB : IsLogicalBasis (blockDiag2 c.hx c.hz) LX LZ := by
    obtain ⟨lx, lz, hl, hcomp, -, -⟩ := h.logicals
    have e : L = (lx, lz) := by
      rw [hl] at hL1
      exact (Option.some.inj hL1).symm
    subst e
    have hb := isLogicalBasis_of_css hcomp.basis
    have hlen : LX.length = (lx.map fun r => Fin.append r (0 : Fin n → ZMod 2)).length := by
      have e1 := congrArg List.length hL2
      have e2 := hb.len
      have e3 := hF.lenL
      unfold xzRows at e1
      simp only [List.length_append] at e1
      omega
    obtain ⟨e1, e2⟩ := List.append_inj hL2 hlen.symm
    rw [← e1, ← e2]
    exact hb
  have hrank : LX.length + rank (blockDiag2 c.hx c.hz) = n := by
    obtain ⟨SX, SZ, e1, -, -, -, -, l1, l2⟩ := canonicalStabs_spec h
    have e2 : rank (blockDiag2 c.hx c.hz) = rank c.canonicalStabs :=
      rank_eq_of_rowSpan_eq (by rw [← hS, List.append_nil, List.append_nil])
    have e3 := hF.tab.lenZ
    rw [e2, e1, rank_blockDiag2, ← l1, ← l2]
    rw [e1, List.append_nil, List.length_append, ← hF.lenL] at e3
    unfold blockDiag2 at e3
    rw [List.length_append, List.length_map, List.length_map] at e3
    omega
  have hi := stored_iff hrank hLB (circ.map Instr.gate)
  simp only [opMap_circuit circ (automorphismCircuit_inRange hc)] at hi
  rw [hL2, ← hi]
  have hdef : c.deformed (circ.map Instr.gate) =
      ((QCode.ofMatrix ((blockDiag2 c.hx c.hz).map (circuitTableau n (circ.map Instr.gate)).opMap)
        (some false)).setLogicalOps (LX ++ LZ)).toOption := by
    unfold CssCode.deformed
    simp only
    rw [hL1, Option.bind_some, hL2, deformString_eq, hsub]
  unfold CssCode.transversalData CssCode.encoderDecoder
  simp only [if_true]
  rw [hc, Option.bind_some, h1, Option.bind_some, hdef]
  constructor
  · rintro ⟨d, hd⟩
    rw [Option.bind_eq_some_iff] at hd
    obtain ⟨ed, hed, -⟩ := hd
    rw [Option.bind_eq_some_iff] at hed
    obtain ⟨c', hc', -⟩ := hed
    refine ⟨c', ?_⟩
    cases hs : (QCode.ofMatrix ((blockDiag2 c.hx c.hz).map (circuitTableau n (circ.map Instr.gate)).opMap)
        (some false)).setLogicalOps (LX ++ LZ) with
    | error e => rw [hs] at hc'; simp [Except.toOption] at hc'
    | ok d' =>
      rw [hs] at hc'
      simp only [Except.toOption, Option.some.injEq] at hc'
      rw [hc']
  · rintro ⟨c', hc'⟩
    obtain ⟨D', f1, hF', hS'⟩ := stored_frame hM hrank hLB hc'
    obtain ⟨T, c'', u, e1, -, -, -⟩ := data_core hF hF' rfl h3 (g := 0) rfl (c := circ.map Instr.gate) (by
      rw [hS]
      simp only [List.append_nil, hS']
      exact mem_rowSpan_opMap (circuitTableau_valid _) (blockDiag2 c.hx c.hz))
    rw [hc']
    simp only [Except.toOption, Option.bind_some]
    rw [f1, Option.map_some, Option.bind_some, hg]
    rw [frame_nil, frame_nil] at e1
    simp only [List.append_nil]
    exact ⟨_, e1⟩

/-- The CSS subsystem code on three qubits with gauge generators `X_2`, `X_1 X_3`, `Z_1` and `Z_1 Z_2 Z_3`. -/
def gauge3 : CssCode (ZMod 2) 3 := CssCode.ofMatrices [![0, 1, 0], ![1, 0, 1]] [![1, 0, 0], ![1, 1, 1]] (some true)

/-- **C81** fails for subsystem codes that may be deformed: the permutation that changes nothing belongs to the group of
automorphisms of every code, and the call succeeds for it if `deform_code` is false, but raises if `deform_code` is true.
(The "deformed" code is a `QuditCode` with the same gauge group, and its gauge operators are wrong by C70.) -/
theorem C81_deform_subsystem_disagreement :
    CssOk gauge3 ∧ automorphismCircuit { swap := true } 3 id = some [] ∧
      (∀ L, gauge3.logicals = some L → ∀ r ∈ blockDiag2 gauge3.hx gauge3.hz, ∀ l ∈ xzRows L, sform r l = 0) ∧
      (gauge3.transversalData { swap := true } false id).isSome = true ∧
      gauge3.transversalData { swap := true } true id = none := by
  have hok : CssOk gauge3 := cssOk_ofMatrices _ _ (some true) false (by simp) (by simp)
  refine ⟨hok, by decide +kernel, ?_, by decide +kernel, ?_⟩
  · intro L hL r hr l hl
    obtain ⟨lx, lz, hl', hcomp, -, -⟩ := hok.logicals
    have e : L = (lx, lz) := by rw [hl'] at hL; exact (Option.some.inj hL).symm
    subst e
    have hb := isLogicalBasis_of_css hcomp.basis
    rcases List.mem_append.1 hl with h | h
    · exact hb.commX r hr l h
    · exact hb.commZ r hr l h
  · have h : (gauge3.transversalData { swap := true } true id).isNone = true := by decide +kernel
    exact Option.isNone_iff_eq_none.1 h

/-- The Steane code. -/
def steaneRows : Rows (ZMod 2) 7 := [![1, 0, 1, 0, 1, 0, 1], ![0, 1, 1, 0, 0, 1, 1], ![0, 0, 0, 1, 1, 1, 1]]

example : CssOk (CssCode.ofMatrices steaneRows steaneRows) ∧ (CssCode.ofMatrices steaneRows steaneRows).isSub = false :=
  ⟨cssOk_ofMatrices _ _ none false (by simp) (by simp), by decide +kernel⟩
example : automorphismCircuit { s := false, h := true, sqrtX := false, swap := false } 2 id = some [] := by decide +kernel

#print axioms C81_deform_css_iff
#print axioms C81_deform_subsystem_disagreement

/-! ### Instances of the theorems: concrete cases meet the hypotheses -/

example := C81_deform_css_iff (CssCode.ofMatrices ([![1, 1, 1, 1]] : Rows (ZMod 2) 4) [![1, 1, 1, 1]] (some false))
  (cssOk_ofMatrices _ _ _ _ (fun _ => by decide +kernel) (by simp)) rfl (g := { h := true }) (σ := fun q => if q = 0 then 4 else if q = 4 then 0 else q)
  (circ := [.H 0]) (by decide +kernel)

end QLDPC.Props
