import Verif.Lemmas.CssDistance
import Mathlib.Algebra.Field.ZMod

/-!
# Properties C27, C28, C73, C74: distances, gauge operators and logical operators of CSS codes
-/

namespace QLDPC.Props

open QLDPC QLDPC.Spec

set_option linter.unusedSectionVars false

variable {F : Type} [Field F] [DecidableEq F] {n : ℕ}

/-- A reported X-distance (`none` is `nan`) is right. -/
def XDistanceIs (hx hz : Rows F n) : Option ℕ → Prop
  | none => ∀ v, ¬ IsNontrivialX hx hz v
  | some d => IsXDistance hx hz d

/-- A reported distance (`none` is `nan`) is right. -/
def DistanceIs (M : Rows F (n + n)) : Option ℕ → Prop
  | none => ∀ p, ¬ IsNontrivialLogical M p
  | some d => IsCodeDistance M d

/-- A reported distance for one type, or for both, is right. -/
def ReportIs (hx hz : Rows F n) : Option PauliXZ → Option ℕ → Prop
  | some .X, d => XDistanceIs hx hz d
  | some .Z, d => XDistanceIs hz hx d
  | none, d => DistanceIs (hx.map (fun r => Fin.append r 0) ++ hz.map fun r => Fin.append 0 r) d

/-- What a `CSSCode` object is assumed to satisfy, and what is shown to stay true: a code that is not a
subsystem code has commuting checks, known logical operators are logical operators in the right number,
known distances are right, and a promise of equal X- and Z-distances is true. -/
structure CssOk (c : CssCode F n) : Prop where
  sub : c.isSub = false → ∀ x ∈ c.hx, ∀ z ∈ c.hz, ∑ q, x q * z q = 0
  log : ∀ L, c.logicals? = some L → IsCssLogicalBasis c.hx c.hz L.1 L.2 ∧
    L.1.length = cssDimension c.hx c.hz c.isSub
  eqXZ : c.equalXZ = true → ∀ d, XDistanceIs c.hx c.hz d ↔ XDistanceIs c.hz c.hx d
  distX : ∀ d, c.distX? = some d → XDistanceIs c.hx c.hz d
  distZ : ∀ d, c.distZ? = some d → XDistanceIs c.hz c.hx d
  dist : ∀ d, c.dist? = some d → ReportIs c.hx c.hz none d

/-- A new `CSSCode`, without or with a true promise of equal distances, satisfies the assumptions if
`is_subsystem_code` is left out, `True`, or truthfully `False`. -/
theorem cssOk_ofMatrices (hx hz : Rows F n) (sub : Option Bool) (promise : Bool)
    (hsub : sub = some false → ∀ x ∈ hx, ∀ z ∈ hz, ∑ q, x q * z q = 0)
    (hp : promise = true → ∀ d, XDistanceIs hx hz d ↔ XDistanceIs hz hx d) :
    CssOk (CssCode.ofMatrices hx hz sub promise) := by
  refine ⟨?_, (by intro L h; cases h), ?_, (by intro L h; cases h), (by intro L h; cases h),
    (by intro L h; cases h)⟩
  · intro h
    cases sub with
    | some b => exact hsub (congrArg some h)
    | none =>
      intro x hx' z hz'
      simp only [CssCode.ofMatrices, Option.getD_none, List.any_eq_false, decide_eq_true_eq,
        Bool.not_eq_true, decide_eq_false_iff_not, not_not] at h
      exact h x hx' z hz'
  · intro h d
    simp only [CssCode.ofMatrices, Bool.or_eq_true, decide_eq_true_eq] at h
    rcases h with h | h
    · exact hp h d
    · simp only [CssCode.ofMatrices, h]

namespace CssOk

variable {c : CssCode F n}

theorem logicals (h : CssOk c) : ∃ LX LZ, c.logicals = some (LX, LZ) ∧
    CssComplete c.hx c.hz LX LZ ∧ LX.length = cssDimension c.hx c.hz c.isSub ∧
    c.dimension = LX.length := by
  unfold CssCode.logicals CssCode.dimension
  cases hL : c.logicals? with
  | some L =>
    obtain ⟨h1, h2⟩ := h.log L hL
    exact ⟨L.1, L.2, rfl, cssComplete_of_dim h.sub h1 h2, h2, rfl⟩
  | none =>
    cases hs : c.isSub with
    | true =>
      obtain ⟨LX, LZ, h1, h2, h3, _⟩ := cssLogicals_subsystem c.hx c.hz
      exact ⟨LX, LZ, h1, cssComplete_of_dim (sub := true) (by simp) h2 h3, h3, h3.symm⟩
    | false =>
      obtain ⟨LX, LZ, h1, h2, h3, _⟩ := cssLogicals_stabilizer c.hx c.hz (h.sub hs)
      exact ⟨LX, LZ, h1, cssComplete_of_dim (sub := false) (fun _ => h.sub hs) h2 h3, h3, h3.symm⟩

theorem stabOps (h : CssOk c) : rowSpan (c.stabOps .X) = rowSpan c.hx ⊓ kernel c.hz ∧
    rowSpan (c.stabOps .Z) = rowSpan c.hz ⊓ kernel c.hx := by
  cases hs : c.isSub with
  | true =>
    have := CssCode.rowSpan_stabOps (c := c) (A := cssStabs c.hx c.hz) (B := cssStabs c.hz c.hx)
      (by simp [CssCode.stabMatrix, hs])
    rwa [rowSpan_cssStabs, rowSpan_cssStabs] at this
  | false =>
    have := CssCode.rowSpan_stabOps (c := c) (A := c.hx) (B := c.hz)
      (by simp [CssCode.stabMatrix, hs])
    have hc := h.sub hs
    rw [this.1, this.2]
    have e1 : rowSpan c.hx ≤ kernel c.hz :=
      rowSpan_le.2 fun x hx' z hz' => by rw [dot_comm]; exact hc x hx' z hz'
    have e2 : rowSpan c.hz ≤ kernel c.hx := rowSpan_le.2 fun z hz' x hx' => hc x hx' z hz'
    exact ⟨(inf_eq_left.2 e1).symm, (inf_eq_left.2 e2).symm⟩

end CssOk

theorem kernel_of_rowSpan_eq_kernel {A B : Rows F n} (h : rowSpan A = kernel B) :
    kernel A = rowSpan B := by
  rw [← kernel_nullSpace B]
  exact kernel_eq_of_rowSpan_eq (by rw [h, rowSpan_nullSpace])

theorem gauge_spec {c : CssCode F n} (h : CssOk c) {LX LZ : Rows F n}
    (hL : c.logicals = some (LX, LZ)) (hc : CssComplete c.hx c.hz LX LZ)
    (hdim : c.dimension = LX.length) :
    ∃ GX GZ, (c.dualSubsystem.bind fun d => d.logicals) = some (GX, GZ) ∧
      IsCssLogicalBasis (c.stabOps .X ++ LX) (c.stabOps .Z ++ LZ) GX GZ ∧
      rowSpan (c.stabOps .X ++ GX) = rowSpan c.hx ∧
      rowSpan (c.stabOps .Z ++ GZ) = rowSpan c.hz := by
  obtain ⟨sX, sZ⟩ := h.stabOps
  have eX : rowSpan (c.stabOps .X ++ LX) = kernel c.hz := by rw [rowSpan_append', sX, hc.x]
  have eZ : rowSpan (c.stabOps .Z ++ LZ) = kernel c.hx := by rw [rowSpan_append', sZ, hc.z]
  have kX := kernel_of_rowSpan_eq_kernel eX
  have kZ := kernel_of_rowSpan_eq_kernel eZ
  have hok : CssOk (CssCode.ofMatrices (c.stabOps .X ++ LX) (c.stabOps .Z ++ LZ)
      (some (decide (c.dimension ≠ 0)))) := by
    apply cssOk_ofMatrices
    · intro h0
      have h1 : LX = [] := by
        rw [← List.length_eq_zero_iff, ← hdim]
        simpa using h0
      have h2 : LZ = [] := by
        rw [← List.length_eq_zero_iff, ← hc.basis.len, h1]; rfl
      rw [h1, h2, List.append_nil, List.append_nil]
      intro x hx z hz
      have hx' : x ∈ rowSpan c.hx ⊓ kernel c.hz := by rw [← sX]; exact subset_rowSpan hx
      have hz' : z ∈ rowSpan c.hz ⊓ kernel c.hx := by rw [← sZ]; exact subset_rowSpan hz
      exact dot_eq_zero_of_mem_rowSpan hx'.1 hz'.2
    · intro h; cases h
  obtain ⟨GX, GZ, h1, h2, _⟩ := hok.logicals
  refine ⟨GX, GZ, ?_, h2.basis, ?_, ?_⟩
  · simp only [CssCode.dualSubsystem, hL, Option.map_some, Option.bind_some]
    exact h1
  · have := h2.x
    simp only [CssCode.ofMatrices, eX, eZ, kZ, inf_comm (kernel c.hz)] at this
    rw [rowSpan_append', sX]; exact this
  · have := h2.z
    simp only [CssCode.ofMatrices, eX, eZ, kX, inf_comm (kernel c.hx)] at this
    rw [rowSpan_append', sZ]; exact this

/-! ## C73 -/

/-- **C73**: `get_gauge_ops()` of a CSS subsystem code succeeds.  Gauge X operators commute with all
Z stabilizers and all logical Z operators, and vice versa; they are paired by the identity; and together
with the stabilizers they generate exactly the products of the given X (Z) gauge generators. -/
theorem C73_gauge_ops (c : CssCode F n) (h : CssOk c) (hs : c.isSub = true) :
    ∃ LX LZ GX GZ, c.logicals = some (LX, LZ) ∧ c.gaugeOps = some (GX, GZ) ∧
      GX.length = GZ.length ∧
      (∀ g ∈ GX, (∀ z ∈ LZ, ∑ q, g q * z q = 0) ∧ ∀ z, IsStabX c.hz c.hx z → ∑ q, g q * z q = 0) ∧
      (∀ g ∈ GZ, (∀ x ∈ LX, ∑ q, g q * x q = 0) ∧ ∀ x, IsStabX c.hx c.hz x → ∑ q, g q * x q = 0) ∧
      (∀ (i j : ℕ) (hi : i < GX.length) (hj : j < GZ.length),
        ∑ q, GX[i] q * GZ[j] q = if i = j then 1 else 0) ∧
      (∀ v, IsCombination c.hx v ↔
        ∃ s g, IsStabX c.hx c.hz s ∧ IsCombination GX g ∧ v = s + g) ∧
      (∀ v, IsCombination c.hz v ↔
        ∃ s g, IsStabX c.hz c.hx s ∧ IsCombination GZ g ∧ v = s + g) := by
  obtain ⟨LX, LZ, hL, hc, _, hdim⟩ := h.logicals
  obtain ⟨GX, GZ, hG, hb, eX, eZ⟩ := gauge_spec h hL hc hdim
  obtain ⟨sX, sZ⟩ := h.stabOps
  have hstab : ∀ a b : Rows F n, ∀ v, IsStabX a b v ↔ v ∈ rowSpan a ⊓ kernel b := by
    intro a b v
    rw [IsStabX, isCombination_iff, isWord_iff]; rfl
  refine ⟨LX, LZ, GX, GZ, hL, by rw [CssCode.gaugeOps, if_pos hs]; exact hG, hb.len, ?_, ?_, hb.pair,
    ?_, ?_⟩
  · intro g hg
    have h1 := (isWord_iff _ _).1 (hb.commX g hg)
    rw [kernel_append'] at h1
    refine ⟨fun z hz => ?_, fun z hz => ?_⟩
    · exact (dot_comm g z).trans (h1.2 z hz)
    · rw [hstab, ← sZ] at hz
      exact (dot_comm g z).trans (dot_eq_zero_of_mem_rowSpan hz h1.1)
  · intro g hg
    have h1 := (isWord_iff _ _).1 (hb.commZ g hg)
    rw [kernel_append'] at h1
    refine ⟨fun z hz => ?_, fun z hz => ?_⟩
    · exact (dot_comm g z).trans (h1.2 z hz)
    · rw [hstab, ← sX] at hz
      exact (dot_comm g z).trans (dot_eq_zero_of_mem_rowSpan hz h1.1)
  · intro v
    rw [isCombination_iff, ← eX, rowSpan_append', Submodule.mem_sup, sX]
    simp only [hstab, isCombination_iff]
    constructor
    · rintro ⟨s, hs, g, hg, rfl⟩; exact ⟨s, g, hs, hg, rfl⟩
    · rintro ⟨s, g, hs, hg, rfl⟩; exact ⟨s, hs, g, hg, rfl⟩
  · intro v
    rw [isCombination_iff, ← eZ, rowSpan_append', Submodule.mem_sup, sZ]
    simp only [hstab, isCombination_iff]
    constructor
    · rintro ⟨s, hs, g, hg, rfl⟩; exact ⟨s, g, hs, hg, rfl⟩
    · rintro ⟨s, g, hs, hg, rfl⟩; exact ⟨s, hs, g, hg, rfl⟩

/-! ## C27 -/

theorem CssOk.gaugeOps {c : CssCode F n} (h : CssOk c) :
    ∃ GX GZ, c.gaugeOps = some (GX, GZ) ∧ rowSpan (c.stabOps .X ++ GX) = rowSpan c.hx ∧
      rowSpan (c.stabOps .Z ++ GZ) = rowSpan c.hz := by
  cases hs : c.isSub with
  | true =>
    obtain ⟨LX, LZ, hL, hc, _, hdim⟩ := h.logicals
    obtain ⟨GX, GZ, hG, _, eX, eZ⟩ := gauge_spec h hL hc hdim
    exact ⟨GX, GZ, by rw [CssCode.gaugeOps, if_pos hs]; exact hG, eX, eZ⟩
  | false =>
    refine ⟨[], [], by rw [CssCode.gaugeOps, hs]; rfl, ?_⟩
    rw [List.append_nil, List.append_nil]
    exact CssCode.rowSpan_stabOps (c := c) (A := c.hx) (B := c.hz)
      (by simp [CssCode.stabMatrix, hs])

theorem CssOk.withLogicals {c : CssCode F n} (h : CssOk c) : CssOk c.withLogicals := by
  obtain ⟨LX, LZ, hL, hc, hlen, hdim⟩ := h.logicals
  unfold CssCode.withLogicals
  rw [hL]
  refine ⟨h.sub, ?_, h.eqXZ, h.distX, h.distZ, h.dist⟩
  rintro L hL'
  cases hL'
  exact ⟨hc.basis, hlen⟩

theorem xDistance_of_product {hx hz LX LZ S : Rows F n} (hc : CssComplete hx hz LX LZ)
    (hS : rowSpan S = rowSpan hx) {d : ℕ}
    (h : IsLeast {k | ∃ l ∈ rowSpan LX, l ≠ 0 ∧ ∃ s ∈ rowSpan S, k = hammingNorm (l + s)} d) :
    IsXDistance hx hz d := by
  unfold IsXDistance
  convert h using 1
  ext k
  simp only [Set.mem_setOf_eq, hc.nontrivial_iff, hS]
  constructor
  · rintro ⟨v, ⟨l, hl, h0, s, hs, rfl⟩, rfl⟩; exact ⟨l, hl, h0, s, hs, rfl⟩
  · rintro ⟨l, hl, h0, s, hs, rfl⟩; exact ⟨_, ⟨l, hl, h0, s, hs, rfl⟩, rfl⟩

theorem dimension_zero_iff {c : CssCode F n} (h : CssOk c) :
    c.dimension = 0 ↔ ∀ v, ¬ IsNontrivialX c.hx c.hz v := by
  obtain ⟨LX, LZ, hL, hc, hlen, hdim⟩ := h.logicals
  rw [hdim, List.length_eq_zero_iff]
  refine ⟨fun h0 v => hc.not_nontrivial h0 v, fun h0 => ?_⟩
  by_contra hne
  obtain ⟨v, hv⟩ := hc.exists_nontrivial hne
  exact h0 v hv

theorem dimension_zero_iff_z {c : CssCode F n} (h : CssOk c) :
    c.dimension = 0 ↔ ∀ v, ¬ IsNontrivialX c.hz c.hx v := by
  obtain ⟨LX, LZ, hL, hc, hlen, hdim⟩ := h.logicals
  rw [hdim, hc.basis.len, List.length_eq_zero_iff]
  refine ⟨fun h0 v => hc.symm.not_nontrivial h0 v, fun h0 => ?_⟩
  by_contra hne
  obtain ⟨v, hv⟩ := hc.symm.exists_nontrivial hne
  exact h0 v hv

/-- What two objects for the same code have in common. -/
def SameCode (c c' : CssCode F n) : Prop :=
  c'.hx = c.hx ∧ c'.hz = c.hz ∧ c'.isSub = c.isSub ∧ c'.equalXZ = c.equalXZ

theorem reportIs_none_of_dim {c : CssCode F n} (h : CssOk c) (h0 : c.dimension = 0)
    (p : Option PauliXZ) : ReportIs c.hx c.hz p none := by
  have h1 := (dimension_zero_iff h).1 h0
  have h2 := (dimension_zero_iff_z h).1 h0
  match p with
  | some .X => exact h1
  | some .Z => exact h2
  | none => exact no_nontrivial_css h1 h2

theorem distIfKnown_spec {c : CssCode F n} (h : CssOk c) (p : Option PauliXZ) :
    CssOk (c.distIfKnown p).2 ∧ SameCode c (c.distIfKnown p).2 ∧
      (c.distIfKnown p).2.logicals? = c.logicals? ∧
      (∀ d, (c.distIfKnown p).1 = some d → ReportIs c.hx c.hz p d) ∧
      (c.dimension = 0 → (c.distIfKnown p).1 = some none) := by
  by_cases h0 : c.dimension = 0
  · have e : c.distIfKnown p =
        (some none, { c with dist? := some none, distX? := some none, distZ? := some none }) := by
      unfold CssCode.distIfKnown
      simp only [h0, if_true]
      rcases p with _ | _ | _ <;> rfl
    rw [e]
    refine ⟨⟨h.sub, h.log, h.eqXZ, ?_, ?_, ?_⟩, ⟨rfl, rfl, rfl, rfl⟩, rfl, ?_, fun _ => rfl⟩
    · intro d hd; cases hd; exact reportIs_none_of_dim h h0 (some .X)
    · intro d hd; cases hd; exact reportIs_none_of_dim h h0 (some .Z)
    · intro d hd; cases hd; exact reportIs_none_of_dim h h0 none
    · intro d hd; cases hd; exact reportIs_none_of_dim h h0 p
  · have e : c.distIfKnown p = (match p with
        | some .X => c.distX?
        | some .Z => c.distZ?
        | none => c.dist?, c) := by
      unfold CssCode.distIfKnown
      simp only [h0, if_false]
      rcases p with _ | _ | _ <;> rfl
    rw [e]
    refine ⟨h, ⟨rfl, rfl, rfl, rfl⟩, rfl, ?_, fun h1 => absurd h1 h0⟩
    intro d hd
    match p with
    | some .X => exact h.distX d hd
    | some .Z => exact h.distZ d hd
    | none => exact h.dist d hd

/-- Reported X- and Z-distances give the distance of the code. -/
theorem reportIs_min {c : CssCode F n} (h : CssOk c) {dx dz : Option ℕ}
    (hx : XDistanceIs c.hx c.hz dx) (hz : XDistanceIs c.hz c.hx dz) :
    ReportIs c.hx c.hz none (CssCode.pyMin2 dx dz) := by
  cases dx with
  | none =>
    have h0 := (dimension_zero_iff h).2 hx
    exact reportIs_none_of_dim h h0 none
  | some a =>
    cases dz with
    | none =>
      have h0 := (dimension_zero_iff h).1 ((dimension_zero_iff_z h).2 hz)
      obtain ⟨⟨v, hv, _⟩, _⟩ := hx
      exact absurd hv (h0 v)
    | some b => exact codeDistance_css hx hz

/-- Storing a distance that is right. -/
theorem CssOk.store {c : CssCode F n} (h : CssOk c) (p : PauliXZ) {d : ℕ}
    (hd : ReportIs c.hx c.hz (some p) (some d)) :
    CssOk (c.storeDist p d) ∧ SameCode c (c.storeDist p d) := by
  have hx : p = .X ∨ c.equalXZ = true → XDistanceIs c.hx c.hz (some d) := by
    rintro (rfl | h1)
    · exact hd
    · cases p with
      | X => exact hd
      | Z => exact (h.eqXZ h1 _).2 hd
  have hz : p = .Z ∨ c.equalXZ = true → XDistanceIs c.hz c.hx (some d) := by
    rintro (rfl | h1)
    · exact hd
    · cases p with
      | X => exact (h.eqXZ h1 _).1 hd
      | Z => exact hd
  obtain ⟨c1, e1, ok1, s1, l1⟩ : ∃ c1, (if p = .X ∨ c.equalXZ then { c with distX? := some (some d) }
      else c) = c1 ∧ CssOk c1 ∧ SameCode c c1 ∧ c1.logicals? = c.logicals? := by
    split
    · rename_i hh
      refine ⟨_, rfl, ⟨h.sub, h.log, h.eqXZ, ?_, h.distZ, h.dist⟩, ⟨rfl, rfl, rfl, rfl⟩, rfl⟩
      intro e he; cases he; exact hx hh
    · exact ⟨_, rfl, h, ⟨rfl, rfl, rfl, rfl⟩, rfl⟩
  obtain ⟨c2, e2, ok2, s2, l2⟩ : ∃ c2, (if p = .Z ∨ c1.equalXZ then { c1 with distZ? := some (some d) }
      else c1) = c2 ∧ CssOk c2 ∧ SameCode c c2 ∧ c2.logicals? = c.logicals? := by
    obtain ⟨sx, sz, sb, se⟩ := s1
    split
    · rename_i hh
      refine ⟨_, rfl, ⟨ok1.sub, ok1.log, ok1.eqXZ, ok1.distX, ?_, ok1.dist⟩, ⟨sx, sz, sb, se⟩, l1⟩
      intro e he; cases he
      rw [se] at hh
      have := hz hh
      rw [← sx, ← sz] at this
      exact this
    · exact ⟨_, rfl, ok1, ⟨sx, sz, sb, se⟩, l1⟩
  have e : c.storeDist p d = match c2.distX?, c2.distZ? with
      | some dx, some dz => { c2 with dist? := some (CssCode.pyMin2 dx dz) }
      | _, _ => c2 := by
    unfold CssCode.storeDist
    simp only [e1, e2]
    cases c2.distX? <;> cases c2.distZ? <;> rfl
  rw [e]
  split
  · rename_i dx dz hX hZ
    refine ⟨⟨ok2.sub, ok2.log, ok2.eqXZ, ok2.distX, ok2.distZ, ?_⟩, s2⟩
    intro e he
    cases he
    exact reportIs_min ok2 (ok2.distX _ hX) (ok2.distZ _ hZ)
  · exact ⟨ok2, s2⟩

theorem distExactOne_spec (wb : ℕ) (els : List F) (hnd : (0 :: els).Nodup)
    (hall : ∀ x, x ∈ 0 :: els) (hwb : n < 2 ^ wb) (h64 : n < 2 ^ 64) {c : CssCode F n} (h : CssOk c)
    (p : PauliXZ) : ∃ d c', c.distExactOne wb (0 :: els) p = (some d, c') ∧
      ReportIs c.hx c.hz (some p) d ∧ CssOk c' ∧ SameCode c c' := by
  obtain ⟨ok1, s1, l1, hk, h0⟩ := distIfKnown_spec h (some p)
  unfold CssCode.distExactOne
  rcases hdk : c.distIfKnown (some p) with ⟨d?, c1⟩
  rw [hdk] at ok1 s1 l1 hk h0
  cases d? with
  | some d => exact ⟨d, c1, rfl, hk d rfl, ok1, s1⟩
  | none =>
    have hdim0 : c.dimension ≠ 0 := fun hh => by simpa using h0 hh
    obtain ⟨sx, sz, sb, se⟩ := s1
    simp only at ok1 sx sz sb se l1 ⊢
    obtain ⟨LX, LZ, hL, hc, hlen, hdim⟩ := ok1.logicals
    have okL := ok1.withLogicals
    have eL : c1.withLogicals = { c1 with logicals? := some (LX, LZ) } := by
      unfold CssCode.withLogicals; rw [hL]
    rw [hL]
    simp only
    rw [eL] at okL ⊢
    obtain ⟨GX, GZ, hG, eX, eZ⟩ := okL.gaugeOps
    rw [hG]
    simp only
    have hd1 : c1.dimension = c.dimension := by
      unfold CssCode.dimension; simp only [l1, sx, sz, sb]
    have hXne : LX ≠ [] := by
      rintro rfl
      exact hdim0 (by rw [← hd1, hdim]; rfl)
    have hZne : LZ ≠ [] := by
      intro hh
      apply hXne
      rw [← List.length_eq_zero_iff, hc.basis.len, hh]; rfl
    have hn := hc.pos hXne
    obtain ⟨d, hd, hrep⟩ : ∃ d, productDistance wb (0 :: els) (CssCode.pick p (LX, LZ))
        (({ c1 with logicals? := some (LX, LZ) } : CssCode F n).stabOps p ++
          CssCode.pick p (GX, GZ)) = some d ∧
        ReportIs c1.hx c1.hz (some p) (some d) := by
      cases p with
      | X =>
        obtain ⟨d, hd, hl⟩ := productDistance_spec wb els hnd hall hn hwb h64 hXne hc.independent
          (({ c1 with logicals? := some (LX, LZ) } : CssCode F n).stabOps .X ++ GX)
        exact ⟨d, hd, xDistance_of_product hc eX hl⟩
      | Z =>
        obtain ⟨d, hd, hl⟩ := productDistance_spec wb els hnd hall hn hwb h64 hZne
          hc.symm.independent
          (({ c1 with logicals? := some (LX, LZ) } : CssCode F n).stabOps .Z ++ GZ)
        exact ⟨d, hd, xDistance_of_product hc.symm eZ hl⟩
    rw [hd]
    obtain ⟨ok', s'⟩ := okL.store p hrep
    refine ⟨some d, _, rfl, ?_, ok', ?_⟩
    · rw [← sx, ← sz]; exact hrep
    · obtain ⟨a1, a2, a3, a4⟩ := s'
      exact ⟨a1.trans sx, a2.trans sz, a3.trans sb, a4.trans se⟩

/-- **C27**, for any integer width `wb` of the first weight computation (binary fields) that can hold
the number of qudits: on a CSS code object whose known facts are right, `get_distance_exact(pauli)`
returns the least weight of a nontrivial X-type (Z-type) logical operator, and without argument the
least weight of any nontrivial logical operator, also of mixed type; `nan` if there is none.  The known
facts are right afterwards, so the claim holds along every sequence of calls. -/
theorem C27_exact_width (wb : ℕ) (els : List F) (hnd : (0 :: els).Nodup)
    (hall : ∀ x, x ∈ 0 :: els) (hwb : n < 2 ^ wb) (h64 : n < 2 ^ 64) (c : CssCode F n) (h : CssOk c)
    (p : Option PauliXZ) : ∃ d c', c.distExact wb (0 :: els) p = (some d, c') ∧
      ReportIs c.hx c.hz p d ∧ CssOk c' ∧ SameCode c c' := by
  cases p with
  | some p => exact distExactOne_spec wb els hnd hall hwb h64 h p
  | none =>
    obtain ⟨ok1, s1, l1, hk, h0⟩ := distIfKnown_spec h none
    unfold CssCode.distExact
    rcases hdk : c.distIfKnown none with ⟨d?, c1⟩
    rw [hdk] at ok1 s1 l1 hk h0
    cases d? with
    | some d => exact ⟨d, c1, rfl, hk d rfl, ok1, s1⟩
    | none =>
      obtain ⟨sx, sz, sb, se⟩ := s1
      simp only at ok1 sx sz sb se ⊢
      obtain ⟨dx, c2, e2, r2, ok2, ⟨tx, tz, tb, te⟩⟩ :=
        distExactOne_spec wb els hnd hall hwb h64 ok1 .X
      obtain ⟨dz, c3, e3, r3, ok3, ⟨ux, uz, ub, ue⟩⟩ :=
        distExactOne_spec wb els hnd hall hwb h64 ok2 .Z
      simp only [e2, e3]
      refine ⟨_, c3, rfl, ?_, ok3, ⟨ux.trans (tx.trans sx), uz.trans (tz.trans sz),
        ub.trans (tb.trans sb), ue.trans (te.trans se)⟩⟩
      rw [sx, sz] at r2
      rw [tx, tz, sx, sz] at r3
      exact reportIs_min h r2 r3

/-- **C27** with 64-bit weights, the widths of the kernels in the repository other than
`np.bitwise_count`. -/
theorem C27_exact (els : List F) (hnd : (0 :: els).Nodup) (hall : ∀ x, x ∈ 0 :: els)
    (h64 : n < 2 ^ 64) (c : CssCode F n) (h : CssOk c) (p : Option PauliXZ) :
    ∃ d c', c.distExact 64 (0 :: els) p = (some d, c') ∧
      ReportIs c.hx c.hz p d ∧ CssOk c' ∧ SameCode c c' :=
  C27_exact_width 64 els hnd hall h64 h64 c h p

/-- For commuting checks, nontrivial logical X operators satisfy all Z checks and are no product of X
checks: the usual definition of the X-distance of a CSS stabilizer code. -/
theorem C27_stabilizer_definition (hx hz : Rows F n) (hc : ∀ x ∈ hx, ∀ z ∈ hz, ∑ q, x q * z q = 0)
    (v : Fin n → F) : IsNontrivialX hx hz v ↔ IsWord hz v ∧ ¬ IsCombination hx v := by
  refine and_congr_left fun _ => ⟨fun h z hz' => ?_, fun h z hz' => ?_⟩
  · exact h z ⟨(isCombination_iff _ _).2 (subset_rowSpan hz'), fun x hx' => hc x hx' z hz'⟩
  · exact dot_eq_zero_of_mem_rowSpan ((isCombination_iff _ _).1 hz'.1) ((isWord_iff _ _).1 h)

/-- Bacon-Shor code on a 2 by 2 lattice: distance 2 in both sectors. -/
def baconShor : CssCode (ZMod 2) 4 :=
  CssCode.ofMatrices [![1, 1, 0, 0], ![0, 0, 1, 1]] [![1, 0, 1, 0], ![0, 1, 0, 1]]

example : CssOk baconShor := cssOk_ofMatrices _ _ _ _ (by simp) (by simp)
example : baconShor.isSub = true := by decide +kernel
example : baconShor.gaugeOps = some ([![0, 0, 1, 1]], [![1, 0, 1, 0]]) := by decide +kernel
example : (baconShor.distExact 64 [0, 1] none).1 = some (some 2) := by decide +kernel

/-- Two qutrits with a single X check. -/
def qutritCode : CssCode (ZMod 3) 2 := CssCode.ofMatrices [![1, 1]] []

example : (qutritCode.distExact 64 [0, 1, 2] (some .X)).1 = some (some 1) ∧
    (qutritCode.distExact 64 [0, 1, 2] (some .Z)).1 = some (some 2) ∧
    (qutritCode.distExact 64 [0, 1, 2] none).1 = some (some 1) := by decide +kernel

/-- The logical operators of the object, seen from one type. -/
theorem CssOk.side {c : CssCode F n} (h : CssOk c) (p : PauliXZ) : ∃ L, c.logicals = some L ∧
    CssComplete (c.matrixOf p) (c.matrixOf p.flip) (CssCode.pick p L) (CssCode.pick p.flip L) ∧
    (CssCode.pick p L).length = c.dimension ∧
    rowSpan (c.stabOps p) = rowSpan (c.matrixOf p) ⊓ kernel (c.matrixOf p.flip) := by
  obtain ⟨LX, LZ, hL, hc, _, hdim⟩ := h.logicals
  obtain ⟨sX, sZ⟩ := h.stabOps
  cases p with
  | X => exact ⟨(LX, LZ), hL, hc, hdim.symm, sX⟩
  | Z => exact ⟨(LX, LZ), hL, hc.symm, hc.basis.len.symm.trans hdim.symm, sZ⟩

theorem vecMat_append (A B : Rows F n) (cs : List F) (h : cs.length = (A ++ B).length) :
    vecMat cs (A ++ B) = vecMat (cs.take A.length) A + vecMat (cs.drop A.length) B := by
  induction A generalizing cs with
  | nil => simp [vecMat_nil]
  | cons a A ih =>
    cases cs with
    | nil => simp at h
    | cons x cs =>
      simp only [List.cons_append, List.length_cons, List.take_succ_cons, List.drop_succ_cons,
        vecMat_cons]
      rw [ih cs (by simpa using h), add_assoc]

theorem reportIs_side {c : CssCode F n} (p : PauliXZ) (d : Option ℕ) :
    ReportIs c.hx c.hz (some p) d ↔ XDistanceIs (c.matrixOf p) (c.matrixOf p.flip) d := by
  cases p <;> exact Iff.rfl

/-! ## C74 -/

/-- **C74**: `get_random_logical_op(pauli)` returns, whatever is drawn, a product of `pauli`-type
operators that satisfies all checks of the other type; with `ensure_nontrivial=True` it is no product of
`pauli`-type checks (gauge generators). -/
theorem C74_random_logical (c : CssCode F n) (h : CssOk c) (p : PauliXZ) (nontrivial : Bool)
    (coeffs : List F) (w : Fin n → F) (hw : c.randomLogical p nontrivial coeffs = some w) :
    IsWord (c.matrixOf p.flip) w ∧
      (nontrivial = true → IsNontrivialX (c.matrixOf p) (c.matrixOf p.flip) w) := by
  obtain ⟨L, hL, hc, hlen, hs⟩ := h.side p
  simp only [CssCode.randomLogical, hL, Option.bind_some] at hw
  split at hw
  · rename_i hcond
    obtain ⟨h1, h2⟩ := hcond
    have hwe := Option.some.inj hw
    rw [vecMat_append _ _ _ h1] at hwe
    rw [List.length_append] at h1
    have hl : vecMat (coeffs.take (CssCode.pick p L).length) (CssCode.pick p L) ∈
        rowSpan (CssCode.pick p L) :=
      (mem_rowSpan_iff_vecMat _ _).2 ⟨_, by simp [h1], rfl⟩
    have hst : vecMat (coeffs.drop (CssCode.pick p L).length) (c.stabOps p) ∈
        rowSpan (c.matrixOf p) ⊓ kernel (c.matrixOf p.flip) := by
      rw [← hs]
      exact (mem_rowSpan_iff_vecMat _ _).2 ⟨_, by simp [h1], rfl⟩
    refine ⟨?_, fun hn => ?_⟩
    · rw [isWord_iff, ← hwe]
      exact Submodule.add_mem _ (hc.rowSpan_le_kernel hl) hst.2
    · rw [hc.nontrivial_iff]
      refine ⟨_, hl, fun h0 => ?_, _, hst.1, hwe.symm⟩
      have h3 := h2 hn
      have h4 := vecMat_injective hc.independent (c := coeffs.take (CssCode.pick p L).length)
        (d := List.replicate (CssCode.pick p L).length 0) (by simp [h1]) (by simp)
        (by rw [h0, vecMat_replicate_zero])
      rw [← hlen, h4] at h3
      simp at h3
  · cases hw

/-- **C74**: every operator that satisfies all checks of the other type can be drawn. -/
theorem C74_random_logical_complete (c : CssCode F n) (h : CssOk c) (p : PauliXZ) (w : Fin n → F)
    (hw : IsWord (c.matrixOf p.flip) w) :
    ∃ coeffs, c.randomLogical p false coeffs = some w ∧
      (IsNontrivialX (c.matrixOf p) (c.matrixOf p.flip) w →
        c.randomLogical p true coeffs = some w) := by
  obtain ⟨L, hL, hc, hlen, hs⟩ := h.side p
  rw [isWord_iff, ← hc.x, ← hs, sup_comm, ← rowSpan_append', mem_rowSpan_iff_vecMat] at hw
  obtain ⟨cs, hcs, rfl⟩ := hw
  refine ⟨cs, by simp [CssCode.randomLogical, hL, hcs], fun hn => ?_⟩
  simp only [CssCode.randomLogical, hL, Option.bind_some]
  rw [if_pos]
  refine ⟨hcs, fun _ => ?_⟩
  by_contra hany
  rw [isNontrivialX_iff] at hn
  apply hn.2
  rw [Bool.not_eq_true, List.any_eq_false] at hany
  rw [List.length_append] at hcs
  have h0 : cs.take (CssCode.pick p L).length = List.replicate (CssCode.pick p L).length 0 := by
    rw [List.eq_replicate_iff]
    refine ⟨by simp [hcs], fun b hb => ?_⟩
    rw [hlen] at hb
    simpa using hany b hb
  rw [vecMat_append _ _ _ (by rw [List.length_append]; exact hcs), h0, vecMat_replicate_zero, zero_add]
  have : vecMat (cs.drop (CssCode.pick p L).length) (c.stabOps p) ∈ rowSpan (c.stabOps p) :=
    (mem_rowSpan_iff_vecMat _ _).2 ⟨_, by simp [hcs], rfl⟩
  rw [hs] at this
  exact this.1

/-! ## C27, randomized bound -/

theorem oneBound_spec {c : CssCode F n} (h : CssOk c) {p : PauliXZ} {draws rest}
    {w : ℕ} (hb : c.oneBound p draws = some (w, rest)) :
    ∃ x, IsNontrivialX (c.matrixOf p) (c.matrixOf p.flip) x ∧ w = hammingNorm x := by
  induction draws with
  | nil => cases hb
  | cons r draws ih =>
    unfold CssCode.oneBound at hb
    split at hb
    · exact ih hb
    · rename_i word hword
      dsimp only at hb
      split at hb
      · rename_i w' hw'
        cases hb
        obtain ⟨h1, h2⟩ := C74_random_logical c h p.flip true _ word hword
        have hff : p.flip.flip = p := by cases p <;> rfl
        rw [hff] at h1 h2
        obtain ⟨hx1, _, hx3⟩ := boundAttempt_spec hw'
        refine ⟨_, ?_, hx3⟩
        rw [isNontrivialX_iff]
        refine ⟨Submodule.mem_sup_right ((isWord_iff _ _).1 hx1), fun hm => ?_⟩
        have h0 := dot_eq_zero_of_mem_rowSpan hm ((isWord_iff _ _).1 h1)
        unfold boundAttempt at hw'
        split at hw'
        · rename_i he
          rw [List.map_append] at he
          have h1 := (List.append_inj he (by simp)).2
          simp only [List.map_cons, List.map_nil, List.cons.injEq, and_true] at h1
          rw [dot_comm, h1] at h0
          exact one_ne_zero h0
        · cases hw'
      · exact ih hb

theorem exists_distance {c : CssCode F n} (h : CssOk c) (hd : c.dimension ≠ 0)
    (p : PauliXZ) : ∃ d, ReportIs c.hx c.hz (some p) (some d) := by
  have hex : ∃ k, ∃ v, IsNontrivialX (c.matrixOf p) (c.matrixOf p.flip) v ∧ k = hammingNorm v := by
    obtain ⟨L, hL, hc, hlen, _⟩ := h.side p
    obtain ⟨v, hv⟩ := hc.exists_nontrivial (by rintro h0; rw [h0] at hlen; exact hd hlen.symm)
    exact ⟨_, v, hv, rfl⟩
  classical
  refine ⟨Nat.find hex, ?_⟩
  rw [reportIs_side]
  exact ⟨Nat.find_spec hex, fun k hk => Nat.find_min' hex hk⟩

theorem reportIs_le_of_nontrivial {c : CssCode F n} (h : CssOk c) {p : Option PauliXZ}
    {d : ℕ} (hd : ReportIs c.hx c.hz p (some d)) {q : PauliXZ} (hq : p = none ∨ p = some q)
    {x : Fin n → F} (hx : IsNontrivialX (c.matrixOf q) (c.matrixOf q.flip) x) :
    d ≤ hammingNorm x := by
  rcases hq with rfl | rfl
  · have hdim : c.dimension ≠ 0 := by
      intro h0
      cases q with
      | X => exact (dimension_zero_iff h).1 h0 x hx
      | Z => exact (dimension_zero_iff_z h).1 h0 x hx
    obtain ⟨dx, hdx⟩ := exists_distance h hdim .X
    obtain ⟨dz, hdz⟩ := exists_distance h hdim .Z
    have hm : IsCodeDistance (blockDiag2 c.hx c.hz) (min dx dz) := codeDistance_css hdx hdz
    have : d = min dx dz := IsLeast.unique hd hm
    rw [this]
    cases q with
    | X => exact (min_le_left _ _).trans (hdx.2 ⟨x, hx, rfl⟩)
    | Z => exact (min_le_right _ _).trans (hdz.2 ⟨x, hx, rfl⟩)
  · rw [reportIs_side] at hd
    exact hd.2 ⟨x, hx, rfl⟩

theorem boundLoop_css {c : CssCode F n} (h : CssOk c) {p : Option PauliXZ}
    {cutoff : Option ℕ} {d : ℕ} (hd : ReportIs c.hx c.hz p (some d)) {choices : List PauliXZ}
    {trials m b : ℕ} {draws} (hm : d ≤ m)
    (hb : c.boundLoop p cutoff choices trials m draws = some b) : d ≤ b ∧ b ≤ m := by
  induction trials generalizing m draws choices with
  | zero => cases hb; exact ⟨hm, le_rfl⟩
  | succ t ih =>
    unfold CssCode.boundLoop at hb
    split at hb
    · cases hb; exact ⟨hm, le_rfl⟩
    · split at hb
      · cases hb
      · rename_i w rest hw
        obtain ⟨x, hx, rfl⟩ := oneBound_spec h hw
        have hdx : d ≤ hammingNorm x := by
          refine reportIs_le_of_nontrivial h hd ?_ hx
          cases p with
          | none => exact .inl rfl
          | some p => exact .inr rfl
        obtain ⟨h1, h2⟩ := ih (le_min hm hdx) hb
        exact ⟨h1, h2.trans (min_le_left _ _)⟩

theorem report_le {c : CssCode F n} {p : Option PauliXZ} {d : ℕ}
    (hd : ReportIs c.hx c.hz p (some d)) : d ≤ n := by
  match p, hd with
  | some .X, ⟨⟨v, _, hv⟩, _⟩ => rw [hv]; exact (hammingNorm_le_card_fintype (x := v)).trans (by simp)
  | some .Z, ⟨⟨v, _, hv⟩, _⟩ => rw [hv]; exact (hammingNorm_le_card_fintype (x := v)).trans (by simp)
  | none, ⟨⟨v, _, hv⟩, _⟩ =>
    rw [hv]
    unfold sweight
    exact (Finset.card_le_univ _).trans (by simp)

/-- **C27**, randomized bound: whatever operators are drawn and whatever the decoder answers, when
`get_distance_bound(pauli)` returns for a code with logical operators, the result is a number between
the (X-, Z-) distance and the number of qudits. -/
theorem C27_bound (c : CssCode F n) (h : CssOk c) (hdim : c.dimension ≠ 0) (p : Option PauliXZ)
    (numTrials : ℕ) (cutoff : Option ℕ) (choices : List PauliXZ) (draws : List (CssCode.Draw F n))
    (r : Option ℕ) (hr : c.distBound p numTrials cutoff choices draws = some r) :
    ∃ b, r = some b ∧ b ≤ n ∧ ∀ d, ReportIs c.hx c.hz p (some d) → d ≤ b := by
  obtain ⟨dx, hdx⟩ := exists_distance h hdim .X
  obtain ⟨dz, hdz⟩ := exists_distance h hdim .Z
  obtain ⟨d, hd⟩ : ∃ d, ReportIs c.hx c.hz p (some d) := by
    match p with
    | some .X => exact ⟨dx, hdx⟩
    | some .Z => exact ⟨dz, hdz⟩
    | none => exact ⟨_, codeDistance_css hdx hdz⟩
  have huniq : ∀ e, ReportIs c.hx c.hz p (some e) → e = d := by
    intro e he
    match p with
    | some .X => exact IsLeast.unique he hd
    | some .Z => exact IsLeast.unique he hd
    | none => exact IsLeast.unique he hd
  obtain ⟨_, _, _, hk, _⟩ := distIfKnown_spec h p
  unfold CssCode.distBound at hr
  split at hr
  · rename_i e he
    cases hr
    have hre := hk _ he
    cases r with
    | none =>
      exfalso
      apply hdim
      match p with
      | some .X => exact (dimension_zero_iff h).2 hre
      | some .Z => exact (dimension_zero_iff_z h).2 hre
      | none =>
        obtain ⟨⟨v, hv, _⟩, _⟩ := (codeDistance_css hdx hdz : IsCodeDistance _ _)
        exact absurd hv (hre v)
    | some e =>
      exact ⟨e, rfl, report_le hre, fun d' hd' => by rw [huniq d' hd', huniq e hre]⟩
  · obtain ⟨b, hb, rfl⟩ := Option.map_eq_some_iff.1 hr
    obtain ⟨h1, h2⟩ := boundLoop_css h hd (report_le hd) hb
    exact ⟨b, rfl, h2, fun d' hd' => by rw [huniq d' hd']; exact h1⟩

theorem boundLoop_css_zero (c : CssCode F n) (p : Option PauliXZ) (choices : List PauliXZ) (trials m : ℕ)
    (draws : List (CssCode.Draw F n)) :
    c.boundLoop p (some 0) choices trials m draws = c.boundLoop p none choices trials m draws := by
  induction trials generalizing m draws choices with
  | zero => rfl
  | succ t ih =>
    unfold CssCode.boundLoop
    rw [if_neg (by simp [cutoffReached]), if_neg (by simp [cutoffReached])]
    split
    · rfl
    · exact ih _ _ _

theorem boundLoop_css_cutoff {c : CssCode F n} {p : Option PauliXZ} {choices : List PauliXZ} {k trials m b : ℕ}
    (hk : k ≠ 0) {draws : List (CssCode.Draw F n)} (h : c.boundLoop p (some k) choices trials m draws = some b) :
    ∃ t ≤ trials, c.boundLoop p none choices t m draws = some b ∧ (t < trials → b ≤ k) ∧
      ∀ s < t, ∃ b', c.boundLoop p none choices s m draws = some b' ∧ k < b' := by
  induction trials generalizing m draws choices with
  | zero => exact ⟨0, le_rfl, h, by simp, by simp⟩
  | succ T ih =>
    unfold CssCode.boundLoop at h
    by_cases hm : m ≤ k
    · rw [if_pos (by simp [cutoffReached, hk, hm])] at h
      cases h
      exact ⟨0, by omega, rfl, fun _ => hm, by simp⟩
    · rw [if_neg (by simp [cutoffReached, hm])] at h
      split at h
      · cases h
      · rename_i w rest hw
        have hstep : ∀ t, c.boundLoop p none choices (t + 1) m draws = c.boundLoop p none choices.tail t (min m w) rest := by
          intro t
          conv_lhs => unfold CssCode.boundLoop
          rw [if_neg (by simp [cutoffReached]), hw]
        obtain ⟨t, ht, h1, h2, h3⟩ := ih h
        refine ⟨t + 1, by omega, (hstep t).trans h1, fun hlt => h2 (by omega), fun s hs => ?_⟩
        rcases s with _ | s
        · exact ⟨m, rfl, by omega⟩
        · obtain ⟨b', h4, h5⟩ := h3 s (by omega)
          exact ⟨b', (hstep s).trans h4, h5⟩

/-- **C27**, the cutoff of the randomized bound, if the distance is not known.  A run with a positive cutoff returns what
a run without a cutoff returns after some number of trials: the first number for which that is at most the cutoff, or all
trials if there is none.  A cutoff of zero has no effect. -/
theorem C27_cutoff (c : CssCode F n) (p : Option PauliXZ) (hk : (c.distIfKnown p).1 = none) (numTrials : ℕ)
    (choices : List PauliXZ) (draws : List (CssCode.Draw F n)) :
    c.distBound p numTrials (some 0) choices draws = c.distBound p numTrials none choices draws ∧
    ∀ k r, k ≠ 0 → c.distBound p numTrials (some k) choices draws = some r →
      ∃ t ≤ numTrials, c.distBound p t none choices draws = some r ∧ (t < numTrials → ∃ b, r = some b ∧ b ≤ k) ∧
        ∀ s < t, ∃ b, c.distBound p s none choices draws = some (some b) ∧ k < b := by
  have e : ∀ t cut, c.distBound p t cut choices draws = (c.boundLoop p cut choices t n draws).map some := by
    intro t cut
    unfold CssCode.distBound
    rw [hk]
  refine ⟨by rw [e, e, boundLoop_css_zero], fun k r h0 h => ?_⟩
  rw [e] at h
  obtain ⟨b, hb, rfl⟩ := Option.map_eq_some_iff.1 h
  obtain ⟨t, ht, h1, h2, h3⟩ := boundLoop_css_cutoff h0 hb
  refine ⟨t, ht, by rw [e, h1]; rfl, fun hlt => ⟨b, rfl, h2 hlt⟩, fun s hs => ?_⟩
  obtain ⟨b', h4, h5⟩ := h3 s hs
  exact ⟨b', by rw [e, h4]; rfl, h5⟩

/-! ## C28 -/

/-- Two sets of logical operators differ, operator by operator, by stabilizers of the code. -/
structure StabEquiv (hx hz : Rows F n) (L L' : Rows F n × Rows F n) : Prop where
  lenX : L'.1.length = L.1.length
  lenZ : L'.2.length = L.2.length
  x : ∀ (i : ℕ) (h : i < L.1.length), IsStabX hx hz (L'.1[i]'(lenX ▸ h) - L.1[i])
  z : ∀ (i : ℕ) (h : i < L.2.length), IsStabX hz hx (L'.2[i]'(lenZ ▸ h) - L.2[i])

theorem isStabX_iff (a b : Rows F n) (v : Fin n → F) : IsStabX a b v ↔ v ∈ rowSpan a ⊓ kernel b := by
  rw [IsStabX, isCombination_iff, isWord_iff]; rfl

theorem StabEquiv.refl (hx hz : Rows F n) (L : Rows F n × Rows F n) : StabEquiv hx hz L L :=
  ⟨rfl, rfl, fun i h => by rw [isStabX_iff, sub_self]; exact Submodule.zero_mem _,
    fun i h => by rw [isStabX_iff, sub_self]; exact Submodule.zero_mem _⟩

theorem StabEquiv.trans {hx hz : Rows F n} {L L' L'' : Rows F n × Rows F n}
    (h : StabEquiv hx hz L L') (h' : StabEquiv hx hz L' L'') : StabEquiv hx hz L L'' := by
  refine ⟨h'.lenX.trans h.lenX, h'.lenZ.trans h.lenZ, fun i hi => ?_, fun i hi => ?_⟩
  · have h1 := h.x i hi
    have h2 := h'.x i (h.lenX ▸ hi)
    rw [isStabX_iff] at h1 h2 ⊢
    have := Submodule.add_mem _ h2 h1
    rwa [sub_add_sub_cancel] at this
  · have h1 := h.z i hi
    have h2 := h'.z i (h.lenZ ▸ hi)
    rw [isStabX_iff] at h1 h2 ⊢
    have := Submodule.add_mem _ h2 h1
    rwa [sub_add_sub_cancel] at this

/-- Replace one operator. -/
theorem CssComplete.replace {hx hz LX LZ : Rows F n} (hc : CssComplete hx hz LX LZ) {i : ℕ}
    (hi : i < LX.length) {v : Fin n → F} (hv : IsWord hz v)
    (hp : ∀ (j : ℕ) (hj : j < LZ.length), dot LZ[j] v = if j = i then 1 else 0) :
    IsCssLogicalBasis hx hz (LX.set i v) LZ ∧ IsStabX hx hz (v - LX[i]) := by
  constructor
  · refine ⟨by rw [List.length_set]; exact hc.basis.len, fun l hl => ?_, hc.basis.commZ, ?_⟩
    · rcases List.mem_or_eq_of_mem_set hl with hl | rfl
      · exact hc.basis.commX l hl
      · exact hv
    · intro a b ha hb
      rw [List.getElem_set]
      split
      · rename_i h
        subst h
        have := hp b hb
        rw [dot_comm] at this
        exact this.trans (by simp [eq_comm])
      · exact hc.basis.pair a b (by simpa using ha) hb
  · rw [isStabX_iff]
    have h1 := (isWord_iff _ _).1 hv
    have h2 : LX[i] ∈ kernel hz := hc.basis.commX _ (List.getElem_mem _)
    apply hc.stab_of_commute (Submodule.sub_mem _ h1 h2)
    intro z hz'
    obtain ⟨j, hj, rfl⟩ := List.getElem_of_mem hz'
    have h3 := hp j hj
    have h4 : dot LX[i] LZ[j] = if i = j then 1 else 0 := hc.basis.pair i j hi hj
    rw [dot_sub_left, dot_comm, h3, h4]
    by_cases h : j = i
    · subst h; simp
    · rw [if_neg h, if_neg (Ne.symm h), sub_zero]

theorem reduceLoop_spec {E : Rows F n} {syndrome : List F} {decs} {v : Fin n → F}
    (h : CssCode.reduceLoop E syndrome decs = some v) :
    E.map (fun r => dot r v) = syndrome ∧ ∃ dec ∈ decs, v = dec E syndrome := by
  induction decs with
  | nil => cases h
  | cons d l ih =>
    unfold CssCode.reduceLoop at h
    dsimp only at h
    split at h
    · rename_i he
      cases h
      exact ⟨he, d, by simp, rfl⟩
    · obtain ⟨h1, dec, hd, h2⟩ := ih h
      exact ⟨h1, dec, by simp [hd], h2⟩

/-- One call of `reduce_logical_op`. -/
theorem reduceLogicalOp_spec {c c' : CssCode F n} (h : CssOk c) {p : PauliXZ} {i : ℕ} {decs}
    (hr : c.reduceLogicalOp p i decs = some c') :
    CssOk c' ∧ SameCode c c' ∧ ∃ L L', c.logicals = some L ∧ c'.logicals = some L' ∧
      StabEquiv c.hx c.hz L L' ∧ CssCode.pick p.flip L' = CssCode.pick p.flip L ∧
      ∃ (_ : i < (CssCode.pick p L).length) (v : Fin n → F),
        CssCode.pick p L' = (CssCode.pick p L).set i v ∧
        IsWord (c.matrixOf p.flip) v ∧
        (∀ (j : ℕ) (hj : j < (CssCode.pick p.flip L).length),
          dot (CssCode.pick p.flip L)[j] v = if j = i then 1 else 0) ∧
        ∃ dec ∈ decs, v = dec (c.matrixOf p.flip ++ CssCode.pick p.flip L)
          ((List.range ((c.matrixOf p.flip).length + c.dimension)).map fun j =>
            if j = (c.matrixOf p.flip).length + i then 1 else 0) := by
  obtain ⟨L, hL, hc, hlen, _⟩ := h.side p
  obtain ⟨LX, LZ, hL2, hc2, hdim2, hdim3⟩ := h.logicals
  have hLL : L = (LX, LZ) := Option.some.inj (hL.symm.trans hL2)
  unfold CssCode.reduceLogicalOp at hr
  split at hr
  swap
  · cases hr
  rename_i hi
  simp only [hL, Option.bind_some] at hr
  obtain ⟨v, hv, hc'⟩ := Option.map_eq_some_iff.1 hr
  obtain ⟨hsyn, hdec⟩ := reduceLoop_spec hv
  have hi' : i < (CssCode.pick p L).length := by omega
  have hsplit : (List.range ((c.matrixOf p.flip).length + c.dimension)).map
      (fun j => if j = (c.matrixOf p.flip).length + i then (1 : F) else 0) =
      List.replicate (c.matrixOf p.flip).length 0 ++
        (List.range c.dimension).map fun j => if j = i then 1 else 0 := by
    rw [List.range_add, List.map_append, List.map_map]
    congr 1
    · rw [List.eq_replicate_iff]
      refine ⟨by simp, fun b hb => ?_⟩
      obtain ⟨j, hj, rfl⟩ := List.mem_map.1 hb
      rw [List.mem_range] at hj
      rw [if_neg (by omega)]
    · apply List.map_congr_left
      intro j _
      simp
  have hsyn' := hsyn
  rw [hsplit, List.map_append] at hsyn'
  obtain ⟨e1, e2⟩ := List.append_inj hsyn' (by simp)
  have hword : IsWord (c.matrixOf p.flip) v := by
    intro r hr'
    exact (List.eq_replicate_iff.1 e1).2 _ (List.mem_map.2 ⟨r, hr', rfl⟩)
  have hpair : ∀ (j : ℕ) (hj : j < (CssCode.pick p.flip L).length),
      dot (CssCode.pick p.flip L)[j] v = if j = i then 1 else 0 := by
    intro j hj
    have h1 : ((CssCode.pick p.flip L).map fun r => dot r v)[j]'(by simpa using hj) =
        ((List.range c.dimension).map fun j => if j = i then (1 : F) else 0)[j]'(by
          rw [← e2]; simpa using hj) := by
      simp only [e2]
    simpa using h1
  obtain ⟨hb, hst⟩ := CssComplete.replace hc hi' hword hpair
  subst hc'
  subst hLL
  cases p with
  | X =>
    refine ⟨⟨h.sub, ?_, h.eqXZ, h.distX, h.distZ, h.dist⟩, ⟨rfl, rfl, rfl, rfl⟩, (LX, LZ),
      (LX.set i v, LZ), hL, rfl, ?_, rfl, hi', v, rfl, hword, hpair, hdec⟩
    · intro L hL'
      cases hL'
      exact ⟨hb, by rw [← hdim2]; simp⟩
    · refine ⟨by simp, rfl, fun a ha => ?_, fun a ha => ?_⟩
      · simp only [List.getElem_set]
        split
        · rename_i hia; subst hia; exact hst
        · rw [isStabX_iff, sub_self]; exact Submodule.zero_mem _
      · rw [isStabX_iff, sub_self]; exact Submodule.zero_mem _
  | Z =>
    refine ⟨⟨h.sub, ?_, h.eqXZ, h.distX, h.distZ, h.dist⟩, ⟨rfl, rfl, rfl, rfl⟩, (LX, LZ),
      (LX, LZ.set i v), hL, rfl, ?_, rfl, hi', v, rfl, hword, hpair, hdec⟩
    · intro L hL'
      cases hL'
      exact ⟨hb.symm, hdim2⟩
    · refine ⟨rfl, by simp, fun a ha => ?_, fun a ha => ?_⟩
      · rw [isStabX_iff, sub_self]; exact Submodule.zero_mem _
      · simp only [List.getElem_set]
        split
        · rename_i hia; subst hia; exact hst
        · rw [isStabX_iff, sub_self]; exact Submodule.zero_mem _

theorem SameCode.trans {a b c : CssCode F n} (h : SameCode a b) (h' : SameCode b c) : SameCode a c :=
  ⟨h'.1.trans h.1, h'.2.1.trans h.2.1, h'.2.2.1.trans h.2.2.1, h'.2.2.2.trans h.2.2.2⟩

theorem reduceFrom_spec {p : PauliXZ} {decs} {l : List ℕ} {c c' : CssCode F n} (h : CssOk c)
    (hr : CssCode.reduceFrom p decs l c = some c') :
    CssOk c' ∧ SameCode c c' ∧ ∃ L L', c.logicals = some L ∧ c'.logicals = some L' ∧
      StabEquiv c.hx c.hz L L' := by
  induction l generalizing c with
  | nil =>
    cases hr
    obtain ⟨LX, LZ, hL, _⟩ := h.logicals
    exact ⟨h, ⟨rfl, rfl, rfl, rfl⟩, _, _, hL, hL, StabEquiv.refl _ _ _⟩
  | cons i l ih =>
    obtain ⟨c1, h1, h2⟩ := Option.bind_eq_some_iff.1 hr
    obtain ⟨ok1, s1, L, L', e1, e2, q1, _⟩ := reduceLogicalOp_spec h h1
    obtain ⟨ok2, s2, M, M', f1, f2, q2⟩ := ih ok1 h2
    have : M = L' := Option.some.inj (f1.symm.trans e2)
    subst this
    rw [s1.1, s1.2.1] at q2
    exact ⟨ok2, s1.trans s2, L, M', e1, f2, q1.trans q2⟩

/-- **C28**: whatever the decoder answers, when `reduce_logical_ops(pauli)` (one type, or both) returns,
the new logical operators are again a set of logical operators of the code (same pairing, satisfying all
checks), and each differs from the old one by a stabilizer: it has the same logical action.  All known
facts about the object stay right.

Partial: the claim that no operator gets heavier is false, see `C28_weight_disagreement`; it is proved
for decoders that return answers of minimal weight in `C28_weight`. -/
theorem C28_reduce_partial (c c' : CssCode F n) (h : CssOk c) (p : Option PauliXZ)
    (decoders : PauliXZ → ℕ → List (Rows F n → List F → Fin n → F))
    (hr : c.reduceLogicalOps p decoders = some c') :
    ∃ L L', c.logicals = some L ∧ c'.logicals = some L' ∧ IsCssLogicalBasis c.hx c.hz L'.1 L'.2 ∧
      StabEquiv c.hx c.hz L L' ∧ CssOk c' ∧ SameCode c c' := by
  have key : CssOk c' ∧ SameCode c c' ∧ ∃ L L', c.logicals = some L ∧ c'.logicals = some L' ∧
      StabEquiv c.hx c.hz L L' := by
    cases p with
    | some p => exact reduceFrom_spec h hr
    | none =>
      obtain ⟨c1, h1, h2⟩ := Option.bind_eq_some_iff.1 hr
      obtain ⟨ok1, s1, L, L', e1, e2, q1⟩ := reduceFrom_spec h h1
      obtain ⟨ok2, s2, M, M', f1, f2, q2⟩ := reduceFrom_spec ok1 h2
      have : M = L' := Option.some.inj (f1.symm.trans e2)
      subst this
      rw [s1.1, s1.2.1] at q2
      exact ⟨ok2, s1.trans s2, L, M', e1, f2, q1.trans q2⟩
  obtain ⟨ok, s, L, L', e1, e2, q⟩ := key
  refine ⟨L, L', e1, e2, ?_, q, ok, s⟩
  obtain ⟨LX, LZ, g1, g2, _⟩ := ok.logicals
  have : L' = (LX, LZ) := Option.some.inj (e2.symm.trans g1)
  subst this
  rw [← s.1, ← s.2.1]
  exact g2.basis

/-- The decoder returns answers of minimal weight among all solutions of the decoding problem, if there
is one. -/
def MinWeightDecoder (dec : Rows F n → List F → Fin n → F) : Prop :=
  ∀ (H : Rows F n) (s : List F) (v : Fin n → F), H.map (fun r => ∑ q, r q * v q) = s →
    hammingNorm (dec H s) ≤ hammingNorm v

/-- **C28**, weights: with decoders that return answers of minimal weight, one call of
`reduce_logical_op` replaces the chosen operator by one that is at most as heavy, and no other. -/
theorem C28_weight (c c' : CssCode F n) (h : CssOk c) (p : PauliXZ) (i : ℕ)
    (decs : List (Rows F n → List F → Fin n → F)) (hdec : ∀ d ∈ decs, MinWeightDecoder d)
    (hr : c.reduceLogicalOp p i decs = some c') :
    ∃ L L', c.logicals = some L ∧ c'.logicals = some L' ∧
      CssCode.pick p.flip L' = CssCode.pick p.flip L ∧
      ∃ (_ : i < (CssCode.pick p L).length) (v : Fin n → F),
        CssCode.pick p L' = (CssCode.pick p L).set i v ∧
        hammingNorm v ≤ hammingNorm (CssCode.pick p L)[i] := by
  obtain ⟨_, _, L, L', e1, e2, _, hother, hi, v, hset, _, _, dec, hd, rfl⟩ :=
    reduceLogicalOp_spec h hr
  refine ⟨L, L', e1, e2, hother, hi, _, hset, hdec dec hd _ _ _ ?_⟩
  obtain ⟨M, hM, hc, hlen, _⟩ := h.side p
  have : M = L := Option.some.inj (hM.symm.trans e1)
  subst this
  rw [List.range_add, List.map_append, List.map_append, List.map_map]
  congr 1
  · apply List.ext_getElem (by simp)
    intro j hj _
    rw [List.length_map] at hj
    rw [List.getElem_map, List.getElem_map, List.getElem_range, if_neg (by omega)]
    exact hc.basis.commX _ (List.getElem_mem hi) _ (List.getElem_mem hj)
  · apply List.ext_getElem (by simp [← hc.basis.len, hlen])
    intro j hj _
    rw [List.length_map] at hj
    rw [List.getElem_map, List.getElem_map, List.getElem_range]
    have := hc.basis.pair i j hi hj
    have e : (∑ q, (CssCode.pick p.flip M)[j] q * (CssCode.pick p M)[i] q) =
        ∑ q, (CssCode.pick p M)[i] q * (CssCode.pick p.flip M)[j] q :=
      Finset.sum_congr rfl fun _ _ => mul_comm _ _
    rw [e, this]
    simp [eq_comm]

/-- Three qubits with the single check XXX. -/
def xxxCode : CssCode (ZMod 2) 3 := CssCode.ofMatrices [![1, 1, 1]] []

theorem xxxCode_ok : CssOk xxxCode := cssOk_ofMatrices _ _ _ _ (by simp) (by simp)

/-- The claim of `reduce_logical_op` that weights are reduced does not hold for every decoder: any
answer with the right syndrome is accepted, also a heavier operator. -/
theorem C28_weight_disagreement :
    ((xxxCode.reduceLogicalOp .X 0 [fun _ _ => ![1, 0, 1]]).bind fun c =>
      c.logicals.map fun L => L.1.map hammingNorm) = some [2, 1] ∧
    (xxxCode.logicals.map fun L => L.1.map hammingNorm) = some [1, 1] := by
  decide +kernel

/-- A decoder that returns a solution of minimal weight by trying all vectors. -/
def bruteDecoder (H : Rows (ZMod 2) 3) (s : List (ZMod 2)) : Fin 3 → ZMod 2 :=
  (([![0, 0, 0], ![1, 0, 0], ![0, 1, 0], ![0, 0, 1], ![1, 1, 0], ![1, 0, 1], ![0, 1, 1],
    ![1, 1, 1]] : List (Fin 3 → ZMod 2)).find? fun v => H.map (fun r => dot r v) = s).getD 0

-- a run with a change of an operator, and with a decoder of minimal weight
example : ((xxxCode.reduceLogicalOps none fun _ _ => [bruteDecoder]).bind fun c => c.logicals) =
    some ([![0, 1, 0], ![0, 0, 1]], [![1, 1, 0], ![1, 0, 1]]) := by decide +kernel
example : ((xxxCode.reduceLogicalOps (some .X) fun _ i =>
      [fun _ _ => 0, fun _ _ => if i = 0 then ![1, 0, 1] else ![0, 0, 1]]).bind fun c => c.logicals) =
    some ([![1, 0, 1], ![0, 0, 1]], [![1, 1, 0], ![1, 0, 1]]) := by decide +kernel

#print axioms C73_gauge_ops
#print axioms C27_exact_width
#print axioms C27_exact
#print axioms C27_stabilizer_definition
#print axioms C27_bound
#print axioms C27_cutoff
#print axioms C74_random_logical
#print axioms C74_random_logical_complete
#print axioms C28_reduce_partial
#print axioms C28_weight
#print axioms C28_weight_disagreement

/-! ### Instances of the theorems: concrete cases meet the hypotheses -/

private def gaugeDemo : CssCode (ZMod 2) 4 := CssCode.ofMatrices [![1, 1, 0, 0], ![0, 0, 1, 1]] [![1, 0, 1, 0], ![0, 1, 0, 1]] none
private theorem gaugeDemo_ok : CssOk gaugeDemo := cssOk_ofMatrices _ _ _ _ (by simp) (by simp)
example := C73_gauge_ops gaugeDemo gaugeDemo_ok (by decide +kernel)
example := C27_exact_width 3 [1] (by decide) (by decide) (by decide) (by decide) gaugeDemo gaugeDemo_ok none
example := C27_exact [1] (by decide) (by decide) (by decide) gaugeDemo gaugeDemo_ok (some .Z)
example := C27_stabilizer_definition ([![1, 1, 1, 1]] : Rows (ZMod 2) 4) [![1, 1, 1, 1]] (by decide +kernel) ![1, 1, 0, 0]
example := C74_random_logical gaugeDemo gaugeDemo_ok .X true [1, 1] ![1, 0, 1, 0] (by decide +kernel)
example := C74_random_logical_complete gaugeDemo gaugeDemo_ok .X ![1, 0, 1, 0] (by unfold IsWord; decide +kernel)
example := C27_cutoff gaugeDemo (some .X) (by decide +kernel) 2 [] [⟨[1, 1], fun _ _ => ![1, 0, 1, 0]⟩]
example := C27_bound gaugeDemo gaugeDemo_ok (by decide +kernel) (some .X) 1 none [] [⟨[1, 1], fun _ _ => ![1, 0, 1, 0]⟩] (some 2)
  (by decide +kernel)
example : True := by
  obtain ⟨c', h⟩ := Option.isSome_iff_exists.1 (show (xxxCode.reduceLogicalOps none fun _ _ => [bruteDecoder]).isSome = true by decide +kernel)
  have := C28_reduce_partial _ _ xxxCode_ok _ _ h
  trivial
theorem bruteDecoder_min : MinWeightDecoder bruteDecoder := by
  intro H s v hv
  have key : ∀ (l : List (Fin 3 → ZMod 2)) (P : (Fin 3 → ZMod 2) → Bool), l.Pairwise (fun a b => hammingNorm a ≤ hammingNorm b) →
      v ∈ l → P v = true → hammingNorm ((l.find? P).getD 0) ≤ hammingNorm v := by
    intro l P hl hm hP
    induction l with
    | nil => cases hm
    | cons a l ih =>
      rw [List.find?_cons]
      cases ha : P a with
      | true =>
        rcases List.mem_cons.1 hm with rfl | hm
        · exact le_rfl
        · exact (List.pairwise_cons.1 hl).1 v hm
      | false =>
        rcases List.mem_cons.1 hm with rfl | hm
        · rw [hP] at ha; cases ha
        · exact ih (List.pairwise_cons.1 hl).2 hm
  refine key _ _ (by decide +kernel) (by clear key hv; revert v; decide +kernel) (decide_eq_true hv)
example : True := by
  obtain ⟨c', h⟩ := Option.isSome_iff_exists.1 (show (xxxCode.reduceLogicalOp .X 0 [bruteDecoder]).isSome = true by decide +kernel)
  have := C28_weight _ _ xxxCode_ok .X 0 _ (by simpa using bruteDecoder_min) h
  trivial

end QLDPC.Props
