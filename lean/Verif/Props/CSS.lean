import Verif.Lemmas.CssSubsystem
import Verif.Lemmas.LogicalBasis
import Mathlib.Algebra.Field.ZMod

/-!
# Properties C22, C71 (and C23 for CSS codes)
-/

namespace QLDPC.Props

open QLDPC QLDPC.Spec

set_option linter.unusedSectionVars false

variable {F : Type} [Field F] [DecidableEq F] {n : ℕ}

theorem codeDim_add_rank (M : Rows F n) : codeDim M + rank M = n := by
  rw [codeDim_eq]; exact finrank_kernel M

theorem isCombination_append (A B : Rows F n) (v : Fin n → F) :
    IsCombination (A ++ B) v ↔ v ∈ rowSpan A ⊔ rowSpan B := by
  rw [isCombination_iff, rowSpan_append']

/-- X-type and Z-type operators as rows of length `2 n`. -/
theorem isLogicalBasis_of_css {hx hz LX LZ : Rows F n} (h : IsCssLogicalBasis hx hz LX LZ) :
    IsLogicalBasis (blockDiag2 hx hz) (LX.map fun r => Fin.append r 0)
      (LZ.map fun r => Fin.append 0 r) := by
  have hX : ∀ l ∈ LX, ∀ r ∈ hz, dot r l = 0 := h.commX
  have hZ : ∀ l ∈ LZ, ∀ r ∈ hx, dot r l = 0 := h.commZ
  constructor
  · simp [h.len]
  · intro r hr l hl
    obtain ⟨u, hu, rfl⟩ := List.mem_map.1 hl
    rw [sform_eq, xPart_append, zPart_append]
    rcases List.mem_append.1 hr with hr | hr <;> obtain ⟨v, hv, rfl⟩ := List.mem_map.1 hr <;>
      rw [xPart_append, zPart_append]
    · rw [dot_zero_right, dot_zero_left, sub_zero]
    · rw [dot_zero_right, hX u hu v hv, sub_zero]
  · intro r hr l hl
    obtain ⟨u, hu, rfl⟩ := List.mem_map.1 hl
    rw [sform_eq, xPart_append, zPart_append]
    rcases List.mem_append.1 hr with hr | hr <;> obtain ⟨v, hv, rfl⟩ := List.mem_map.1 hr <;>
      rw [xPart_append, zPart_append]
    · rw [dot_zero_right, hZ u hu v hv, sub_zero]
    · rw [dot_zero_right, dot_zero_left, sub_zero]
  · intro i j hi hj
    simp only [List.getElem_map]
    rw [sform_eq, xPart_append, zPart_append, xPart_append, zPart_append, dot_zero_left, sub_zero]
    exact h.pair i j (by simpa using hi) (by simpa using hj)
  · intro p hp q hq
    obtain ⟨u, _, rfl⟩ := List.mem_map.1 hp
    obtain ⟨v, _, rfl⟩ := List.mem_map.1 hq
    rw [sform_eq, xPart_append, zPart_append, xPart_append, zPart_append, dot_zero_left,
      dot_zero_right, sub_zero]
  · intro p hp q hq
    obtain ⟨u, _, rfl⟩ := List.mem_map.1 hp
    obtain ⟨v, _, rfl⟩ := List.mem_map.1 hq
    rw [sform_eq, xPart_append, zPart_append, xPart_append, zPart_append, dot_zero_left,
      dot_zero_right, sub_zero]

/-! ## C22 -/

/-- **C22**: the X operators of a CSS stabilizer code satisfy all Z checks, the Z operators all X
checks, they are paired by the identity matrix, and there are `n - rank_x - rank_z` of each: their
number `k` satisfies `k + n = (n - rank_x) + (n - rank_z)`. -/
theorem C22_logicals (hx hz : Rows F n) (hc : ∀ x ∈ hx, ∀ z ∈ hz, ∑ q, x q * z q = 0) :
    ∃ LX LZ, cssLogicals hx hz false = some (LX, LZ) ∧ IsCssLogicalBasis hx hz LX LZ ∧
      LX.length + n = codeDim hx + codeDim hz ∧ cssDimension hx hz false = LX.length := by
  obtain ⟨LX, LZ, h1, h2, h3, h4⟩ := cssLogicals_stabilizer hx hz hc
  refine ⟨LX, LZ, h1, h2, ?_, h3.symm⟩
  have := codeDim_add_rank hx
  have := codeDim_add_rank hz
  omega

/-- **C22** in symplectic form: `get_logical_ops()` returns `k` rows `[P_x | 0]` followed by `k` rows
`[0 | P_z]`, which are logical operators of the code with the combined parity check matrix. -/
theorem C22_symplectic (hx hz : Rows F n) (hc : ∀ x ∈ hx, ∀ z ∈ hz, ∑ q, x q * z q = 0) :
    ∃ LX LZ : Rows F n, cssLogicalOps hx hz false =
        some (LX.map (fun r => Fin.append r 0) ++ LZ.map fun r => Fin.append 0 r) ∧
      IsLogicalBasis (hx.map (fun r => Fin.append r 0) ++ hz.map fun r => Fin.append 0 r)
        (LX.map fun r => Fin.append r 0) (LZ.map fun r => Fin.append 0 r) := by
  obtain ⟨LX, LZ, h1, h2, _⟩ := cssLogicals_stabilizer hx hz hc
  refine ⟨LX, LZ, by rw [cssLogicalOps, h1]; rfl, isLogicalBasis_of_css h2⟩

/-- **C22**, completeness: an X-type operator satisfies all Z checks iff it is a product of X checks and
logical X operators; likewise for Z. -/
theorem C22_complete (hx hz : Rows F n) (hc : ∀ x ∈ hx, ∀ z ∈ hz, ∑ q, x q * z q = 0) :
    ∃ LX LZ, cssLogicals hx hz false = some (LX, LZ) ∧
      (∀ v, IsWord hz v ↔ IsCombination (hx ++ LX) v) ∧
      (∀ v, IsWord hx v ↔ IsCombination (hz ++ LZ) v) := by
  obtain ⟨LX, LZ, h1, h2, h3, h4⟩ := cssLogicals_stabilizer hx hz hc
  have hc' : ∀ x ∈ hx, ∀ z ∈ hz, dot x z = 0 := hc
  have hp : ∀ (i j : ℕ) (hi : i < LX.length) (hj : j < LZ.length),
      dot LX[i] LZ[j] = if i = j then 1 else 0 := h2.pair
  have fx := finrank_kernel hx
  have fz := finrank_kernel hz
  refine ⟨LX, LZ, h1, fun v => ?_, fun v => ?_⟩
  · rw [isCombination_append, isWord_iff, css_complete h2.len (K := kernel hz)]
    · rw [rowSpan_le]; intro x hx' z hz'; rw [dot_comm]; exact hc x hx' z hz'
    · exact h2.commX
    · intro s hs z hz'; exact dot_eq_zero_of_mem_rowSpan hs (h2.commZ z hz')
    · exact hp
    · rw [finrank_rowSpan]; omega
  · rw [isCombination_append, isWord_iff, css_complete h2.len.symm (K := kernel hx)]
    · rw [rowSpan_le]; intro z hz' x hx'; exact hc x hx' z hz'
    · exact h2.commZ
    · intro s hs z hz'; exact dot_eq_zero_of_mem_rowSpan hs (h2.commX z hz')
    · intro i j hi hj; rw [dot_comm, hp j i hj hi]; simp [eq_comm]
    · have := h2.len
      rw [finrank_rowSpan]; omega

/-- Checks of the Steane code. -/
def steane : Rows (ZMod 2) 7 :=
  [![0, 0, 0, 1, 1, 1, 1], ![0, 1, 1, 0, 0, 1, 1], ![1, 0, 1, 0, 1, 0, 1]]

example : ∀ x ∈ steane, ∀ z ∈ steane, ∑ q, x q * z q = 0 := by decide +kernel

example : cssLogicals steane steane false =
    some ([![0, 0, 1, 0, 1, 1, 0]], [![0, 1, 0, 1, 0, 1, 0]]) := by decide +kernel

/-! ## C23 for CSS codes -/

/-- **C23** for CSS codes: the X stabilizers of a subsystem code generate exactly the products of X
gauge generators that satisfy all Z gauge generators, and they are independent.  The Z stabilizers are
given by the same function with the arguments exchanged. -/
theorem C23_css_stabilizers (hx hz : Rows F n) :
    (∀ v, IsCombination (cssStabs hx hz) v ↔ IsStabX hx hz v) ∧
      LinearIndependent F (fun i : Fin (cssStabs hx hz).length => (cssStabs hx hz).get i) := by
  refine ⟨fun v => ?_, linearIndependent_nullSpace _⟩
  rw [isCombination_iff, rowSpan_cssStabs, IsStabX, isCombination_iff, isWord_iff]
  rfl

/-! ## C71 -/

/-- **C71**: for every pair of X- and Z-type gauge generators, the computation of logical operators
succeeds; X operators commute with all Z gauge generators, Z operators with all X gauge generators, they
are paired by the identity.  Their number `k` is `n` minus the rank of the Z gauge generators minus the
number of independent X stabilizers, i.e. `k + s_x = n - rank_z` where `s_x` is the dimension of the
space of products of X gauge generators that commute with all Z gauge generators. -/
theorem C71_logicals (hx hz : Rows F n) :
    ∃ LX LZ, cssLogicals hx hz true = some (LX, LZ) ∧ IsCssLogicalBasis hx hz LX LZ ∧
      LX.length + Module.finrank F
        (Submodule.span F {v | v ∈ hx} ⊓ codeSpace hz : Submodule F (Fin n → F)) = codeDim hz ∧
      LX.length + Module.finrank F
        (Submodule.span F {v | v ∈ hz} ⊓ codeSpace hx : Submodule F (Fin n → F)) = codeDim hx ∧
      cssDimension hx hz true = LX.length := by
  obtain ⟨LX, LZ, h1, h2, h3, h4, h5⟩ := cssLogicals_subsystem hx hz
  have := codeDim_add_rank hx
  have := codeDim_add_rank hz
  refine ⟨LX, LZ, h1, h2, ?_, ?_, h3.symm⟩
  · change _ + Module.finrank F (rowSpan hx ⊓ codeSpace hz : Submodule F (Fin n → F)) = _
    rw [codeSpace_eq, ← rowSpan_cssStabs, finrank_rowSpan]; omega
  · change _ + Module.finrank F (rowSpan hz ⊓ codeSpace hx : Submodule F (Fin n → F)) = _
    rw [codeSpace_eq, ← rowSpan_cssStabs, finrank_rowSpan]; omega

/-- **C71**, completeness: an X-type operator commutes with all Z gauge generators iff it is a product of
an X stabilizer and logical X operators; likewise for Z. -/
theorem C71_complete (hx hz : Rows F n) :
    ∃ LX LZ, cssLogicals hx hz true = some (LX, LZ) ∧
      (∀ v, IsWord hz v ↔ ∃ s l, IsStabX hx hz s ∧ IsCombination LX l ∧ v = s + l) ∧
      (∀ v, IsWord hx v ↔ ∃ s l, IsStabX hz hx s ∧ IsCombination LZ l ∧ v = s + l) := by
  obtain ⟨LX, LZ, h1, h2, h3, h4, h5⟩ := cssLogicals_subsystem hx hz
  have hp : ∀ (i j : ℕ) (hi : i < LX.length) (hj : j < LZ.length),
      dot LX[i] LZ[j] = if i = j then 1 else 0 := h2.pair
  have fx := finrank_kernel hx
  have fz := finrank_kernel hz
  refine ⟨LX, LZ, h1, fun v => ?_, fun v => ?_⟩
  · rw [isWord_iff, ← css_complete h2.len (K := kernel hz) (S := rowSpan hx ⊓ kernel hz) inf_le_right
      h2.commX (fun s hs z hz' => dot_eq_zero_of_mem_rowSpan hs.1 (h2.commZ z hz')) hp
      (by rw [← rowSpan_cssStabs, finrank_rowSpan]; omega), Submodule.mem_sup]
    constructor
    · rintro ⟨s, hs, l, hl, rfl⟩
      exact ⟨s, l, ⟨(isCombination_iff _ _).2 hs.1, hs.2⟩, (isCombination_iff _ _).2 hl, rfl⟩
    · rintro ⟨s, l, hs, hl, rfl⟩
      exact ⟨s, ⟨(isCombination_iff _ _).1 hs.1, hs.2⟩, l, (isCombination_iff _ _).1 hl, rfl⟩
  · rw [isWord_iff, ← css_complete h2.len.symm (K := kernel hx) (S := rowSpan hz ⊓ kernel hx)
      inf_le_right h2.commZ (fun s hs z hz' => dot_eq_zero_of_mem_rowSpan hs.1 (h2.commX z hz'))
      (fun i j hi hj => by rw [dot_comm, hp j i hj hi]; simp [eq_comm])
      (by have := h2.len; rw [← rowSpan_cssStabs, finrank_rowSpan]; omega), Submodule.mem_sup]
    constructor
    · rintro ⟨s, hs, l, hl, rfl⟩
      exact ⟨s, l, ⟨(isCombination_iff _ _).2 hs.1, hs.2⟩, (isCombination_iff _ _).2 hl, rfl⟩
    · rintro ⟨s, l, hs, hl, rfl⟩
      exact ⟨s, ⟨(isCombination_iff _ _).1 hs.1, hs.2⟩, l, (isCombination_iff _ _).1 hl, rfl⟩

/-- X and Z gauge generators of the Bacon-Shor code on a 2 by 2 lattice. -/
def baconShorX : Rows (ZMod 2) 4 := [![1, 1, 0, 0], ![0, 0, 1, 1]]
def baconShorZ : Rows (ZMod 2) 4 := [![1, 0, 1, 0], ![0, 1, 0, 1]]

/-- The X and Z gauge generators do not commute; there is one logical qubit and one gauge qubit. -/
example : ¬ (∀ x ∈ baconShorX, ∀ z ∈ baconShorZ, ∑ q, x q * z q = 0) ∧
    cssLogicals baconShorX baconShorZ true =
      some ([![0, 1, 0, 1]], [![0, 0, 1, 1]]) ∧ cssGaugeDimension baconShorX baconShorZ = 1 := by
  decide +kernel

#print axioms C22_logicals
#print axioms C22_symplectic
#print axioms C22_complete
#print axioms C23_css_stabilizers
#print axioms C71_logicals
#print axioms C71_complete

/-! ### Instances of the theorems: concrete cases meet the hypotheses -/

example := C22_logicals (n := 4) ([![1, 1, 1, 1]] : Rows (ZMod 2) 4) [![1, 1, 1, 1]] (by decide +kernel)
example := C22_symplectic (n := 3) ([![1, 1, 1]] : Rows (ZMod 3) 3) [![1, 2, 0]] (by decide +kernel)
example := C22_complete (n := 3) ([![1, 1, 1]] : Rows (ZMod 3) 3) [![1, 2, 0]] (by decide +kernel)

end QLDPC.Props
