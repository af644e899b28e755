import Verif.Props.Text
import Verif.Lemmas.Persist

/-!
# Property C56: persistence and equality of quantum Tanner codes
-/

namespace QLDPC.Props

open QLDPC QLDPC.Spec

variable {t : CharTable}

/-! ### What is claimed -/

/-- A rectangular array with at least one row and one column. -/
def Rectangular (a : List (List ℤ)) : Prop := a ≠ [] ∧ ∃ s, 0 < s ∧ ∀ r ∈ a, r.length = s

/-- A permutation of `0, ..., s - 1` as the list of its values. -/
def IsArrayForm (r : List ℤ) : Prop := (∀ i : ℕ, i < r.length → (i : ℤ) ∈ r) ∧ ∀ v ∈ r, 0 ≤ v

/-- Generating data: nonempty sets of permutations of the same points, matrices over the field with at least one row. -/
structure ValidData (d : QTData) : Prop where
  a : Rectangular d.subsetA
  b : Rectangular d.subsetB
  ca : Rectangular d.codeA
  cb : Rectangular d.codeB
  permA : ∀ r ∈ d.subsetA, IsArrayForm r
  permB : ∀ r ∈ d.subsetB, IsArrayForm r
  setA : d.subsetA.Nodup
  setB : d.subsetB.Nodup
  fieldA : ∀ r ∈ d.codeA, ∀ v ∈ r, 0 ≤ v ∧ v < d.order
  fieldB : ∀ r ∈ d.codeB, ∀ v ∈ r, 0 ≤ v ∧ v < d.order
  order : 0 ≤ d.order

/-- Two codes have the same generating data. -/
def SameData (d d' : QTData) : Prop :=
  (∀ x, x ∈ d.subsetA ↔ x ∈ d'.subsetA) ∧ (∀ x, x ∈ d.subsetB ↔ x ∈ d'.subsetB) ∧ d.codeA = d'.codeA ∧ d.codeB = d'.codeB ∧
    d.order = d'.order ∧ d.bipartite = d'.bipartite

/-! ### Saving and loading -/

theorem savetxt_head {a : List (List ℤ)} (ha : Rectangular a) (hnn : ∀ r ∈ a, ∀ v ∈ r, 0 ≤ v) :
    savetxt a ≠ [] ∧ (∀ r ∈ savetxt a, r.head? ≠ some '#') ∧ ∀ r ∈ savetxt a, ∀ c ∈ r, isLineBreak c = false := by
  obtain ⟨hne, s, hs, hl⟩ := ha
  have hch : ∀ r ∈ savetxt a, ∀ c ∈ r, c = ' ' ∨ c.isDigit = true := by
    intro w hw
    obtain ⟨r, hr, rfl⟩ := List.mem_map.1 hw
    exact row_chars r (hnn r hr)
  refine ⟨by simpa [savetxt] using hne, ?_, ?_⟩
  · intro r hr hc
    have := List.mem_of_mem_head? (show '#' ∈ r.head? from hc)
    rcases hch r hr _ this with h | h
    · exact absurd h (by decide)
    · exact absurd h (by decide)
  · intro r hr c hc
    rcases hch r hr c hc with rfl | h
    · decide
    · exact isLineBreak_digit h

theorem loadArrays_save (ht : t.Ok) {d : QTData} (hd : ValidData d) (headers : List (List Char)) :
    loadArrays t (saveLines d headers) = .ok [d.subsetA, d.subsetB, d.codeA, d.codeB] := by
  have nnA : ∀ r ∈ d.subsetA, ∀ v ∈ r, 0 ≤ v := fun r hr => (hd.permA r hr).2
  have nnB : ∀ r ∈ d.subsetB, ∀ v ∈ r, 0 ≤ v := fun r hr => (hd.permB r hr).2
  have nnC : ∀ r ∈ d.codeA, ∀ v ∈ r, 0 ≤ v := fun r hr v hv => (hd.fieldA r hr v hv).1
  have nnD : ∀ r ∈ d.codeB, ∀ v ∈ r, 0 ≤ v := fun r hr v hv => (hd.fieldB r hr v hv).1
  have rd : ∀ a, Rectangular a → (∀ r ∈ a, ∀ v ∈ r, 0 ≤ v) → genfromtxt t (savetxt a) = .ok a := by
    rintro a ⟨-, s, hs, hl⟩ hnn
    exact genfromtxt_savetxt ht a s hs hl hnn
  have hA := savetxt_head hd.a nnA
  have hB := savetxt_head hd.b nnB
  have hC := savetxt_head hd.ca nnC
  have hD := savetxt_head hd.cb nnD
  set cs := (headers.flatMap splitLines).map (fun l => '#' :: ' ' :: l) ++ ["# subset_a:".toList] with hcs
  set c1 := "# subset_b:".toList with h1
  set c2 := "# code_a.matrix:".toList with h2
  set c3 := "# code_b.matrix:".toList with h3
  set c4 := "# base field: ".toList ++ intText d.order with h4
  set c5 := "# bipartite: ".toList ++ boolText d.bipartite with h5
  have hlines : saveLines d headers = cs ++ (savetxt d.subsetA ++ c1 :: (savetxt d.subsetB ++ c2 :: (savetxt d.codeA ++
      c3 :: (savetxt d.codeB ++ c4 :: [c5])))) := by
    unfold saveLines
    simp [hcs, h1, h2, h3, h4, h5]
  have hcs0 : cs ≠ [] := by simp [hcs]
  have hcsh : ∀ r ∈ cs, r.head? = some '#' := by
    intro r hr
    rw [hcs, List.mem_append, List.mem_map, List.mem_singleton] at hr
    rcases hr with ⟨l, -, rfl⟩ | rfl <;> rfl
  unfold loadArrays
  rw [hlines]
  set L := cs ++ (savetxt d.subsetA ++ c1 :: (savetxt d.subsetB ++ c2 :: (savetxt d.codeA ++
      c3 :: (savetxt d.codeB ++ c4 :: [c5])))) with hL
  have s0 : L.zipIdx.foldlM (loadStep t L) ([], 0) =
      ((savetxt d.subsetA ++ c1 :: (savetxt d.subsetB ++ c2 :: (savetxt d.codeA ++ c3 :: (savetxt d.codeB ++ c4 :: [c5])))).zipIdx
        cs.length).foldlM (loadStep t L) ([], cs.length - 1) := by
    have hz : L.zipIdx = cs.zipIdx 0 ++ (savetxt d.subsetA ++ c1 :: (savetxt d.subsetB ++ c2 :: (savetxt d.codeA ++ c3 ::
        (savetxt d.codeB ++ c4 :: [c5])))).zipIdx cs.length := by
      rw [hL, List.zipIdx_append, Nat.zero_add]
    rw [hz, List.foldlM_append, foldlM_comments L cs 0 [] 0 hcsh (by omega), if_neg hcs0, Nat.zero_add]
    rfl
  have s1 := foldlM_block (t := t) cs (savetxt d.subsetA) (savetxt d.subsetB ++ c2 :: (savetxt d.codeA ++ c3 ::
    (savetxt d.codeB ++ c4 :: [c5]))) c1 d.subsetA [] hA.2.1 hA.1 rfl hcs0 (rd _ hd.a nnA)
  have e1 : L = (cs ++ savetxt d.subsetA ++ [c1]) ++ (savetxt d.subsetB ++ c2 :: (savetxt d.codeA ++ c3 :: (savetxt d.codeB ++
      c4 :: [c5]))) := by rw [hL]; simp
  have s2 := foldlM_block (t := t) (cs ++ savetxt d.subsetA ++ [c1]) (savetxt d.subsetB) (savetxt d.codeA ++ c3 ::
    (savetxt d.codeB ++ c4 :: [c5])) c2 d.subsetB ([] ++ [d.subsetA]) hB.2.1 hB.1 rfl (by simp) (rd _ hd.b nnB)
  have e2 : L = (cs ++ savetxt d.subsetA ++ [c1] ++ savetxt d.subsetB ++ [c2]) ++ (savetxt d.codeA ++ c3 :: (savetxt d.codeB ++
      c4 :: [c5])) := by rw [hL]; simp
  have s3 := foldlM_block (t := t) (cs ++ savetxt d.subsetA ++ [c1] ++ savetxt d.subsetB ++ [c2]) (savetxt d.codeA)
    (savetxt d.codeB ++ c4 :: [c5]) c3 d.codeA ([] ++ [d.subsetA] ++ [d.subsetB]) hC.2.1 hC.1 rfl (by simp) (rd _ hd.ca nnC)
  have e3 : L = (cs ++ savetxt d.subsetA ++ [c1] ++ savetxt d.subsetB ++ [c2] ++ savetxt d.codeA ++ [c3]) ++ (savetxt d.codeB ++
      c4 :: [c5]) := by rw [hL]; simp
  have s4 := foldlM_block (t := t) (cs ++ savetxt d.subsetA ++ [c1] ++ savetxt d.subsetB ++ [c2] ++ savetxt d.codeA ++ [c3])
    (savetxt d.codeB) [c5] c4 d.codeB ([] ++ [d.subsetA] ++ [d.subsetB] ++ [d.codeA]) hD.2.1 hD.1 rfl (by simp) (rd _ hd.cb nnD)
  rw [← hL] at s1
  rw [← e1] at s2
  rw [← e2] at s3
  rw [← e3] at s4
  rw [s0, s1, s2, s3, s4]
  have s5 := foldlM_comments (t := t) L [c5]
    (cs ++ savetxt d.subsetA ++ [c1] ++ savetxt d.subsetB ++ [c2] ++ savetxt d.codeA ++ [c3] ++ savetxt d.codeB ++ [c4]).length
    ([] ++ [d.subsetA] ++ [d.subsetB] ++ [d.codeA] ++ [d.codeB])
    ((cs ++ savetxt d.subsetA ++ [c1] ++ savetxt d.subsetB ++ [c2] ++ savetxt d.codeA ++ [c3] ++ savetxt d.codeB ++ [c4]).length - 1)
    (by intro r hr; rw [List.mem_singleton] at hr; subst hr; rfl) (by omega)
  rw [s5]
  rfl

/-- **C56**: loading what was saved gives the same data, for all headers and all data whose matrices have at least one row.
Missing from the full claim: matrices without rows, see `C56_no_rows_disagreement`. -/
theorem C56_roundtrip_partial (ht : t.Ok) (d : QTData) (hd : ValidData d) (headers : List (List Char)) :
    loadText t (saveText d headers) = .ok d := by
  have nnA : ∀ r ∈ d.subsetA, ∀ v ∈ r, 0 ≤ v := fun r hr => (hd.permA r hr).2
  have nnB : ∀ r ∈ d.subsetB, ∀ v ∈ r, 0 ≤ v := fun r hr => (hd.permB r hr).2
  have nnC : ∀ r ∈ d.codeA, ∀ v ∈ r, 0 ≤ v := fun r hr v hv => (hd.fieldA r hr v hv).1
  have nnD : ∀ r ∈ d.codeB, ∀ v ∈ r, 0 ≤ v := fun r hr v hv => (hd.fieldB r hr v hv).1
  have hA := (savetxt_head hd.a nnA).2.2
  have hB := (savetxt_head hd.b nnB).2.2
  have hC := (savetxt_head hd.ca nnC).2.2
  have hD := (savetxt_head hd.cb nnD).2.2
  have hord : intText d.order = decimal d.order.toNat := intText_nonneg hd.order
  have hdig : ∀ c ∈ intText d.order, c.isDigit = true := by
    rw [hord]; exact fun c hc => isDigit_decimal hc
  have hsplit : splitLines (saveText d headers) = saveLines d headers := by
    apply splitLines_unlines
    intro l hl c hc
    unfold saveLines at hl
    simp only [List.mem_append, List.mem_map, List.mem_singleton, List.mem_flatMap] at hl
    rcases hl with (((((((((⟨w, ⟨h, -, hw⟩, rfl⟩ | rfl) | hl) | rfl) | hl) | rfl) | hl) | rfl) | hl) | rfl) | rfl
    · rcases List.mem_cons.1 hc with rfl | hc
      · decide
      · rcases List.mem_cons.1 hc with rfl | hc
        · decide
        · exact splitLines_no_break _ _ hw c hc
    · revert c; decide
    · exact hA l hl c hc
    · revert c; decide
    · exact hB l hl c hc
    · revert c; decide
    · exact hC l hl c hc
    · revert c; decide
    · exact hD l hl c hc
    · rcases List.mem_append.1 hc with hc | hc
      · exact (by decide : ∀ c ∈ "# base field: ".toList, isLineBreak c = false) c hc
      · exact isLineBreak_digit (hdig c hc)
    · rcases List.mem_append.1 hc with hc | hc
      · exact (by decide : ∀ c ∈ "# bipartite: ".toList, isLineBreak c = false) c hc
      · exact (by decide : ∀ b, ∀ c ∈ boolText b, isLineBreak c = false) _ c hc
  obtain ⟨pre, hpre⟩ : ∃ pre, saveLines d headers =
      pre ++ ["# base field: ".toList ++ intText d.order, "# bipartite: ".toList ++ boolText d.bipartite] :=
    ⟨_, by unfold saveLines; rw [List.append_assoc _ _ ["# bipartite: ".toList ++ boolText d.bipartite]]; rfl⟩
  have hfield : literalEval t (afterColon ("# base field: ".toList ++ intText d.order)) = .ok (.int d.order) := by
    have : "# base field: ".toList ++ intText d.order = "# base field".toList ++ ':' :: (' ' :: intText d.order) := rfl
    rw [this, afterColon_append, hord, literalEval_decimal ht]
    · congr 2
      have := hd.order
      omega
    · intro hc
      rcases List.mem_cons.1 hc with hc | hc
      · exact absurd hc (by decide)
      · exact digit_ne (hdig _ hc) (by decide) rfl
  have hbip : literalEval t (afterColon ("# bipartite: ".toList ++ boolText d.bipartite)) = .ok (.bool d.bipartite) := by
    have : "# bipartite: ".toList ++ boolText d.bipartite = "# bipartite".toList ++ ':' :: (' ' :: boolText d.bipartite) := rfl
    rw [this, afterColon_append, literalEval_bool]
    cases d.bipartite <;> decide
  have harr := loadArrays_save ht hd headers
  have hlen : ¬ (saveLines d headers).length < 2 := by rw [hpre]; simp
  have hg2 : (saveLines d headers).getD ((saveLines d headers).length - 2) [] = "# base field: ".toList ++ intText d.order := by
    rw [hpre]; simp
  have hg1 : (saveLines d headers).getD ((saveLines d headers).length - 1) [] = "# bipartite: ".toList ++ boolText d.bipartite := by
    rw [hpre]; simp
  have hfA : ∀ (s : List (List ℤ)), (∀ r ∈ s, IsArrayForm r) → s.all isArrayForm = true := by
    intro s hs
    rw [List.all_eq_true]
    intro r hr
    unfold isArrayForm
    rw [List.all_eq_true]
    intro i hi
    simpa using (hs r hr).1 i (List.mem_range.1 hi)
  have hfF : ∀ (m : List (List ℤ)), (∀ r ∈ m, ∀ v ∈ r, 0 ≤ v ∧ v < d.order) → inField d.order m = true := by
    intro m hm
    unfold inField
    simpa using hm
  unfold loadText
  simp only [hsplit, if_neg hlen, hg2, hg1, hfield, hbip, harr, hfA _ hd.permA, hfA _ hd.permB, hfF _ hd.fieldA, hfF _ hd.fieldB,
    Bool.and_self, if_true, hd.setA.dedup, hd.setB.dedup]

/-- Different data give different files. -/
theorem C56_injective (ht : t.Ok) (d d' : QTData) (hd : ValidData d) (hd' : ValidData d') (headers headers' : List (List Char))
    (h : saveText d headers = saveText d' headers') : d = d' := by
  have h1 := C56_roundtrip_partial ht d hd headers
  have h2 := C56_roundtrip_partial ht d' hd' headers'
  rw [h, h2] at h1
  exact (Except.ok.inj h1).symm

/-! ### Equality -/

/-- **C56**: what `==` does compute: a `QTCode` equals every `QTCode`, and nothing else. -/
theorem C56_equality (d : QTData) (other : Option QTData) : qtEq d other = other.isSome := by
  cases other with
  | none => rfl
  | some o => simp [qtEq, codeEq, sameMembers]

/-- **C56**: the comparisons that `==` consists of are right: subsets are equal exactly if they have the same members, codes
exactly if they have the same field and the same checks. -/
theorem C56_comparisons (a b : List (List ℤ)) (q q' : ℤ) :
    (sameMembers a b = true ↔ ∀ x, x ∈ a ↔ x ∈ b) ∧ (codeEq q a q' b = true ↔ q = q' ∧ a = b) := by
  constructor
  · simp only [sameMembers, Bool.and_eq_true, List.all_eq_true, decide_eq_true_eq]
    exact ⟨fun h x => ⟨h.1 x, h.2 x⟩, fun h => ⟨fun x => (h x).1, fun x => (h x).2⟩⟩
  · simp [codeEq]

example : sameMembers [[0, 1], [1, 0]] [[1, 0], [0, 1], [1, 0]] = true ∧ sameMembers [[0, 1]] [[1, 0], [0, 1]] = false := by decide

/-- the members of the cyclic group of order two, with the code of one check -/
def sample2 : QTData := ⟨[[0, 1], [1, 0]], [[0, 1], [1, 0]], [[1, 1]], [[1, 1]], 2, false⟩

/-- other subsets, other codes, another field -/
def sample3 : QTData := ⟨[[1, 2, 0], [2, 0, 1]], [[0, 1, 2]], [[1, 2], [0, 1]], [[2]], 3, true⟩

example : ValidData sample2 := by
  refine ⟨⟨by decide, 2, by decide, by decide⟩, ⟨by decide, 2, by decide, by decide⟩, ⟨by decide, 2, by decide, by decide⟩,
    ⟨by decide, 2, by decide, by decide⟩, ?_, ?_, by decide, by decide, by decide, by decide, by decide⟩ <;>
  · intro r hr
    simp only [sample2, List.mem_cons, List.not_mem_nil, or_false] at hr
    rcases hr with rfl | rfl <;> refine ⟨fun i hi => ?_, by decide⟩ <;> simp only [List.length_cons, List.length_nil] at hi <;>
    · interval_cases i <;> decide

/-- **C56**: codes with different subsets, seed codes, fields and complexes compare equal, because `__eq__` compares `other`
with itself. -/
theorem C56_equality_disagreement : qtEq sample2 (some sample3) = true ∧ ¬ SameData sample2 sample3 := by
  refine ⟨by decide, ?_⟩
  rintro ⟨-, -, -, -, h, -⟩
  exact absurd h (by decide)

/-- ASCII tables -/
def persistTable : CharTable where
  numeric c := c.isDigit
  digit c := if c.isDigit then some (c.toNat - '0'.toNat) else none
  space c := decide (c = ' ')

theorem persistTable_ok : persistTable.Ok where
  numeric_digit c h := h
  digit c h := by simp [persistTable, h]
  numeric_of_digit c h := by
    simp only [persistTable] at h ⊢
    by_contra hc
    rw [if_neg hc] at h
    exact h rfl
  not_numeric := by decide
  not_numeric_space c h := by
    simp only [persistTable, decide_eq_true_eq] at h ⊢
    subst h
    decide
  space := rfl
  not_space := by decide

/-- a seed code without checks -/
def sampleFree : QTData := { sample2 with codeB := [] }

/-- **C56**: if the matrix of a seed code has no rows, nothing is written for it and loading raises. -/
theorem C56_no_rows_disagreement : loadText persistTable (saveText sampleFree []) = .error "IndexError" := by
  decide +kernel

section AxiomCheck
#print axioms C56_roundtrip_partial
#print axioms C56_injective
#print axioms C56_equality
#print axioms C56_comparisons
#print axioms C56_equality_disagreement
#print axioms C56_no_rows_disagreement
end AxiomCheck

/-! ### Instances of the theorems: concrete cases meet the hypotheses -/

private theorem sample2_valid : ValidData sample2 := by
  refine ⟨⟨by decide, 2, by decide, by decide⟩, ⟨by decide, 2, by decide, by decide⟩, ⟨by decide, 2, by decide, by decide⟩,
    ⟨by decide, 2, by decide, by decide⟩, ?_, ?_, by decide, by decide, by decide, by decide, by decide⟩ <;>
  · intro r hr
    simp only [sample2, List.mem_cons, List.not_mem_nil, or_false] at hr
    rcases hr with rfl | rfl <;> refine ⟨fun i hi => ?_, by decide⟩ <;> simp only [List.length_cons, List.length_nil] at hi <;>
    · interval_cases i <;> decide
example := C56_roundtrip_partial asciiTable_ok sample2 sample2_valid ["header".toList]
example := C56_injective asciiTable_ok sample2 sample2 sample2_valid sample2_valid ["header".toList] ["header".toList] rfl

end QLDPC.Props
