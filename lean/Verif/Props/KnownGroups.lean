import Verif.Props.Text
import Verif.Lemmas.KnownGroups

/-!
# C68: the table of known groups
-/

namespace QLDPC.Props

open QLDPC QLDPC.Spec

/-- The matrices named by the keys of the table, with their lengths. -/
def keyMatrices : List (ℕ × List (List ℕ)) := [
  (10, [[1, 0, 0, 0, 1, 1, 1, 0, 1, 1],
    [0, 1, 0, 0, 1, 0, 0, 1, 1, 0],
    [0, 0, 1, 0, 1, 1, 1, 0, 0, 0],
    [0, 0, 0, 1, 1, 1, 0, 1, 1, 1]]),
  (10, [[1, 0, 0, 0, 1, 0, 1, 0, 1, 0],
    [0, 1, 0, 0, 1, 0, 1, 1, 1, 1],
    [0, 0, 1, 0, 1, 1, 1, 1, 0, 1],
    [0, 0, 0, 1, 1, 1, 0, 1, 0, 0]]),
  (15, [[1, 0, 0, 0, 1, 1, 1, 0, 1, 1, 0, 1, 0, 1, 0],
    [0, 1, 0, 0, 1, 0, 0, 1, 1, 0, 0, 1, 1, 1, 1],
    [0, 0, 1, 0, 1, 1, 1, 0, 0, 0, 1, 1, 1, 0, 1],
    [0, 0, 0, 1, 1, 1, 0, 1, 1, 1, 1, 0, 1, 0, 0]]),
  (12, [[1, 1, 1, 1, 0, 0, 0, 0, 1, 1, 1, 1],
    [0, 0, 0, 0, 1, 1, 1, 1, 1, 1, 1, 1]])]

/-- `σ` is the permutation with the given cycles: it moves every member of a cycle to the next one and
fixes everything else. -/
def HasCycles {n : ℕ} (σ : Fin n → Fin n) (cycles : List (List ℕ)) : Prop :=
  (∀ c ∈ cycles, ∀ (k : ℕ) (hk : k < c.length), ∃ h : c[k] < n,
    (σ ⟨c[k], h⟩).val = c[(k + 1) % c.length]'(Nat.mod_lt _ (by omega))) ∧
  ∀ i : Fin n, (∀ c ∈ cycles, i.val ∉ c) → σ i = i

/-- executable form of the first half of `HasCycles` -/
def cyclesOk (n : ℕ) (g : List (List ℕ)) : Bool :=
  g.all fun c => (List.range c.length).all fun k =>
    decide (c.getD k 0 < n) && decide (cyclesImage g (c.getD k 0) = c.getD ((k + 1) % c.length) 0)

theorem cycleNext_fix {c : List ℕ} {i : ℕ} (h : i ∉ c) : cycleNext c i = i := by
  unfold cycleNext
  rw [List.idxOf?_eq_none_iff.2 h]

theorem cyclesImage_fix {g : List (List ℕ)} {i : ℕ} (h : ∀ c ∈ g, i ∉ c) : cyclesImage g i = i := by
  unfold cyclesImage
  induction g with
  | nil => rfl
  | cons c g ih =>
    rw [List.foldl_cons, cycleNext_fix (h c List.mem_cons_self)]
    exact ih fun c' hc' => h c' (List.mem_cons_of_mem _ hc')

theorem hasCycles_of_ok {n : ℕ} {g : List (List ℕ)} (h : cyclesOk n g = true) {σ : Fin n → Fin n}
    (hσ : ∀ i, (σ i).val = cyclesImage g i) : HasCycles σ g := by
  refine ⟨fun c hc k hk => ?_, fun i hi => Fin.ext (by rw [hσ, cyclesImage_fix hi])⟩
  have h1 := List.all_eq_true.1 (List.all_eq_true.1 h c hc) k (List.mem_range.2 hk)
  simp only [Bool.and_eq_true, decide_eq_true_eq] at h1
  have hm : (k + 1) % c.length < c.length := Nat.mod_lt _ (by omega)
  rw [List.getD_eq_getElem _ _ hk, List.getD_eq_getElem _ _ hm] at h1
  exact ⟨h1.1, by rw [hσ]; exact h1.2⟩

theorem table_matrices : ∀ p ∈ keyMatrices.zip knownGroups,
    p.2.1.toList = (automorphismName 2 p.1.2).filter (· ≠ ' ') ∧ p.1.2 ≠ [] ∧
      (∀ l ∈ p.1.2, l.length = p.1.1 ∧ ∀ b ∈ l, b < 2) ∧
      ∀ g ∈ p.2.2, generatorOk p.1.1 p.1.2 g = true ∧ cyclesOk p.1.1 g = true := by
  have h : ((keyMatrices.zip knownGroups).all fun p =>
      decide (p.2.1.toList = (automorphismName 2 p.1.2).filter (· ≠ ' ')) && decide (p.1.2 ≠ []) &&
      (p.1.2.all fun l => decide (l.length = p.1.1) && l.all fun b => decide (b < 2)) &&
      p.2.2.all fun g => generatorOk p.1.1 p.1.2 g && cyclesOk p.1.1 g) = true := by decide +kernel
  intro p hp
  have h1 := List.all_eq_true.1 h p hp
  simp only [Bool.and_eq_true, List.all_eq_true, decide_eq_true_eq] at h1
  exact ⟨h1.1.1.1, h1.1.1.2, h1.1.2, h1.2⟩

theorem exists_zip {e : String × List (List (List ℕ))} (he : e ∈ knownGroups) :
    ∃ m, (m, e) ∈ keyMatrices.zip knownGroups := by
  obtain ⟨k, hk, rfl⟩ := List.getElem_of_mem he
  have hl : keyMatrices.length = knownGroups.length := rfl
  refine ⟨keyMatrices[k]'(by omega), ?_⟩
  have : (keyMatrices.zip knownGroups)[k]'(by rw [List.length_zip]; omega) =
      (keyMatrices[k]'(by omega), knownGroups[k]) := List.getElem_zip
  rw [← this]
  exact List.getElem_mem _

theorem standardizedName_eq {t : CharTable} (hend : t.space ')' = false) {order : ℕ} {M : List (List ℕ)}
    (hstart : ∀ c ∈ (automorphismName order M).head?, t.space c = false) :
    standardizedName t (automorphismName order M) = (automorphismName order M).filter (· ≠ ' ') := by
  unfold standardizedName strip
  have h1 : (automorphismName order M).dropWhile t.space = automorphismName order M := by
    cases hn : automorphismName order M with
    | nil => rfl
    | cons c l =>
      rw [hn] at hstart
      rw [List.dropWhile_cons, hstart c rfl]; rfl
  have h2 : (automorphismName order M).reverse.dropWhile t.space = (automorphismName order M).reverse := by
    unfold automorphismName
    simp only [List.reverse_append, List.reverse_cons, List.reverse_nil, List.nil_append, List.cons_append,
      List.dropWhile_cons, hend]
    rfl
  rw [h1, h2, List.reverse_reverse]

/-- C68.  Whatever the parity check matrix of a binary code: if its automorphism group is looked up in the
table, then every generator found is a permutation of its bits that maps code words to code words and only
code words to code words. -/
theorem C68_known (t : CharTable) (hA : t.space 'A' = false) (hend : t.space ')' = false) {n : ℕ}
    (H : Rows (ZMod 2) n) (gens : List (List (List ℕ)))
    (h : knownGenerators (standardizedName t
      (automorphismName 2 (matrixInts (CCode.ofMatrix H).canonicalized.matrix))) = some gens) :
    ∀ g ∈ gens, ∃ σ : Equiv.Perm (Fin n), HasCycles σ g ∧
      ∀ w : Fin n → ZMod 2, IsWord H (fun i => w (σ i)) ↔ IsWord H w := by
  change knownGenerators (standardizedName t
    (automorphismName 2 (matrixInts (dropZero (rowReduce H))))) = some gens at h
  rw [standardizedName_eq hend (by intro c hc; obtain rfl : 'A' = c := Option.some.inj hc; exact hA)] at h
  unfold knownGenerators at h
  cases hf : knownGroups.find? fun e => e.1.toList = (automorphismName 2
      (matrixInts (dropZero (rowReduce H)))).filter (· ≠ ' ') with
  | none => rw [hf] at h; cases h
  | some e =>
    rw [hf] at h
    simp only at h
    split_ifs at h
    obtain rfl : e.2 = gens := Option.some.inj h
    have hname := List.find?_some hf
    rw [decide_eq_true_eq] at hname
    obtain ⟨m, hm⟩ := exists_zip (List.mem_of_find?_eq_some hf)
    obtain ⟨h1, h2, h3, h4⟩ := table_matrices _ hm
    simp only at h1 h2 h3 h4
    have hbits : ∀ l ∈ matrixInts (dropZero (rowReduce H)), ∀ b ∈ l, b < 2 := by
      intro l hl b hb
      obtain ⟨r, -, rfl⟩ := List.mem_map.1 hl
      obtain ⟨i, rfl⟩ := (List.mem_ofFn' _ _).1 hb
      exact ZMod.val_lt _
    have hM : matrixInts (dropZero (rowReduce H)) = m.2 := by
      refine signature_inj hbits (fun l hl => (h3 l hl).2) ?_
      rw [← filter_name hbits, ← filter_name fun l hl => (h3 l hl).2, ← filter_keep_space,
        ← hname, h1, filter_keep_space]
    obtain ⟨rfl, hw⟩ := isWord_of_matrixInts hM h2 fun l hl => (h3 l hl).1
    intro g hg
    obtain ⟨σ, hσ, hσw⟩ := generatorOk_spec (h4 g hg).1
    refine ⟨σ, hasCycles_of_ok (h4 g hg).2 hσ, fun w => ?_⟩
    rw [hw, hw]
    exact hσw w

/-- C68.  Every key of the table is the name of the group of a code, so that every entry is used. -/
theorem C68_reachable (t : CharTable) (hA : t.space 'A' = false) (hend : t.space ')' = false) :
    ∀ e ∈ knownGroups, ∃ (n : ℕ) (H : Rows (ZMod 2) n), knownGenerators (standardizedName t
      (automorphismName 2 (matrixInts (CCode.ofMatrix H).canonicalized.matrix))) = some e.2 := by
  have hall : ((keyMatrices.zip knownGroups).all fun p =>
      decide (knownGenerators ((automorphismName 2
        (matrixInts (dropZero (rowReduce (listRows p.1.1 p.1.2))))).filter (· ≠ ' ')) = some p.2.2)) = true := by
    decide +kernel
  intro e he
  obtain ⟨m, hm⟩ := exists_zip he
  have h := List.all_eq_true.1 hall _ hm
  rw [decide_eq_true_eq] at h
  refine ⟨m.1, listRows m.1 m.2, ?_⟩
  rw [standardizedName_eq hend (by intro c hc; obtain rfl : 'A' = c := Option.some.inj hc; exact hA)]
  exact h

/-- C68.  The group of a code over another field is never looked up in the table. -/
theorem C68_other_fields (t : CharTable) (hP : t.space 'P' = false) (hend : t.space ')' = false) (order : ℕ)
    (ho : order ≠ 2) (M : List (List ℕ)) :
    knownGenerators (standardizedName t (automorphismName order M)) = none := by
  have hhead : (automorphismName order M).head? = some 'P' := by
    unfold automorphismName; simp only [if_neg ho]; rfl
  rw [standardizedName_eq hend (by rw [hhead]; intro c hc; obtain rfl : 'P' = c := Option.some.inj hc; exact hP)]
  unfold knownGenerators
  have hno : knownGroups.find? (fun e => e.1.toList = (automorphismName order M).filter (· ≠ ' ')) = none := by
    rw [List.find?_eq_none]
    intro e he
    rw [decide_eq_true_eq]
    intro hname
    have h1 : (knownGroups.all fun e => decide (e.1.toList.head? = some 'A')) = true := by decide +kernel
    have h2 := List.all_eq_true.1 h1 e he
    rw [decide_eq_true_eq, hname] at h2
    cases hn : automorphismName order M with
    | nil => rw [hn] at hhead; cases hhead
    | cons c l =>
      rw [hn] at hhead h2
      obtain rfl : c = 'P' := Option.some.inj hhead
      rw [List.filter_cons_of_pos (by decide)] at h2
      simp at h2
  rw [hno]

/-- A code of the table: two checks on twelve bits. -/
example (t : CharTable) (hA : t.space 'A' = false) (hend : t.space ')' = false) :
    (knownGenerators (standardizedName t (automorphismName 2 (matrixInts (CCode.ofMatrix (listRows 12
      [[1,1,1,1,1,1,1,1,0,0,0,0],[0,0,0,0,1,1,1,1,1,1,1,1]])).canonicalized.matrix)))).map List.length = some 14 := by
  rw [standardizedName_eq hend (by intro c hc; obtain rfl : 'A' = c := Option.some.inj hc; exact hA)]
  decide +kernel

section AxiomCheck
#print axioms C68_known
#print axioms C68_reachable
#print axioms C68_other_fields
end AxiomCheck

/-! ### Instances of the theorems: concrete cases meet the hypotheses -/

example := C68_reachable asciiTable (by decide) (by decide)
example := C68_other_fields asciiTable (by decide) (by decide) 3 (by decide) [[1, 2]]

end QLDPC.Props
