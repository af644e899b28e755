import Verif.Model.QTRandom
import Verif.Props.QuantumTanner
import Verif.Props.GroupSubset

/-!
# Property C99: defaults of quantum Tanner codes and random quantum Tanner codes
-/

namespace QLDPC.Props

open QLDPC QLDPC.Spec

/-! ### Random subsets with the state of the generator -/

section Random

variable {S G : Type} [Group G] [DecidableEq G]

/-- The members that successive calls of `group.random()` return. -/
def drawsOf (rng : SympyRandom S G) : ℕ → S → List G
  | 0, _ => []
  | k + 1, st => (rng.member st).1 :: drawsOf rng k (rng.member st).2

theorem dropPairs_congr {sort : List G → List G} {picks picks' : ℕ → ℕ} : ∀ (k : ℕ) (d : List G),
    (∀ i, 1 ≤ i → i ≤ k → picks i = picks' i) → dropPairs sort picks k d = dropPairs sort picks' k d := by
  intro k
  induction k with
  | zero => intros; rfl
  | succ k ih =>
    intro d h
    unfold dropPairs
    rw [h (k + 1) (by omega) le_rfl]
    cases (sort d)[picks' (k + 1) % d.length]? with
    | none => rfl
    | some g => exact ih _ fun i h1 h2 => h i h1 (by omega)

theorem dropPairsR_eq (rng : SympyRandom S G) (sort : List G → List G) : ∀ (k : ℕ) (d : List G) (st : S),
    ∃ picks, (dropPairsR rng sort k d st).map Prod.fst = dropPairs sort picks k d := by
  intro k
  induction k with
  | zero => exact fun d st => ⟨fun _ => 0, rfl⟩
  | succ k ih =>
    intro d st
    unfold dropPairsR
    simp only
    cases hx : (sort d)[(rng.randint d.length st).1 % d.length]? with
    | none =>
      refine ⟨fun _ => (rng.randint d.length st).1, ?_⟩
      unfold dropPairs
      simp only [hx]
      rfl
    | some g =>
      obtain ⟨picks, hp⟩ := ih ((d.erase g).erase g⁻¹) (rng.randint d.length st).2
      refine ⟨Function.update picks (k + 1) (rng.randint d.length st).1, ?_⟩
      rw [dropPairs]
      simp only [Function.update_self, hx]
      rw [hp]
      exact dropPairs_congr k _ fun i _ h => (Function.update_of_ne (by omega) _ _).symm

theorem symSubsetLoopR_eq (rng : SympyRandom S G) (sort : List G → List G) (size : ℕ) :
    ∀ (fuel : ℕ) (s d : List G) (st : S), ∃ picks,
      (symSubsetLoopR rng sort size fuel s d st).map (Option.map Prod.fst) =
        symSubsetLoop sort size false picks (drawsOf rng fuel st) s d := by
  intro fuel
  induction fuel with
  | zero => exact fun _ _ _ => ⟨fun _ => 0, rfl⟩
  | succ fuel ih =>
    intro s d st
    unfold symSubsetLoopR drawsOf symSubsetLoop
    simp only [Bool.false_eq_true, false_and, if_false]
    generalize (rng.member st).2 = st'
    generalize (rng.member st).1 = g
    generalize (if g = g⁻¹ then setAdd s g else s) = s'
    generalize (if g = g⁻¹ then d else setAdd (setAdd d g) g⁻¹) = d'
    by_cases e1 : s'.length + d'.length = size
    · simp only [if_pos e1]
      exact ⟨fun _ => 0, rfl⟩
    simp only [if_neg e1]
    by_cases e2 : size < s'.length + d'.length ∧ 0 < s'.length
    · simp only [if_pos e2]
      obtain ⟨picks, hp⟩ := dropPairsR_eq rng sort ((s'.length + d'.length - size) / 2) d' st'
      cases hx : dropPairsR rng sort ((s'.length + d'.length - size) / 2) d' st' with
      | error e =>
        refine ⟨picks, ?_⟩
        rw [hx] at hp
        rw [← hp]
        rfl
      | ok r =>
        refine ⟨Function.update picks 0 (rng.randint s'.length r.2).1, ?_⟩
        rw [hx] at hp
        rw [dropPairs_congr (picks' := picks) _ _ fun i h _ => Function.update_of_ne (by omega) _ _, ← hp]
        simp only [Except.map, Except.bind, Function.update_self]
        by_cases e3 : (s'.length + d'.length - size) % 2 = 1
        · simp only [if_pos e3]
          cases (sort s')[(rng.randint s'.length r.2).1 % s'.length]? <;> rfl
        · simp only [if_neg e3]
          rfl
    · simp only [if_neg e2]
      exact ih s' d' st'

/-- The subset is what C41 describes, for the members that the generator draws and some other random numbers. -/
theorem randomSymmetricSubset_eq (rng : SympyRandom S G) (sort : List G → List G) (order fuel size : ℕ) (seed : Option ℤ)
    (st : S) : ∃ picks, (randomSymmetricSubset rng sort order fuel size seed st).map (Option.map Prod.fst) =
      symSubset sort order size false (drawsOf rng fuel (rng.start seed st)) picks := by
  unfold randomSymmetricSubset symSubset
  by_cases h : 0 < size ∧ size ≤ order
  · simp only [h, not_true, if_false]
    exact symSubsetLoopR_eq rng sort size fuel [] [] _
  · simp only [h, not_false_eq_true, if_true]
    exact ⟨fun _ => 0, rfl⟩

variable (rng : SympyRandom S G) {sort : List G → List G} (hsort : ∀ l, (sort l).Perm l) (order fuel size : ℕ)
  (seed : Option ℤ) (st : S)

include hsort in
theorem randomSubset_spec {s : List G} {st' : S}
    (h : randomSymmetricSubset rng sort order fuel size seed st = .ok (some (s, st'))) : IsSymSubset size false s := by
  obtain ⟨picks, hp⟩ := randomSymmetricSubset_eq rng sort order fuel size seed st
  rw [h] at hp
  exact C41_symmetric_subset hsort _ _ _ _ _ hp.symm

include hsort in
theorem randomSubset_error :
    (∃ e, randomSymmetricSubset rng sort order fuel size seed st = .error e) ↔ size = 0 ∨ order < size := by
  obtain ⟨picks, hp⟩ := randomSymmetricSubset_eq rng sort order fuel size seed st
  rw [← C41_raises_iff hsort order size false (drawsOf rng fuel (rng.start seed st)) picks, ← hp]
  cases randomSymmetricSubset rng sort order fuel size seed st <;> simp [Except.map]

end Random

/-! ### Lengths of the seed codes -/

section Lengths

variable {F : Type} [Field F] [DecidableEq F] {n m : ℕ} {H : Type} [Group H] [DecidableEq H] {A B : List H} {W : Set H}
  {χ : H → Bool} {lt : H → H → Bool}

theorem sinkIndices_length {α : Type} [DecidableEq α] {sinks l : List α} {r : List (Fin sinks.length)}
    (h : sinkIndices sinks l = some r) : r.length = l.length := by
  unfold sinkIndices at h
  exact (mapM_some_iff.1 h).length_eq.symm

theorem qtCode_mismatch [Fintype H] (h : QTGood A B W χ) (hlt : StrictTotal lt) (hA : A.Nodup) (hB : B.Nodup) (hA0 : A ≠ [])
    (hB0 : B ≠ []) (codeA : CCode F n) (codeB : CCode F m) (hnm : n * m ≠ A.length * B.length) (h1 : n * m ≠ 1)
    (pick : ℕ → ℕ) (fuel : ℕ) (hfuel : Fintype.card H < fuel) : qtCode lt A B pick fuel codeA codeB = none := by
  obtain ⟨P, hP, hPin, hPV, hcl, hloop⟩ := subgraphLoop_spec hA0 hB0 {g | Reached A B g}
    (fun g hg a ha b hb => Reached.step hg ha hb) (fun g hg a ha b hb => h.ne_self (Reached.good h hg).1 ha hb) pick fuel [] [1]
    (by simp) (by rintro g hg; rw [List.append_nil, List.mem_singleton] at hg; subst hg; exact Reached.one) (by simp)
    (by simpa using hfuel)
  have hsub : qtSubgraphs A B pick fuel =
      some (buildEdges (biEdges (edgesX A B P)), buildEdges (biEdges (edgesZ A B P))) := by
    rw [← foldl_addFaces, ← hloop]
    unfold qtSubgraphs
    cases A with
    | nil => exact absurd rfl hA0
    | cons a A => simp
  have hX := faceEdges_X h hA hB hP fun g hg => (Reached.good h (hPV g hg)).1
  have hreg := hX.halfRegular h hlt hA hB rfl rfl
  have hnone : tannerCode (qtLt lt) (buildEdges (biEdges (edgesX A B P))) (codeA.tensorProduct codeB).dual = none := by
    by_contra hc
    obtain ⟨c, hc⟩ := Option.ne_none_iff_exists'.1 hc
    unfold tannerCode at hc
    obtain ⟨blocks, hb, -⟩ := Option.map_eq_some_iff.1 hc
    obtain ⟨a0, ha0⟩ := List.exists_mem_of_ne_nil A hA0
    obtain ⟨b0, hb0⟩ := List.exists_mem_of_ne_nil B hB0
    have he : ((1 : H), qtFace 1 a0 b0, (a0, b0)) ∈ edgesX A B P := by
      unfold edgesX
      exact List.mem_flatMap.2 ⟨1, hPin 1 (by simp), List.mem_map.2 ⟨(a0, b0), mem_product'.2 ⟨ha0, hb0⟩, rfl⟩⟩
    have hsrc := mem_sources_biEdges hX.nodup he
    have hsrc' : (.inl 1 : H ⊕ Finset H) ∈ pySorted (qtLt lt) Sum.inr (buildEdges (biEdges (edgesX A B P))).sources := by
      unfold pySorted
      exact (List.perm_insertionSort _ _).mem_iff.2 hsrc
    obtain ⟨k, hk, hk'⟩ := List.mem_iff_getElem.1 hsrc'
    have hf := mapM_some_iff.1 hb
    have hk2 : k < blocks.length := by rw [← hf.length_eq]; exact hk
    have := hf.get hk hk2
    simp only [List.get_eq_getElem, hk'] at this
    obtain ⟨bits, hbits, hsc⟩ := Option.bind_eq_some_iff.1 this
    have hl := sinkIndices_length hbits
    have hd : (sortedNeighbors (qtLt lt) (buildEdges (biEdges (edgesX A B P))) (.inl 1)).length = A.length * B.length := by
      unfold sortedNeighbors pySorted
      rw [List.length_map, List.length_insertionSort]
      exact hreg.degree _ hsrc
    unfold scatterBlock at hsc
    rw [if_neg (by omega), dif_neg h1] at hsc
    cases hsc
  unfold qtCode
  simp only [hsub, hnone]

theorem qtCode_accepts [Fintype H] (h : QTGood A B W χ) (hlt : StrictTotal lt) (hA : A.Nodup) (hB : B.Nodup) (hA0 : A ≠ [])
    (hB0 : B ≠ []) (codeA : CCode F n) (codeB : CCode F m) (hnm : A.length * B.length = n * m)
    (pick : ℕ → ℕ) (fuel : ℕ) (hfuel : Fintype.card H < fuel) : ∃ c, qtCode lt A B pick fuel codeA codeB = some c := by
  obtain ⟨P, hP, hPin, hPV, hcl, hloop⟩ := subgraphLoop_spec hA0 hB0 {g | Reached A B g}
    (fun g hg a ha b hb => Reached.step hg ha hb) (fun g hg a ha b hb => h.ne_self (Reached.good h hg).1 ha hb) pick fuel [] [1]
    (by simp) (by rintro g hg; rw [List.append_nil, List.mem_singleton] at hg; subst hg; exact Reached.one) (by simp)
    (by simpa using hfuel)
  have hsub : qtSubgraphs A B pick fuel =
      some (buildEdges (biEdges (edgesX A B P)), buildEdges (biEdges (edgesZ A B P))) := by
    rw [← foldl_addFaces, ← hloop]
    unfold qtSubgraphs
    cases A with
    | nil => exact absurd rfl hA0
    | cons a A => simp
  have hX := faceEdges_X h hA hB hP fun g hg => (Reached.good h (hPV g hg)).1
  have hZ := faceEdges_Z h hA hB hB0 hP (fun g hg => (Reached.good h (hPV g hg)).1) hcl
  have hregX := hX.halfRegular h hlt hA hB rfl rfl
  have hregZ := hZ.halfRegular h hlt hA hB rfl rfl
  rw [hnm] at hregX hregZ
  have hS : pySorted (qtLt lt) Sum.inr (buildEdges (biEdges (edgesZ A B P))).sinks =
      pySorted (qtLt lt) Sum.inr (buildEdges (biEdges (edgesX A B P))).sinks := by
    rw [hX.sinks (lt := lt) h, hZ.sinks (lt := lt) h]
    congr 1
    simp [edgesX, edgesZ, List.map_flatMap, Function.comp_def]
  obtain ⟨cx, hcx, -⟩ := C34_exists (qtLt lt) _ (codeA.tensorProduct codeB).dual hregX
  obtain ⟨cz, hcz, -⟩ := C34_exists (qtLt lt) _ (codeA.dual.tensorProduct codeB.dual).dual hregZ
  refine ⟨⟨_, cx.matrix, cz.matrix.map fun r j => r (j.cast (congrArg List.length hS).symm)⟩, ?_⟩
  unfold qtCode
  simp only [hsub, hcx, hcz, dif_pos (congrArg List.length hS)]

end Lengths

/-! ### The constructor -/

section Init

variable {F : Type} [Field F] [DecidableEq F] {n m : ℕ} {G : Type} [Group G] [DecidableEq G] [Fintype G]

/-- What the construction relies on: the members are those of the group generated by both subsets, the orders of the members
are total, and there are enough rounds. -/
structure QTEnvOk (env : QTEnv G) : Prop where
  members : ∀ A B g, g ∈ env.members A B ↔ g ∈ Subgroup.closure {g | g ∈ A ∨ g ∈ B}
  ltBi : StrictTotal env.ltBi
  ltQuad : StrictTotal env.ltQuad
  fuel : 4 * Fintype.card G < env.fuel

/-- The quantum Tanner code on the double or quadruple cover of the group. -/
def IsTannerOn (env : QTEnv G) (bipartite : Bool) (A B : List G) (codeA : CCode F n) (codeB : CCode F m)
    (c : Σ N : ℕ, Rows F N × Rows F N) : Prop :=
  match bipartite with
  | true => IsQuantumTanner env.ltBi (coverBi A) (coverBi B) codeA codeB c
  | false => IsQuantumTanner env.ltQuad (coverQuadA A) (coverQuadB B) codeA codeB c

/-- Total no-conjugacy. -/
def NoConjugates (A B : List G) : Prop :=
  ∀ g ∈ Subgroup.closure {g | g ∈ A ∨ g ∈ B}, ∀ a ∈ A, ∀ b ∈ B, a * g ≠ g * b

/-- The subsets are as they should be. -/
structure GoodSubsets (A B : List G) (bipartite : Bool) : Prop where
  symmA : ∀ a ∈ A, a⁻¹ ∈ A
  symmB : ∀ b ∈ B, b⁻¹ ∈ B
  tnc : bipartite = true → NoConjugates A B

theorem accepted_iff {env : QTEnv G} (henv : QTEnvOk env) (A B : List G) (bipartite : Bool) :
    complexAccepted (env.members A B) A B bipartite = true ↔ GoodSubsets A B bipartite := by
  unfold complexAccepted isSymmetric totalNoConjugacy
  simp only [Bool.and_eq_true, Bool.or_eq_true, Bool.not_eq_true', List.all_eq_true, decide_eq_true_eq, henv.members]
  constructor
  · rintro ⟨⟨h1, h2⟩, h3⟩
    refine ⟨h1, h2, fun h => ?_⟩
    rcases h3 with h3 | h3
    · rw [h3] at h; cases h
    · exact h3
  · rintro ⟨h1, h2, h3⟩
    refine ⟨⟨h1, h2⟩, ?_⟩
    cases bipartite
    · exact Or.inl rfl
    · exact Or.inr (h3 rfl)

theorem card_bi : Fintype.card (G × Two) = Fintype.card G * 2 := by
  rw [Fintype.card_prod]; rfl

theorem card_quad : Fintype.card (G × Two × Two) = Fintype.card G * 4 := by
  rw [Fintype.card_prod, Fintype.card_prod]; rfl

/-- **C99**: accepted subsets and seed codes of matching lengths give the quantum Tanner code. -/
theorem C99_init {env : QTEnv G} (henv : QTEnvOk env) {A B : List G} {bipartite : Bool} (hA : A.Nodup) (hB : B.Nodup)
    (hA0 : A ≠ []) (hB0 : B ≠ []) (hgood : GoodSubsets A B bipartite) (codeA : CCode F n) (codeB : CCode F m)
    (ha : codeA.gen? = none) (hb : codeB.gen? = none) (hn : A.length = n) (hm : B.length = m) :
    ∃ c, qtInit env A B codeA (some ⟨m, codeB⟩) bipartite = .ok c ∧ IsTannerOn env bipartite A B codeA codeB c := by
  subst hn hm
  have hacc := (accepted_iff henv A B bipartite).2 hgood
  have hf := henv.fuel
  cases bipartite with
  | true =>
    obtain ⟨c, h1, h2⟩ := C55_bipartite (env.members A B) A B (fun g hg => (henv.members A B g).2 hg) hA hB hA0 hB0 hacc
      env.ltBi henv.ltBi codeA codeB ha hb env.pick env.fuel (by rw [card_bi]; omega)
    refine ⟨c, ?_, h2⟩
    unfold qtInit
    simp only [if_true, h1]
  | false =>
    obtain ⟨c, h1, h2⟩ := C55_quadripartite (env.members A B) A B hA hB hA0 hB0 hacc
      env.ltQuad henv.ltQuad codeA codeB ha hb env.pick env.fuel (by rw [card_quad]; omega)
    refine ⟨c, ?_, h2⟩
    unfold qtInit
    simp only [Bool.false_eq_true, if_false, h1]

/-- **C99**: subsets that are not symmetric, conjugate members in a bipartite complex, and seed codes whose lengths do not
multiply to the number of faces at a node raise an exception.  (Two seed codes on one bit each are not noticed.) -/
theorem C99_init_raises {env : QTEnv G} (henv : QTEnvOk env) {A B : List G} {bipartite : Bool} (hA : A.Nodup) (hB : B.Nodup)
    (hA0 : A ≠ []) (hB0 : B ≠ []) (codeA : CCode F n) (codeB : CCode F m)
    (h : ¬ GoodSubsets A B bipartite ∨ (n * m ≠ A.length * B.length ∧ n * m ≠ 1)) :
    ∃ e, qtInit env A B codeA (some ⟨m, codeB⟩) bipartite = .error e := by
  have hf := henv.fuel
  by_cases hacc : complexAccepted (env.members A B) A B bipartite = true
  · have hgood := (accepted_iff henv A B bipartite).1 hacc
    rcases h with h | ⟨h, h1⟩
    · exact absurd hgood h
    refine ⟨"ValueError", ?_⟩
    cases bipartite with
    | true =>
      have hinj : Function.Injective fun a : G => (a, shift) := fun a b h => congrArg Prod.fst h
      have := qtCode_mismatch (good_bipartite _ A B (fun g hg => (henv.members A B g).2 hg) hacc) henv.ltBi (hA.map hinj)
        (hB.map hinj) (by simpa [coverBi] using hA0) (by simpa [coverBi] using hB0) codeA codeB (by simpa [coverBi] using h)
        h1 env.pick env.fuel (by rw [card_bi]; omega)
      unfold qtInit
      simp only [if_true]
      unfold qtCodeBi
      simp only [hacc, if_true]
      rw [this]
    | false =>
      have := qtCode_mismatch (good_quadripartite _ A B hacc) henv.ltQuad (hA.map fun a b h => congrArg Prod.fst h)
        (hB.map fun a b h => congrArg Prod.fst h) (by simpa [coverQuadA] using hA0) (by simpa [coverQuadB] using hB0)
        codeA codeB (by simpa [coverQuadA, coverQuadB] using h)
        h1 env.pick env.fuel (by rw [card_quad]; omega)
      unfold qtInit
      simp only [Bool.false_eq_true, if_false]
      unfold qtCodeQuad
      simp only [hacc, if_true]
      rw [this]
  · refine ⟨"ValueError", ?_⟩
    unfold qtInit
    cases bipartite with
    | true =>
      simp only [if_true]
      unfold qtCodeBi
      rw [if_neg hacc]
    | false =>
      simp only [Bool.false_eq_true, if_false]
      unfold qtCodeQuad
      rw [if_neg hacc]

/-- **C99**, where the code departs from the claim: only the product of the two lengths is compared with the number of faces at a
node.  Seed codes given in the wrong order are accepted, as are all others with the right product. -/
theorem C99_lengths_disagreement {env : QTEnv G} (henv : QTEnvOk env) {A B : List G} {bipartite : Bool} (hA : A.Nodup)
    (hB : B.Nodup) (hA0 : A ≠ []) (hB0 : B ≠ []) (hgood : GoodSubsets A B bipartite) (codeA : CCode F n) (codeB : CCode F m)
    (h : A.length * B.length = n * m) :
    ∃ c, qtInit env A B codeA (some ⟨m, codeB⟩) bipartite = .ok c := by
  have hacc := (accepted_iff henv A B bipartite).2 hgood
  have hf := henv.fuel
  cases bipartite with
  | true =>
    have hinj : Function.Injective fun a : G => (a, shift) := fun a b h => congrArg Prod.fst h
    obtain ⟨c, hc⟩ := qtCode_accepts (good_bipartite _ A B (fun g hg => (henv.members A B g).2 hg) hacc) henv.ltBi (hA.map hinj)
      (hB.map hinj) (by simpa [coverBi] using hA0) (by simpa [coverBi] using hB0) codeA codeB (by simpa [coverBi] using h)
      env.pick env.fuel (by rw [card_bi]; omega)
    refine ⟨c, ?_⟩
    unfold qtInit
    simp only [if_true]
    unfold qtCodeBi
    simp only [hacc, if_true]
    rw [hc]
  | false =>
    obtain ⟨c, hc⟩ := qtCode_accepts (good_quadripartite _ A B hacc) henv.ltQuad (hA.map fun a b h => congrArg Prod.fst h)
      (hB.map fun a b h => congrArg Prod.fst h) (by simpa [coverQuadA] using hA0) (by simpa [coverQuadB] using hB0)
      codeA codeB (by simpa [coverQuadA, coverQuadB] using h) env.pick env.fuel (by rw [card_quad]; omega)
    refine ⟨c, ?_⟩
    unfold qtInit
    simp only [Bool.false_eq_true, if_false]
    unfold qtCodeQuad
    simp only [hacc, if_true]
    rw [hc]

theorem qtInit_withGenerator (env : QTEnv G) (A B : List G) (bipartite : Bool) (codeA : CCode F n)
    (codeB : Σ m, CCode F m) :
    qtInit env A B codeA.withGenerator (some codeB) bipartite = qtInit env A B codeA (some codeB) bipartite := rfl

/-- **C99**: without `code_b`, the second code is the dual of the first if the subsets have the same size; otherwise an
exception is raised. -/
theorem C99_default {env : QTEnv G} (henv : QTEnvOk env) {A B : List G} {bipartite : Bool} (hA : A.Nodup) (hB : B.Nodup)
    (hA0 : A ≠ []) (hB0 : B ≠ []) (hgood : GoodSubsets A B bipartite) (codeA : CCode F n)
    (ha : codeA.gen? = none) (hn : A.length = n) :
    (B.length = n → ∃ (c : _) (dual : CCode F n), qtInit env A B codeA none bipartite = .ok c ∧
      IsTannerOn env bipartite A B codeA dual c ∧ ∀ w, IsWord dual.matrix w ↔ InDual codeA.matrix w) ∧
    (B.length ≠ n → ∃ e, qtInit env A B codeA none bipartite = .error e) := by
  constructor
  · intro hm
    obtain ⟨c, h1, h2⟩ := C99_init henv hA hB hA0 hB0 hgood codeA codeA.dual ha rfl hn hm
    refine ⟨c, codeA.dual, ?_, h2, fun w => C04_dual codeA ha w⟩
    rw [← h1, ← qtInit_withGenerator]
    show (if A.length = B.length then _ else _) = _
    rw [if_pos (hn.trans hm.symm)]
    rfl
  · intro hm
    refine ⟨"ValueError: no seed code provided for one of the generating subsets", ?_⟩
    show (if A.length = B.length then _ else _) = _
    rw [if_neg fun h => hm (h.symm.trans hn)]

end Init

/-! ### Symmetric subsets exist -/

/-- A group has symmetric subsets of every size. -/
theorem exists_symSubset {G : Type} [Group G] [DecidableEq G] [Fintype G] {size : ℕ} (h : size ≤ Fintype.card G) :
    ∃ t : List G, IsSymSubset size false t := by
  classical
  let all : List G := Finset.univ.toList
  have hall : all.Nodup := Finset.nodup_toList _
  have hmem : ∀ g, g ∈ all := fun g => Finset.mem_toList.2 (Finset.mem_univ g)
  let s : List G := all.filter fun g => g = g⁻¹
  let d : List G := all.filter fun g => ¬ g = g⁻¹
  have hs : ∀ g, g ∈ s ↔ g = g⁻¹ := fun g => by simp [s, hmem]
  have hd : ∀ g, g ∈ d ↔ ¬ g = g⁻¹ := fun g => by simp [d, hmem]
  have hinv : SubsetInv false s d := ⟨hall.filter _, fun g hg => (hs g).1 hg, hall.filter _, fun g hg =>
    ⟨(hd _).2 (by rw [inv_inv]; exact fun e => (hd g).1 hg e.symm), (hd g).1 hg⟩, by simp⟩
  have hlen : s.length + d.length = Fintype.card G := by
    rw [← Finset.card_univ, ← Finset.length_toList]
    have := List.length_eq_length_filter_add (l := all) fun g => decide (g = g⁻¹)
    simp only [s, d, all] at this ⊢
    rw [this]
    congr 2
    apply List.filter_congr
    simp
  have hone : 0 < s.length := List.length_pos_of_mem ((hs 1).2 inv_one.symm)
  have heven := SubsetInv.even _ d le_rfl hinv
  have hk : ∃ k j, 2 * k ≤ d.length ∧ j ≤ s.length ∧ 2 * k + j = size := by
    by_cases h2 : size / 2 * 2 ≤ d.length
    · exact ⟨size / 2, size % 2, by omega, by omega, by omega⟩
    · exact ⟨d.length / 2, size - d.length, by omega, by omega, by omega⟩
  obtain ⟨k, j, hk, hj, hkj⟩ := hk
  obtain ⟨r, -, hr, hrl⟩ := dropPairs_spec (sort := id) (fun l => List.Perm.refl l) (fun _ => 0) (d.length / 2 - k) d hinv
    (by omega)
  have htake : SubsetInv false (s.take j) r := ⟨hr.snodup.sublist (List.take_sublist _ _),
    fun g hg => hr.sinv g ((List.take_sublist _ _).mem hg), hr.dnodup, hr.dmem, by simp⟩
  have := htake.union
  rw [List.length_take, min_eq_left hj, show j + r.length = size by omega] at this
  exact ⟨_, this⟩

theorem IsSymSubset.perm {G : Type} [Group G] {size : ℕ} {excl : Bool} {s t : List G} (h : IsSymSubset size excl s)
    (hp : t.Perm s) : IsSymSubset size excl t :=
  ⟨hp.nodup_iff.2 h.nodup, hp.length_eq.trans h.length, fun g hg => hp.mem_iff.2 (h.inv_mem g (hp.mem_iff.1 hg)),
    fun he hg => h.no_identity he (hp.mem_iff.1 hg)⟩

theorem IsSymSubset.ne_nil {G : Type} [Group G] {size : ℕ} {excl : Bool} {s : List G} (h : IsSymSubset size excl s)
    (h0 : size ≠ 0) : s ≠ [] := by
  rintro rfl
  exact h0 h.length.symm

/-! ### Random quantum Tanner codes -/

section RandomCode

variable {F : Type} [Field F] [DecidableEq F] {n : ℕ} {S G : Type} [Group G] [DecidableEq G] [Fintype G]

/-- The code for the second subset: `code_b` if it is given, otherwise the dual of `code_a`. -/
def secondCode (codeA : CCode F n) : Option (Σ m, CCode F m) → Σ m, CCode F m
  | some codeB => codeB
  | none => ⟨n, codeA.dual⟩

/-- The seed codes do not fit the group, or each other when there is one subset. -/
def SizesWrong (G : Type) [Fintype G] (n m : ℕ) (oneSubset : Bool) : Prop :=
  n = 0 ∨ Fintype.card G < n ∨ (oneSubset = false ∧ (m = 0 ∨ Fintype.card G < m)) ∨ (oneSubset = true ∧ m ≠ n)

/-- Symmetric subsets of the sizes of the codes; only one if requested. -/
structure Subsets (A B : List G) (n m : ℕ) (oneSubset : Bool) : Prop where
  a : IsSymSubset n false A
  b : IsSymSubset m false B
  one : oneSubset = true → B = A

/-- The outcomes of a construction. -/
structure RandomOutcome (env : QTEnv G) (codeA : CCode F n) (codeB : Σ m, CCode F m) (bipartite oneSubset : Bool)
    (q : Except String (Option (Σ N : ℕ, Rows F N × Rows F N))) : Prop where
  error : ∀ e, q = .error e → SizesWrong G n codeB.1 oneSubset ∨
      (bipartite = true ∧ ∃ A B : List G, Subsets A B n codeB.1 oneSubset ∧ ¬ NoConjugates A B)
  code : ∀ c, q = .ok (some c) → ¬ SizesWrong G n codeB.1 oneSubset ∧
      ∃ A B : List G, Subsets A B n codeB.1 oneSubset ∧ (bipartite = true → NoConjugates A B) ∧
        IsTannerOn env bipartite A B codeA codeB.2 c

theorem RandomOutcome.ofError {env : QTEnv G} {codeA : CCode F n} {codeB : Σ m, CCode F m} {bipartite oneSubset : Bool} {e : String}
    (h : SizesWrong G n codeB.1 oneSubset ∨
      (bipartite = true ∧ ∃ A B : List G, Subsets A B n codeB.1 oneSubset ∧ ¬ NoConjugates A B)) :
    RandomOutcome env codeA codeB bipartite oneSubset (.error e) :=
  ⟨fun _ _ => h, fun _ h => by cases h⟩

theorem RandomOutcome.ofNone {env : QTEnv G} {codeA : CCode F n} {codeB : Σ m, CCode F m} {bipartite oneSubset : Bool} :
    RandomOutcome env codeA codeB bipartite oneSubset (.ok none) :=
  ⟨(fun _ h => by cases h), fun _ h => by cases h⟩

variable {env : QTEnv G} (henv : QTEnvOk env) (rng : SympyRandom S G) {sort iter : List G → List G}
  (hsort : ∀ l, (sort l).Perm l) (hiter : ∀ l, (iter l).Perm l) (rounds : ℕ) (codeA : CCode F n) (ha : codeA.gen? = none)
  (codeB? : Option (Σ m, CCode F m)) (hb : ∀ c ∈ codeB?, c.2.gen? = none) (bipartite oneSubset : Bool) (seed : Option ℤ) (st : S)

theorem secondCode_gen (hb : ∀ c ∈ codeB?, c.2.gen? = none) : (secondCode codeA codeB?).2.gen? = none := by
  cases codeB? with
  | none => rfl
  | some c => exact hb c rfl

theorem qtRandomWith_withGenerator (codeB : Σ m, CCode F m) :
    qtRandomWith env rng sort iter (Fintype.card G) rounds codeA.withGenerator codeB bipartite oneSubset seed st =
      qtRandomWith env rng sort iter (Fintype.card G) rounds codeA codeB bipartite oneSubset seed st := by
  unfold qtRandomWith
  simp only [qtInit_withGenerator]

/-- The construction of the code from the subsets. -/
theorem qtRandom_eq : qtRandom env rng sort iter (Fintype.card G) rounds codeA codeB? bipartite oneSubset seed st =
    qtRandomWith env rng sort iter (Fintype.card G) rounds codeA (secondCode codeA codeB?) bipartite oneSubset seed st := by
  cases codeB? with
  | some c => rfl
  | none => exact qtRandomWith_withGenerator rng rounds codeA bipartite oneSubset seed st _

include henv ha hb in
theorem build_outcome {A B : List G} (hsub : Subsets A B n (secondCode codeA codeB?).1 oneSubset)
    (hw : ¬ SizesWrong G n (secondCode codeA codeB?).1 oneSubset) :
    RandomOutcome env codeA (secondCode codeA codeB?) bipartite oneSubset
      ((qtInit env A B codeA (some (secondCode codeA codeB?)) bipartite).map some) := by
  have hg := secondCode_gen codeA codeB? hb
  generalize secondCode codeA codeB? = codeB at *
  obtain ⟨m, codeB⟩ := codeB
  have hn0 : n ≠ 0 := fun h => hw (Or.inl h)
  have hm0 : m ≠ 0 := by
    intro h
    cases oneSubset with
    | true => exact hw (Or.inr (Or.inr (Or.inr ⟨rfl, by simpa [h] using Ne.symm hn0⟩)))
    | false => exact hw (Or.inr (Or.inr (Or.inl ⟨rfl, Or.inl h⟩)))
  by_cases hgood : GoodSubsets A B bipartite
  · obtain ⟨c, h1, h2⟩ := C99_init henv hsub.a.nodup hsub.b.nodup (hsub.a.ne_nil hn0) (hsub.b.ne_nil hm0) hgood codeA codeB ha hg
      hsub.a.length hsub.b.length
    rw [h1]
    exact ⟨(fun _ h => by cases h), fun c' h => by cases h; exact ⟨hw, A, B, hsub, hgood.tnc, h2⟩⟩
  · obtain ⟨e, he⟩ := C99_init_raises henv hsub.a.nodup hsub.b.nodup (hsub.a.ne_nil hn0) (hsub.b.ne_nil hm0) codeA codeB
      (Or.inl hgood)
    rw [he]
    refine .ofError (Or.inr ?_)
    cases bipartite with
    | false => exact absurd ⟨hsub.a.inv_mem, hsub.b.inv_mem, by simp⟩ hgood
    | true => exact ⟨rfl, A, B, hsub, fun h => hgood ⟨hsub.a.inv_mem, hsub.b.inv_mem, fun _ => h⟩⟩

include henv hsort hiter ha hb in
/-- **C99**: a random quantum Tanner code is the quantum Tanner code of symmetric subsets with as many members as the seed
codes have bits, for `code_b` or the dual of `code_a`; an exception means that the lengths do not fit the group (or each
other, for one subset), or that a bipartite complex was requested and conjugate members were drawn. -/
theorem C99_random : RandomOutcome env codeA (secondCode codeA codeB?) bipartite oneSubset
    (qtRandom env rng sort iter (Fintype.card G) rounds codeA codeB? bipartite oneSubset seed st) := by
  rw [qtRandom_eq]
  unfold qtRandomWith
  have hAe := randomSubset_error rng hsort (Fintype.card G) rounds n seed st
  rcases hA : randomSymmetricSubset rng sort (Fintype.card G) rounds n seed st with e | _ | ⟨A, st'⟩
  · refine .ofError (Or.inl ?_)
    rcases hAe.1 ⟨e, hA⟩ with h | h
    · exact Or.inl h
    · exact Or.inr (Or.inl h)
  · exact .ofNone
  have hnA : ¬ (n = 0 ∨ Fintype.card G < n) := by
    rw [← hAe, hA]
    rintro ⟨e, he⟩
    cases he
  have hA' := (randomSubset_spec rng hsort (Fintype.card G) rounds n seed st hA).perm (hiter A)
  cases oneSubset with
  | true =>
    simp only [if_true]
    by_cases hm : (secondCode codeA codeB?).1 = n
    · exact build_outcome henv codeA ha codeB? hb bipartite true ⟨hA', by rw [hm]; exact hA', fun _ => rfl⟩ (by
        rintro (h | h | h | h)
        · exact hnA (Or.inl h)
        · exact hnA (Or.inr h)
        · exact absurd h.1 (by simp)
        · exact h.2 hm)
    · have : ∃ e, qtInit env (iter A) (iter A) codeA (some (secondCode codeA codeB?)) bipartite = .error e := by
        refine C99_init_raises henv hA'.nodup hA'.nodup (hA'.ne_nil fun h => hnA (Or.inl h)) (hA'.ne_nil fun h => hnA (Or.inl h))
          codeA (secondCode codeA codeB?).2 (Or.inr ⟨?_, ?_⟩)
        · rw [hA'.length]
          exact fun h => hm (Nat.eq_of_mul_eq_mul_left (Nat.pos_of_ne_zero fun h => hnA (Or.inl h)) h)
        · intro h
          exact hm ((Nat.eq_one_of_mul_eq_one_left h).trans (Nat.eq_one_of_mul_eq_one_right h).symm)
      obtain ⟨e, he⟩ := this
      rw [he]
      exact .ofError (Or.inl (Or.inr (Or.inr (Or.inr ⟨rfl, hm⟩))))
  | false =>
    simp only [Bool.false_eq_true, if_false]
    have hBe := randomSubset_error rng hsort (Fintype.card G) rounds (secondCode codeA codeB?).1 none st'
    rcases hB : randomSymmetricSubset rng sort (Fintype.card G) rounds (secondCode codeA codeB?).1 none st' with e | _ | ⟨B, st''⟩
    · exact .ofError (Or.inl (Or.inr (Or.inr (Or.inl ⟨rfl, hBe.1 ⟨e, hB⟩⟩))))
    · exact .ofNone
    · have hB' := (randomSubset_spec rng hsort (Fintype.card G) rounds _ none st' hB).perm (hiter B)
      exact build_outcome henv codeA ha codeB? hb bipartite false ⟨hA', hB', by simp⟩ (by
        rintro (h | h | h | h)
        · exact hnA (Or.inl h)
        · exact hnA (Or.inr h)
        · obtain ⟨e, he⟩ := hBe.2 h.2
          rw [hB] at he
          cases he
        · exact absurd h.1 (by simp))

include henv hsort hiter ha hb in
/-- **C99**: one subset is never good enough for a bipartite complex: its members are conjugate to themselves. -/
theorem C99_one_subset_bipartite :
    ∀ c, qtRandom env rng sort iter (Fintype.card G) rounds codeA codeB? true true seed st ≠ .ok (some c) := by
  intro c hc
  obtain ⟨hw, A, B, hsub, hno, -⟩ := (C99_random henv rng hsort hiter rounds codeA ha codeB? hb true true seed st).code c hc
  obtain rfl := hsub.one rfl
  have hne : B ≠ [] := hsub.a.ne_nil fun h => hw (Or.inl h)
  obtain ⟨a, ha⟩ := List.exists_mem_of_ne_nil _ hne
  exact hno rfl 1 (Subgroup.one_mem _) a ha a ha (by rw [mul_one, one_mul])

/-- **C99**: with a seed, the code does not depend on what was drawn before. -/
theorem C99_seed (s : ℤ) (st st' : S) :
    qtRandom env rng sort iter (Fintype.card G) rounds codeA codeB? bipartite oneSubset (some s) st =
      qtRandom env rng sort iter (Fintype.card G) rounds codeA codeB? bipartite oneSubset (some s) st' := rfl

include hsort in
theorem randomSubset_returns {size : ℕ} (h0 : size ≠ 0) (h1 : size ≤ Fintype.card G)
    (hall : ∀ st g, g ∈ drawsOf rng rounds st) :
    ∃ r, randomSymmetricSubset rng sort (Fintype.card G) rounds size seed st = .ok (some r) := by
  obtain ⟨picks, hp⟩ := randomSymmetricSubset_eq rng sort (Fintype.card G) rounds size seed st
  obtain ⟨t, ht⟩ := exists_symSubset h1
  obtain ⟨s, hs⟩ := C41_returns hsort (order := Fintype.card G) picks (Nat.pos_of_ne_zero h0) h1 (hall (rng.start seed st)) ht
  rw [hs] at hp
  rcases h : randomSymmetricSubset rng sort (Fintype.card G) rounds size seed st with e | _ | r
  · rw [h] at hp; cases hp
  · rw [h] at hp; cases hp
  · exact ⟨r, rfl⟩

include hsort in
/-- **C99**: the method finishes once every member of the group has been drawn. -/
theorem C99_finishes (hall : ∀ st g, g ∈ drawsOf rng rounds st) :
    qtRandom env rng sort iter (Fintype.card G) rounds codeA codeB? bipartite oneSubset seed st ≠ .ok none := by
  rw [qtRandom_eq]
  intro hc
  unfold qtRandomWith at hc
  have key : ∀ size seed st, randomSymmetricSubset rng sort (Fintype.card G) rounds size seed st ≠ .ok none := by
    intro size seed st h
    by_cases h' : size = 0 ∨ Fintype.card G < size
    · obtain ⟨e, he⟩ := (randomSubset_error rng hsort (Fintype.card G) rounds size seed st).2 h'
      rw [h] at he
      cases he
    · obtain ⟨r, hr⟩ := randomSubset_returns rng hsort rounds seed st (size := size) (fun h => h' (Or.inl h))
        (not_lt.1 fun h => h' (Or.inr h)) hall
      rw [h] at hr
      cases hr
  have hmap : ∀ x : Except String (Σ N : ℕ, Rows F N × Rows F N), x.map some ≠ .ok none := by
    intro x
    cases x <;> simp [Except.map]
  rcases hA : randomSymmetricSubset rng sort (Fintype.card G) rounds n seed st with e | _ | ⟨A, st'⟩
  · rw [hA] at hc; cases hc
  · exact key _ _ _ hA
  rw [hA] at hc
  cases oneSubset with
  | true => exact hmap _ hc
  | false =>
    simp only [Bool.false_eq_true, if_false] at hc
    rcases hB : randomSymmetricSubset rng sort (Fintype.card G) rounds (secondCode codeA codeB?).1 none st' with e | _ | ⟨B, st''⟩
    · rw [hB] at hc; cases hc
    · exact key _ _ _ hB
    · rw [hB] at hc; exact hmap _ hc

include hsort in
/-- **C99**, where the code departs from the claim: `SmallGroup(order, 1).random` always returns the identity, so the method runs
forever for such a group if the seed code has more than one bit. -/
theorem C99_small_group_disagreement (hone : ∀ st, (rng.member st).1 = smallGroupRandom 1 (rng.member st).1)
    (h2 : 2 ≤ n) (hn : n ≤ Fintype.card G) :
    qtRandom env rng sort iter (Fintype.card G) rounds codeA codeB? bipartite oneSubset seed st = .ok none := by
  have hdraws : ∀ k st, drawsOf rng k st = List.replicate k 1 := by
    intro k
    induction k with
    | zero => intro st; rfl
    | succ k ih =>
      intro st
      show (rng.member st).1 :: drawsOf rng k (rng.member st).2 = _
      rw [ih, hone, List.replicate_succ]
      rfl
  have hloop : ∀ picks k (s : List G), s = [] ∨ s = [1] →
      symSubsetLoop sort n false picks (List.replicate k 1) s [] = .ok none := by
    intro picks k
    induction k with
    | zero => intro s _; rfl
    | succ k ih =>
      intro s hs
      have hs' : setAdd s 1 = [1] := by
        rcases hs with rfl | rfl <;> simp [setAdd]
      rw [List.replicate_succ]
      unfold symSubsetLoop
      simp only [inv_one, if_true, hs', Bool.false_eq_true, false_and, if_false, List.length_singleton, List.length_nil]
      rw [if_neg (by omega), if_neg (by omega)]
      exact ih [1] (Or.inr rfl)
  rw [qtRandom_eq]
  unfold qtRandomWith
  obtain ⟨picks, hp⟩ := randomSymmetricSubset_eq rng sort (Fintype.card G) rounds n seed st
  rw [hdraws, symSubset, if_neg (by simp; omega), hloop picks rounds [] (Or.inl rfl)] at hp
  rcases hA : randomSymmetricSubset rng sort (Fintype.card G) rounds n seed st with e | _ | r
  · rw [hA] at hp; cases hp
  · rfl
  · rw [hA] at hp; cases hp

end RandomCode

/-! ### The hypotheses can be met -/

section Example

/-- An order of the double cover of the group with three elements. -/
def ltBi3 (x y : Cyc3 × Two) : Bool := decide ((x.1.toAdd.val * 2 + x.2.toAdd.val) < y.1.toAdd.val * 2 + y.2.toAdd.val)

theorem ltBi3_total : StrictTotal ltBi3 := by
  constructor <;> decide +kernel

open Classical in
/-- The members of the group with three elements that the subsets generate. -/
noncomputable def members3 (A B : List Cyc3) : List Cyc3 :=
  Finset.univ.toList.filter fun g => g ∈ Subgroup.closure {g | g ∈ A ∨ g ∈ B}

noncomputable def env3 : QTEnv Cyc3 where
  members := members3
  ltBi := ltBi3
  ltQuad := ltQuad
  pick := fun k => k
  fuel := 13

theorem env3_ok : QTEnvOk env3 := ⟨fun A B g => by simp [env3, members3], ltBi3_total, ltQuad_total, by decide +kernel⟩

/-- A generator that runs through the group. -/
def rng3 : SympyRandom (ZMod 3) Cyc3 where
  seedState := fun s => (s : ZMod 3)
  member := fun st => (Multiplicative.ofAdd st, st + 1)
  randint := fun _ st => (0, st)

theorem rng3_all : ∀ st g, g ∈ drawsOf rng3 3 st := by decide +kernel

def repTwo : CCode (ZMod 2) 2 := CCode.ofMatrix [![1, 1]]

/-- A random code with one subset for the dual of the repetition code is not an error, and exists. -/
example : ∃ c, qtRandom env3 rng3 id id (Fintype.card Cyc3) 3 repTwo none false true (some 5) 0 = .ok (some c) := by
  have h1 : RandomOutcome env3 repTwo (secondCode repTwo none) false true
      (qtRandom env3 rng3 id id (Fintype.card Cyc3) 3 repTwo none false true (some 5) 0) := by
    apply C99_random env3_ok
    · exact fun l => .refl l
    · exact fun l => .refl l
    · rfl
    · simp
  have h2 : qtRandom env3 rng3 id id (Fintype.card Cyc3) 3 repTwo none false true (some 5) 0 ≠ .ok none :=
    C99_finishes rng3 (fun l => .refl l) 3 repTwo none false true (some 5) 0 rng3_all
  have hw : ¬ SizesWrong Cyc3 2 2 true := by unfold SizesWrong; decide +kernel
  generalize qtRandom env3 rng3 id id (Fintype.card Cyc3) 3 repTwo none false true (some 5) 0 = q at h1 h2 ⊢
  match q, h1, h2 with
  | .error e, h1, _ => exact (h1.error e rfl).elim (fun h => absurd h hw) fun h => absurd h.1 (by simp)
  | .ok none, _, h2 => exact absurd rfl h2
  | .ok (some c), _, _ => exact ⟨c, rfl⟩

example : GoodSubsets A3 A3 false := ⟨by decide +kernel, by decide +kernel, by simp⟩

/-- Disjoint subsets of an abelian group have no conjugate members. -/
example : GoodSubsets A3 [1] true := by
  have h : ∀ g : Cyc3, ∀ a ∈ A3, ∀ b ∈ [(1 : Cyc3)], a * g ≠ g * b := by decide +kernel
  exact ⟨by decide +kernel, by decide +kernel, fun _ g _ => h g⟩

/-- Swapped lengths are not noticed. -/
example : ∃ c, qtInit env3 A3 [1] (CCode.ofMatrix [] : CCode (ZMod 2) 1) (some ⟨2, CCode.ofMatrix [![1, 1]]⟩) false = .ok c :=
  C99_lengths_disagreement env3_ok (by decide +kernel) (by simp) (by decide +kernel) (by simp)
    ⟨by decide +kernel, by decide +kernel, by simp⟩ _ _ rfl

end Example

#print axioms C99_init
#print axioms C99_init_raises
#print axioms C99_lengths_disagreement
#print axioms C99_default
#print axioms C99_random
#print axioms C99_one_subset_bipartite
#print axioms C99_seed
#print axioms C99_finishes
#print axioms C99_small_group_disagreement

/-! ### Instances of the theorems: concrete cases meet the hypotheses -/

example := C99_init (F := ZMod 2) env3_ok (A := A3) (B := A3) (bipartite := false) (by decide +kernel) (by decide +kernel) (by decide +kernel) (by decide +kernel)
  ⟨by decide +kernel, by decide +kernel, by simp⟩ repTwo repTwo rfl rfl rfl rfl
example := C99_default (F := ZMod 2) env3_ok (A := A3) (B := A3) (bipartite := false) (by decide +kernel) (by decide +kernel) (by decide +kernel) (by decide +kernel)
  ⟨by decide +kernel, by decide +kernel, by simp⟩ repTwo rfl rfl
example := C99_init_raises (F := ZMod 2) env3_ok (A := A3) (B := A3) (bipartite := false) (by decide +kernel) (by decide +kernel) (by decide +kernel) (by decide +kernel)
  repTwo (CCode.ofMatrix [] : CCode (ZMod 2) 3) (Or.inr (by decide +kernel))
example := C99_one_subset_bipartite env3_ok rng3 (sort := id) (iter := id) (fun l => .refl l) (fun l => .refl l) 3 repTwo rfl none (by simp) (some 5) 0

end QLDPC.Props
