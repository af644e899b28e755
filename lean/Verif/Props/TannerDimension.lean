import Verif.Props.QuantumTanner
import Verif.Props.Tanner
import Verif.Lemmas.ProductRank
import Verif.Lemmas.CssSubsystem

/-!
# Property C110: how many symbols and qudits Tanner codes encode
-/

namespace QLDPC.Props

open QLDPC QLDPC.Spec

variable {F : Type} [Field F] [DecidableEq F] {n m : ℕ}

/-! ### Ranks -/

theorem rank_map_le {N : ℕ} (M : Rows F n) (L : (Fin n → F) →ₗ[F] (Fin N → F)) : rank (M.map L) ≤ rank M := by
  rw [← finrank_rowSpan, ← finrank_rowSpan]
  have : rowSpan (M.map L) = (rowSpan M).map L := by
    unfold rowSpan
    rw [Submodule.map_span]
    congr 1
    ext v
    simp
  rw [this]
  exact Submodule.finrank_map_le _ _

theorem rank_append_le (M N : Rows F n) : rank (M ++ N) ≤ rank M + rank N := by
  rw [← finrank_rowSpan, ← finrank_rowSpan M, ← finrank_rowSpan N]
  have : rowSpan (M ++ N) = rowSpan M ⊔ rowSpan N := by
    unfold rowSpan
    rw [← Submodule.span_union]
    congr 1
    ext v
    simp
  rw [this]
  exact Submodule.finrank_add_le_finrank_add_finrank _ _

theorem rank_flatten_le (l : List (Rows F n)) (r : ℕ) (h : ∀ M ∈ l, rank M ≤ r) : rank l.flatten ≤ l.length * r := by
  induction l with
  | nil => simpa using rank_le_length ([] : Rows F n)
  | cons M l ih =>
    rw [List.flatten_cons, List.length_cons, Nat.add_mul, one_mul]
    have h1 := rank_append_le M l.flatten
    have h2 := h M (by simp)
    have h3 := ih fun N hN => h N (by simp [hN])
    omega

/-- Writing entries into a row is linear in the entries. -/
theorem scatter_linear {N : ℕ} (l : List (Fin N × Fin n)) : ∃ L : (Fin n → F) →ₗ[F] (Fin N → F), ∀ r : Fin n → F,
    l.foldl (fun v p => Function.update v p.1 (r p.2)) (0 : Fin N → F) = L r := by
  induction l using List.reverseRecOn with
  | nil => exact ⟨0, fun r => rfl⟩
  | append_singleton l p ih =>
    obtain ⟨L, hL⟩ := ih
    refine ⟨{ toFun := fun r => Function.update (L r) p.1 (r p.2), map_add' := ?_, map_smul' := ?_ }, fun r => ?_⟩
    · intro r s
      rw [map_add, ← Function.update_add]
      rfl
    · intro a r
      rw [map_smul]
      funext b
      by_cases hb : b = p.1
      · subst hb; simp
      · simp [hb]
    · rw [List.foldl_append, hL]
      rfl

theorem scatterRow_linear {N : ℕ} (bits : List (Fin N)) (idx : List (Fin n)) : ∃ L : (Fin n → F) →ₗ[F] (Fin N → F),
    ∀ r : Fin n → F, scatterRow bits (idx.map r) = L r := by
  obtain ⟨L, hL⟩ := scatter_linear (F := F) (bits.zip idx)
  refine ⟨L, fun r => ?_⟩
  rw [← hL]
  unfold scatterRow
  rw [List.zip_map_right, List.foldl_map]
  rfl

theorem rank_scatterBlock {N : ℕ} (bits : List (Fin N)) (sub : Rows F n) (blk : Rows F N)
    (h : scatterBlock bits sub = some blk) : rank blk ≤ rank sub := by
  unfold scatterBlock at h
  split at h
  · cases h
    obtain ⟨L, hL⟩ := scatterRow_linear (F := F) bits (List.finRange n)
    have : (fun r : Fin n → F => scatterRow bits (List.ofFn r)) = L := by
      funext r
      rw [List.ofFn_eq_map, hL]
    rw [this]
    exact rank_map_le _ _
  · split at h
    · rename_i h1
      cases h
      obtain ⟨L, hL⟩ := scatterRow_linear (F := F) bits (List.replicate bits.length (⟨0, by omega⟩ : Fin n))
      have : (fun r : Fin n → F => scatterRow bits (List.replicate bits.length (r ⟨0, by omega⟩))) = L := by
        funext r
        rw [← hL, List.map_replicate]
      rw [this]
      exact rank_map_le _ _
    · cases h

section Tanner

variable {α κ : Type} [DecidableEq α]

theorem rank_tanner {lt : κ ⊕ α → κ ⊕ α → Bool} {g : DiGraph α κ} {sub : CCode F n} {c}
    (hc : tannerCode lt g sub = some c) : rank c.matrix ≤ g.sources.length * rank sub.matrix := by
  unfold tannerCode at hc
  rw [Option.map_eq_some_iff] at hc
  obtain ⟨blocks, hb, rfl⟩ := hc
  rw [mapM_some_iff] at hb
  refine (rank_flatten_le blocks (rank sub.matrix) ?_).trans (le_of_eq ?_)
  · intro blk hblk
    obtain ⟨v, hv, h⟩ := forall₂_right hb blk hblk
    obtain ⟨bits, h1, h2⟩ := Option.bind_eq_some_iff.1 h
    exact rank_scatterBlock bits _ _ h2
  · rw [← hb.length_eq, (pySorted_perm _ _ _).length_eq]

/-- **C110**: a Tanner code has at least as many independent words as there are sinks, minus the number of independent checks of
the subcode for each source.  Redundant checks of the subcode do not matter. -/
theorem C110_tanner {lt : κ ⊕ α → κ ⊕ α → Bool} {g : DiGraph α κ} {sub : CCode F n} {c}
    (hc : tannerCode lt g sub = some c) :
    g.sinks.length ≤ c.dimension + g.sources.length * (n - codeDim sub.matrix) ∧ c.dimension = codeDim c.matrix := by
  have h1 := rank_tanner hc
  have h2 := finrank_kernel sub.matrix
  have h3 := finrank_kernel c.matrix
  have h4 : (pySorted lt Sum.inr g.sinks).length = g.sinks.length := (pySorted_perm _ _ _).length_eq
  have h5 : c.dim? = none := by
    unfold tannerCode at hc
    rw [Option.map_eq_some_iff] at hc
    obtain ⟨blocks, -, rfl⟩ := hc
    rfl
  have h6 : n - codeDim sub.matrix = rank sub.matrix := by rw [codeDim_eq]; omega
  have h7 : c.dimension = codeDim c.matrix := C02_dimension c h5
  refine ⟨?_, h7⟩
  rw [h6, h7, codeDim_eq]
  omega

end Tanner

/-! ### Quantum Tanner codes -/

section Quantum

variable {H : Type} [Group H] [DecidableEq H] {A B : List H} {W : Set H} {χ : H → Bool} {lt : H → H → Bool}

/-- Members of both subsets can be undone, so the nodes with Z checks are translates of those with X checks. -/
theorem reachedZ_iff (h : QTGood A B W χ) (hB0 : B ≠ []) {a₀ : H} (ha₀ : a₀ ∈ A) (k : H) :
    ReachedZ A B k ↔ ∃ g, Reached A B g ∧ a₀ * g = k := by
  constructor
  · rintro ⟨g, hg, a, ha, rfl⟩
    obtain ⟨b, hb⟩ := List.exists_mem_of_ne_nil B hB0
    refine ⟨a₀⁻¹ * (a * g * b) * b⁻¹, Reached.step (Reached.step hg ha hb) (h.invA _ ha₀) (h.invB _ hb), ?_⟩
    group
  · rintro ⟨g, hg, rfl⟩
    exact ⟨g, hg, a₀, ha₀, rfl⟩

/-- Two triples of a node of one colour and members of the subsets have the same face if they are the same, or opposite
corners. -/
theorem face_eq_same (h : QTGood A B W χ) {g k a b a' b' : H} (hg : g ∈ W) (hk : k ∈ W) (hgk : χ k = χ g) (ha : a ∈ A)
    (hb : b ∈ B) (ha' : a' ∈ A) (hb' : b' ∈ B) :
    qtFace k a' b' = qtFace g a b ↔ (k = g ∧ a' = a ∧ b' = b) ∨ (k = a * g * b ∧ a' = a⁻¹ ∧ b' = b⁻¹) := by
  rw [← qtFace_left k a' b', eq_comm, h.face_eq_iff hg (h.left _ hk _ ha') (by rw [h.colA _ _ ha', hgk]; cases χ g <;> decide)
    ha hb (h.invA _ ha') hb']
  constructor
  · rintro (⟨h1, h2, h3⟩ | ⟨h1, h2, h3⟩)
    · have e := inv_injective h2
      subst e
      exact Or.inl ⟨mul_left_cancel h1, rfl, h3⟩
    · have e : a' = a⁻¹ := by rw [← h2, inv_inv]
      subst e
      refine Or.inr ⟨?_, rfl, h3⟩
      rw [mul_assoc, ← h1]
      group
  · rintro (⟨rfl, rfl, rfl⟩ | ⟨rfl, rfl, rfl⟩)
    · exact Or.inl ⟨rfl, rfl, rfl⟩
    · refine Or.inr ⟨by group, inv_inv _, rfl⟩

/-- Each face has two corners of a colour. -/
theorem card_faces (h : QTGood A B W χ) (hA : A.Nodup) (hB : B.Nodup) {P : List H} (hP : P.Nodup)
    (hPW : ∀ g ∈ P, g ∈ W ∧ χ g = χ 1) (hcl : ∀ g ∈ P, ∀ a ∈ A, ∀ b ∈ B, a * g * b ∈ P) :
    2 * (rightNodes ((edgesX A B P).map fun e => e.2.1) : List (H ⊕ Finset H)).length = P.length * (A.length * B.length) := by
  obtain ⟨hnd, hmem⟩ := mem_rightNodes (α := H) ((edgesX A B P).map fun e => e.2.1)
  let S : Finset (H × H × H) := P.toFinset ×ˢ A.toFinset ×ˢ B.toFinset
  let f : H × H × H → Finset H := fun t => qtFace t.1 t.2.1 t.2.2
  have hS : S.card = P.length * (A.length * B.length) := by
    simp only [S, Finset.card_product, List.toFinset_card_of_nodup hP, List.toFinset_card_of_nodup hA,
      List.toFinset_card_of_nodup hB]
  have hN : (rightNodes ((edgesX A B P).map fun e => e.2.1) : List (H ⊕ Finset H)).length = (S.image f).card := by
    rw [← List.toFinset_card_of_nodup hnd, ← Finset.card_image_of_injective (S.image f) (Sum.inr_injective (α := H))]
    congr 1
    ext x
    rw [List.mem_toFinset, hmem]
    simp only [edgesX, List.map_flatMap, List.map_map, List.mem_flatMap, List.mem_map, Finset.mem_image, S, f,
      Finset.mem_product, List.mem_toFinset, Function.comp_apply]
    constructor
    · rintro ⟨t, ⟨g, hg, p, hp, rfl⟩, rfl⟩
      exact ⟨_, ⟨(g, p.1, p.2), ⟨hg, mem_product'.1 hp⟩, rfl⟩, rfl⟩
    · rintro ⟨t, ⟨q, ⟨hg, hp⟩, rfl⟩, rfl⟩
      exact ⟨_, ⟨q.1, hg, q.2, mem_product'.2 hp, rfl⟩, rfl⟩
  rw [hN, ← hS, Finset.card_eq_sum_card_image f S, Finset.sum_const_nat (m := 2), mul_comm]
  intro y hy
  obtain ⟨⟨g, a, b⟩, ht, rfl⟩ := Finset.mem_image.1 hy
  simp only [S, Finset.mem_product, List.mem_toFinset] at ht
  obtain ⟨hg, ha, hb⟩ := ht
  have hW := hPW g hg
  have : S.filter (fun t => f t = f (g, a, b)) = {(g, a, b), (a * g * b, a⁻¹, b⁻¹)} := by
    ext ⟨k, a', b'⟩
    simp only [Finset.mem_filter, Finset.mem_insert, Finset.mem_singleton, S, Finset.mem_product, List.mem_toFinset, f,
      Prod.mk.injEq]
    constructor
    · rintro ⟨⟨hk, ha', hb'⟩, hf⟩
      exact (face_eq_same h hW.1 (hPW k hk).1 ((hPW k hk).2.trans hW.2.symm) ha hb ha' hb').1 hf
    · rintro (⟨rfl, rfl, rfl⟩ | ⟨rfl, rfl, rfl⟩)
      · exact ⟨⟨hg, ha, hb⟩, rfl⟩
      · have hk := hcl g hg a ha b hb
        exact ⟨⟨hk, h.invA _ ha, h.invB _ hb⟩, (face_eq_same h hW.1 (hPW _ hk).1 ((hPW _ hk).2.trans hW.2.symm) ha hb
          (h.invA _ ha) (h.invB _ hb)).2 (Or.inr ⟨rfl, rfl, rfl⟩)⟩
  rw [this, Finset.card_pair]
  intro he
  exact h.ne_self hW.1 ha hb (congrArg Prod.fst he).symm

theorem rank_generator (c : CCode F n) (hc : c.gen? = none) : rank c.generator = codeDim c.matrix := by
  rw [← finrank_rowSpan, codeDim_eq]
  unfold CCode.generator
  rw [hc]
  exact congrArg (fun V : Submodule F (Fin n → F) => Module.finrank F V) (rowSpan_nullSpace _)

theorem rank_tensor_dual (a : CCode F n) (b : CCode F m) (ha : a.gen? = none) (hb : b.gen? = none) :
    rank (a.tensorProduct b).dual.matrix = codeDim a.matrix * codeDim b.matrix := by
  rw [← rank_generator a ha, ← rank_generator b hb, ← rank_kron]
  refine rank_eq_of_rowSpan_eq ?_
  change rowSpan (nullSpace (nullSpace (kron a.generator b.generator))) = _
  rw [rowSpan_nullSpace, kernel_nullSpace]

theorem codeDim_dual (a : CCode F n) (ha : a.gen? = none) : codeDim a.dual.matrix = n - codeDim a.matrix := by
  have h1 := finrank_kernel a.dual.matrix
  have h2 : rank a.dual.matrix = codeDim a.matrix := rank_generator a ha
  rw [codeDim_eq]
  omega

theorem rank_cast {N N' : ℕ} (h : N' = N) (M : Rows F N') : rank (M.map fun r (j : Fin N) => r (j.cast h.symm)) = rank M := by
  subst h
  simp

/-- Sizes of a quantum Tanner code, with `V` nodes of each kind. -/
structure QTSizes (A B : List H) (codeA : CCode F n) (codeB : CCode F m) (c : Σ N : ℕ, Rows F N × Rows F N) : Prop where
  same : Set.ncard {g | ReachedZ A B g} = Set.ncard {g | Reached A B g}
  qudits : 2 * c.1 = Set.ncard {g | Reached A B g} * (n * m)
  dimension : c.1 ≤ cssDimension c.2.1 c.2.2 false + Set.ncard {g | Reached A B g} *
    (codeDim codeA.matrix * codeDim codeB.matrix + (n - codeDim codeA.matrix) * (m - codeDim codeB.matrix))

theorem qt_sizes [Fintype H] (h : QTGood A B W χ) (hlt : StrictTotal lt) (hA : A.Nodup) (hB : B.Nodup) (hA0 : A ≠ [])
    (hB0 : B ≠ []) (hn : A.length = n) (hm : B.length = m) (codeA : CCode F n) (codeB : CCode F m) (ha : codeA.gen? = none)
    (hb : codeB.gen? = none) (pick : ℕ → ℕ) (fuel : ℕ) (hfuel : Fintype.card H < fuel) :
    ∃ c, qtCode lt A B pick fuel codeA codeB = some c ∧ QTSizes A B codeA codeB c := by
  obtain ⟨P, hP, hPin, hPV, hcl, hloop⟩ := subgraphLoop_spec hA0 hB0 {g | Reached A B g}
    (fun g hg a ha b hb => Reached.step hg ha hb) (fun g hg a ha b hb => h.ne_self (Reached.good h hg).1 ha hb) pick fuel [] [1]
    (by simp) (by rintro g hg; rw [List.append_nil, List.mem_singleton] at hg; subst hg; exact Reached.one) (by simp)
    (by simpa using hfuel)
  have hiff : ∀ g, g ∈ P ↔ Reached A B g := by
    intro g
    refine ⟨hPV g, fun hg => ?_⟩
    induction hg with
    | one => exact hPin 1 (by simp)
    | step _ ha hb ih => exact hcl _ ih _ ha _ hb
  have hsub : qtSubgraphs A B pick fuel =
      some (buildEdges (biEdges (edgesX A B P)), buildEdges (biEdges (edgesZ A B P))) := by
    rw [← foldl_addFaces, ← hloop]
    unfold qtSubgraphs
    cases A with
    | nil => exact absurd rfl hA0
    | cons a A => simp
  have hPW : ∀ g ∈ P, g ∈ W ∧ χ g = χ 1 := fun g hg => Reached.good h (hPV g hg)
  have hX := faceEdges_X h hA hB hP fun g hg => (hPW g hg).1
  have hZ := faceEdges_Z h hA hB hB0 hP (fun g hg => (hPW g hg).1) hcl
  have hsX := hX.sinks (lt := lt) h
  obtain ⟨c, hc, -⟩ := qt_main h hlt hA hB hA0 hB0 hn hm codeA codeB ha hb pick fuel hfuel
  refine ⟨c, hc, ?_⟩
  obtain ⟨a₀, ha₀⟩ := List.exists_mem_of_ne_nil A hA0
  have hV : Set.ncard {g | Reached A B g} = P.length := by
    have : {g | Reached A B g} = (P.toFinset : Set H) := by
      ext g
      simp [hiff]
    rw [this, Set.ncard_coe_finset, List.toFinset_card_of_nodup hP]
  have hsame : Set.ncard {g | ReachedZ A B g} = Set.ncard {g | Reached A B g} := by
    have : {g | ReachedZ A B g} = (fun g => a₀ * g) '' {g | Reached A B g} := by
      ext k
      exact reachedZ_iff h hB0 ha₀ k
    rw [this, Set.ncard_image_of_injective _ (mul_right_injective a₀)]
  -- numbers of sources
  have hlX : (buildEdges (biEdges (edgesX A B P))).sources.length ≤ P.length := by
    have hnd : (buildEdges (biEdges (edgesX A B P))).sources.Nodup := (nodes_buildEdges _).1.filter _
    refine (List.Nodup.subperm (l₂ := P.map Sum.inl) hnd ?_).length_le.trans_eq (List.length_map _)
    intro v hv
    obtain ⟨e, he, rfl⟩ := sources_biEdges hX.nodup hv
    obtain ⟨g, hg, he⟩ := List.mem_flatMap.1 he
    obtain ⟨p, hp, rfl⟩ := List.mem_map.1 he
    exact List.mem_map_of_mem hg
  have hlZ : (buildEdges (biEdges (edgesZ A B P))).sources.length ≤ P.length := by
    have hnd : (buildEdges (biEdges (edgesZ A B P))).sources.Nodup := (nodes_buildEdges _).1.filter _
    refine (List.Nodup.subperm (l₂ := P.map fun g => Sum.inl (a₀ * g)) hnd ?_).length_le.trans_eq (List.length_map _)
    intro v hv
    obtain ⟨e, he, rfl⟩ := sources_biEdges hZ.nodup hv
    obtain ⟨g, hg, he⟩ := List.mem_flatMap.1 he
    obtain ⟨p, hp, rfl⟩ := List.mem_map.1 he
    obtain ⟨g', hg', e⟩ := (reachedZ_iff h hB0 ha₀ (p.1 * g)).1 ⟨g, (hiff g).1 hg, p.1, (mem_product'.1 hp).1, rfl⟩
    refine List.mem_map.2 ⟨g', (hiff g').2 hg', ?_⟩
    rw [e]
  -- the code
  unfold qtCode at hc
  rw [hsub] at hc
  dsimp only at hc
  split at hc
  · rename_i cx cz hcx hcz
    split at hc
    · rename_i hl
      cases hc
      have hcard := card_faces h hA hB hP hPW hcl
      refine ⟨hsame, ?_, ?_⟩
      · rw [hV, ← hn, ← hm, ← hcard, ← hsX]
      · have r1 := rank_tanner hcx
        have r2 := rank_tanner hcz
        rw [rank_tensor_dual _ _ ha hb] at r1
        rw [rank_tensor_dual _ _ rfl rfl, codeDim_dual _ ha, codeDim_dual _ hb] at r2
        have r3 := r1.trans (Nat.mul_le_mul_right _ hlX)
        have r4 := r2.trans (Nat.mul_le_mul_right _ hlZ)
        rw [hV, Nat.mul_add]
        unfold cssDimension
        rw [length_dropZero_rowReduce, length_dropZero_rowReduce, rank_cast hl]
        simp only [Bool.false_eq_true, if_false]
        omega
    · cases hc
  · cases hc

/-- If the code for the second subset is the dual of the one for the first, the number of logical qudits is at least a fraction
of the number of nodes. -/
theorem QTSizes.dual {A B : List H} {codeA : CCode F n} (ha : codeA.gen? = none) {c}
    (hc : QTSizes A B codeA codeA.dual c) :
    (Set.ncard {g | Reached A B g} : ℤ) * ((n : ℤ) - 2 * codeDim codeA.matrix) ^ 2 ≤ 2 * cssDimension c.2.1 c.2.2 false := by
  have h1 := hc.qudits
  have h2 := hc.dimension
  rw [codeDim_dual _ ha] at h2
  have h3 : codeDim codeA.matrix ≤ n := by
    rw [codeDim_eq]
    have := finrank_kernel codeA.matrix
    omega
  obtain ⟨l, hl⟩ := Nat.exists_eq_add_of_le h3
  generalize codeDim codeA.matrix = k at *
  generalize Set.ncard {g | Reached A B g} = V at *
  generalize cssDimension c.2.1 c.2.2 false = K at *
  have e1 : n - k = l := by omega
  have e2 : n - l = k := by omega
  rw [e1, e2] at h2
  zify at h1 h2
  rw [hl] at h1 ⊢
  push_cast at h1 ⊢
  nlinarith

end Quantum

section Property

variable {G : Type} [Group G] [DecidableEq G] [Fintype G]

/-- **C110**: a bipartite quantum Tanner code has as many nodes with Z checks as with X checks, half as many qudits as there are
pairs of a node and a place in its local view, and at least as many logical qudits as qudits minus the checks of the local
codes. -/
theorem C110_bipartite (members A B : List G) (hmem : ∀ g ∈ Subgroup.closure {g | g ∈ A ∨ g ∈ B}, g ∈ members) (hA : A.Nodup)
    (hB : B.Nodup) (hA0 : A ≠ []) (hB0 : B ≠ []) (hacc : complexAccepted members A B true = true)
    (lt : G × Two → G × Two → Bool) (hlt : StrictTotal lt) (codeA : CCode F A.length) (codeB : CCode F B.length)
    (ha : codeA.gen? = none) (hb : codeB.gen? = none) (pick : ℕ → ℕ) (fuel : ℕ) (hfuel : Fintype.card (G × Two) < fuel) :
    ∃ c, qtCodeBi members lt A B pick fuel codeA codeB = some c ∧ QTSizes (coverBi A) (coverBi B) codeA codeB c := by
  unfold qtCodeBi
  rw [if_pos hacc]
  have hinj : Function.Injective fun a : G => (a, shift) := fun a b h => congrArg Prod.fst h
  exact qt_sizes (good_bipartite members A B hmem hacc) hlt
    (hA.map hinj) (hB.map hinj) (by simpa [coverBi] using hA0) (by simpa [coverBi] using hB0) (by simp [coverBi])
    (by simp [coverBi]) codeA codeB ha hb pick fuel hfuel

/-- **C110**: the same for quadripartite quantum Tanner codes. -/
theorem C110_quadripartite (members A B : List G) (hA : A.Nodup) (hB : B.Nodup) (hA0 : A ≠ []) (hB0 : B ≠ [])
    (hacc : complexAccepted members A B false = true) (lt : G × Two × Two → G × Two × Two → Bool) (hlt : StrictTotal lt)
    (codeA : CCode F A.length) (codeB : CCode F B.length) (ha : codeA.gen? = none) (hb : codeB.gen? = none) (pick : ℕ → ℕ)
    (fuel : ℕ) (hfuel : Fintype.card (G × Two × Two) < fuel) :
    ∃ c, qtCodeQuad members lt A B pick fuel codeA codeB = some c ∧ QTSizes (coverQuadA A) (coverQuadB B) codeA codeB c := by
  unfold qtCodeQuad
  rw [if_pos hacc]
  exact qt_sizes (good_quadripartite members A B hacc) hlt
    (hA.map fun a b h => congrArg Prod.fst h) (hB.map fun a b h => congrArg Prod.fst h) (by simpa [coverQuadA] using hA0)
    (by simpa [coverQuadB] using hB0) (by simp [coverQuadA]) (by simp [coverQuadB]) codeA codeB ha hb pick fuel hfuel

/-- **C110**: with the default second code `~code_a`, where `code_a` has `k` words in its basis and length `n`, the number of
logical qudits is at least `(n - 2 k)² / 2` for each node with X checks. -/
theorem C110_default (members A B : List G) (hA : A.Nodup) (hB : B.Nodup) (hA0 : A ≠ []) (hlen : B.length = A.length)
    (hacc : complexAccepted members A B false = true) (lt : G × Two × Two → G × Two × Two → Bool) (hlt : StrictTotal lt)
    (codeA : CCode F A.length) (ha : codeA.gen? = none) (pick : ℕ → ℕ)
    (fuel : ℕ) (hfuel : Fintype.card (G × Two × Two) < fuel) :
    ∃ c, qtCodeQuad members lt A B pick fuel codeA codeA.dual = some c ∧
      (Set.ncard {g | Reached (coverQuadA A) (coverQuadB B) g} : ℤ) * ((A.length : ℤ) - 2 * codeDim codeA.matrix) ^ 2 ≤
        2 * cssDimension c.2.1 c.2.2 false := by
  have hB0 : B ≠ [] := by
    intro h0
    rw [h0] at hlen
    exact hA0 (List.length_eq_zero_iff.1 hlen.symm)
  unfold qtCodeQuad
  rw [if_pos hacc]
  obtain ⟨c, hc, hs⟩ := qt_sizes (good_quadripartite members A B hacc) hlt
    (hA.map fun a b h => congrArg Prod.fst h) (hB.map fun a b h => congrArg Prod.fst h) (by simpa [coverQuadA] using hA0)
    (by simpa [coverQuadB] using hB0) (by simp [coverQuadA]) (by simp [coverQuadB, hlen]) codeA codeA.dual ha rfl pick fuel hfuel
  exact ⟨c, hc, hs.dual ha⟩

end Property

/-- A concrete case. -/
example : ∃ c, qtCodeQuad [] ltQuad A3 A3 (fun k => k) 13 rep2 rep2 = some c ∧
    QTSizes (coverQuadA A3) (coverQuadB A3) rep2 rep2 c :=
  C110_quadripartite [] A3 A3 (by decide +kernel) (by decide +kernel) (by decide +kernel) (by decide +kernel) (by decide +kernel)
    ltQuad ltQuad_total rep2 rep2 rfl rfl _ 13 (by decide +kernel)

/-- With the code without checks as `code_a`, and no checks on one side, `(n - 2 k)²` is four. -/
example : ∃ c, qtCodeQuad [] ltQuad A3 A3 (fun k => k) 13 (CCode.ofMatrix [] : CCode (ZMod 2) A3.length)
    (CCode.ofMatrix [] : CCode (ZMod 2) A3.length).dual = some c ∧
      (Set.ncard {g | Reached (coverQuadA A3) (coverQuadB A3) g} : ℤ) *
        ((A3.length : ℤ) - 2 * codeDim (F := ZMod 2) (n := A3.length) []) ^ 2 ≤ 2 * cssDimension c.2.1 c.2.2 false :=
  C110_default [] A3 A3 (by decide +kernel) (by decide +kernel) (by decide +kernel) rfl (by decide +kernel)
    ltQuad ltQuad_total (CCode.ofMatrix []) rfl _ 13 (by decide +kernel)

/-- A triangle, with the parity check on the edges at each corner: one independent word, and one check per corner. -/
example : ∃ c, tannerCode ltEdges (asDirected triangle) (CCode.ofMatrix [![1, 1]] : CCode (ZMod 2) 2) = some c ∧
    (asDirected triangle).sinks.length ≤ c.dimension + (asDirected triangle).sources.length *
      (2 - codeDim (F := ZMod 2) [![1, 1]]) := by
  have h : (tannerCode ltEdges (asDirected triangle) (CCode.ofMatrix [![1, 1]] : CCode (ZMod 2) 2)).isSome = true := by
    decide +kernel
  obtain ⟨c, hc⟩ := Option.isSome_iff_exists.1 h
  exact ⟨c, hc, (C110_tanner hc).1⟩

#print axioms C110_tanner
#print axioms C110_bipartite
#print axioms C110_quadripartite
#print axioms C110_default

/-! ### Instances of the theorems: concrete cases meet the hypotheses -/

example := C110_bipartite (F := ZMod 2) [1, shift] [shift] [1]
  (by intro g _; have h : ∀ g : Two, g ∈ [1, shift] := by decide +kernel
      exact h g) (by decide +kernel) (by decide +kernel) (by simp) (by simp) (by decide +kernel) ltTwo (by constructor <;> decide +kernel)
  (CCode.ofMatrix []) (CCode.ofMatrix []) rfl rfl (fun k => k) 5 (by decide +kernel)

end QLDPC.Props
