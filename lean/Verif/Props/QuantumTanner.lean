import Verif.Lemmas.QuantumTannerCode
import Mathlib.Algebra.Group.Subgroup.Lattice
import Mathlib.Data.ZMod.Basic
import Mathlib.Algebra.Group.TypeTags.Finite
import Mathlib.Algebra.Field.ZMod

/-!
# Property C55: quantum Tanner codes
-/

namespace QLDPC.Props

open QLDPC QLDPC.Spec

variable {F : Type} [Field F] [DecidableEq F] {n m : ℕ}

/-! ### What is claimed -/

section Claim

variable {H : Type} [Group H]

/-- The nodes that carry X checks: those reached from the identity by multiplying by members of both subsets. -/
inductive Reached (A B : List H) : H → Prop
  | one : Reached A B 1
  | step {g a b} : Reached A B g → a ∈ A → b ∈ B → Reached A B (a * g * b)

/-- The nodes that carry Z checks are one step to the left. -/
def ReachedZ (A B : List H) (k : H) : Prop := ∃ g, Reached A B g ∧ ∃ a ∈ A, k = a * g

/-- A list of the members of a set in increasing order. -/
structure Enumerates (lt : H → H → Bool) (A : List H) (α : Fin n → H) : Prop where
  increasing : ∀ i j, i < j → lt (α i) (α j) = true
  mem : ∀ x, x ∈ A ↔ ∃ i, x = α i

/-- An array is orthogonal to all arrays with columns satisfying `P` and rows satisfying `Q`. -/
def OrthogonalTo (P : (Fin n → F) → Prop) (Q : (Fin m → F) → Prop) (y : Fin n → Fin m → F) : Prop :=
  ∀ u : Fin n → Fin m → F, (∀ j, P fun i => u i j) → (∀ i, Q (u i)) → ∑ i, ∑ j, y i j * u i j = 0

/-- A word is orthogonal to all words of the code. -/
def InDual (M : List (Fin n → F)) (v : Fin n → F) : Prop := ∀ w, IsWord M w → ∑ i, v i * w i = 0

/-- The quantum Tanner code: qudits are the faces, every X check acts on the faces around one node, every Z check on the faces
around one node of the other kind, the local views are restricted by the tensor product codes, and all checks commute. -/
structure IsQuantumTanner [DecidableEq H] (lt : H → H → Bool) (A B : List H) (codeA : CCode F n) (codeB : CCode F m)
    (c : Σ N : ℕ, Rows F N × Rows F N) : Prop where
  commute : ∀ r ∈ c.2.1, ∀ r' ∈ c.2.2, ∑ b, r b * r' b = 0
  faces : ∃ face : Fin c.1 → Finset H, Function.Injective face ∧
    (∀ f, (∃ b, face b = f) ↔ ∃ g a b, Reached A B g ∧ a ∈ A ∧ b ∈ B ∧ f = {g, a * g, g * b, a * g * b}) ∧
    ∀ (α : Fin n → H) (β : Fin m → H), Enumerates lt A α → Enumerates lt B β → ∀ x : Finset H → F,
      (IsWord c.2.1 (fun b => x (face b)) ↔ ∀ g, Reached A B g → OrthogonalTo (IsWord codeA.matrix) (IsWord codeB.matrix)
        fun i j => x {g, α i * g, g * β j, α i * g * β j}) ∧
      (IsWord c.2.2 (fun b => x (face b)) ↔ ∀ g, ReachedZ A B g → OrthogonalTo (InDual codeA.matrix) (InDual codeB.matrix)
        fun i j => x {g, α i * g, g * β j, α i * g * β j})

end Claim

/-! ### Proofs -/

section Proofs

variable {H : Type} [Group H] [DecidableEq H]

theorem entryAt_flat (w : Fin (n * m) → F) (i : Fin n) (j : Fin m) : entryAt w (i.val * m + j.val) = w (flat i j) := by
  unfold entryAt
  rw [dif_pos (by rw [← flat_val]; exact (flat i j).isLt)]
  congr 1
  apply Fin.ext
  exact (flat_val i j).symm

theorem sum_flat (y : Fin (n * m) → F) : ∑ k, y k = ∑ i, ∑ j, y (flat i j) := by
  rw [← Fintype.sum_prod_type' (f := fun i j => y (flat i j)), ← Equiv.sum_comp finProdFinEquiv]
  rfl

theorem tensor_word (a : CCode F n) (b : CCode F m) (ha : a.gen? = none) (hb : b.gen? = none) (w : Fin (n * m) → F) :
    IsWord (CCode.tensorProduct a b).matrix w ↔
      (∀ j, IsWord a.matrix fun i => w (flat i j)) ∧ ∀ i, IsWord b.matrix fun j => w (flat i j) := by
  rw [C06_tensor a b ha hb]
  simp only [entryAt_flat]

theorem dual_tensor_word (a : CCode F n) (b : CCode F m) (ha : a.gen? = none) (hb : b.gen? = none) (y : Fin (n * m) → F) :
    IsWord (CCode.tensorProduct a b).dual.matrix y ↔
      OrthogonalTo (IsWord a.matrix) (IsWord b.matrix) fun i j => y (flat i j) := by
  rw [C04_dual _ rfl]
  constructor
  · intro h u h1 h2
    have hu : ∀ i j, (fun k : Fin (n * m) => u k.divNat k.modNat) (flat i j) = u i j := by
      intro i j
      simp only [divNat_flat, modNat_flat]
    have := h (fun k => u k.divNat k.modNat) ((tensor_word a b ha hb _).2 ⟨fun j => by simp only [hu]; exact h1 j,
      fun i => by simp only [hu]; exact h2 i⟩)
    rw [sum_flat] at this
    simpa only [divNat_flat, modNat_flat] using this
  · intro h w hw
    obtain ⟨h1, h2⟩ := (tensor_word a b ha hb w).1 hw
    rw [sum_flat]
    exact h (fun i j => w (flat i j)) h1 h2

/-- The rows of the dual are words of the code. -/
theorem dual_rows (c : CCode F n) (hc : c.gen? = none) {s} (hs : s ∈ c.dual.matrix) : IsWord c.matrix s := by
  have h : kernel c.matrix = rowSpan c.generator := (CCode.genOk_of_fresh hc).symm
  have hm : s ∈ kernel c.matrix := by
    rw [h]
    exact Submodule.subset_span hs
  exact hm

theorem isWord_iff_of_sum {N N' : ℕ} (h : N' = N) (M : Rows F N') (w : Fin N → F) :
    IsWord (M.map fun r (j : Fin N) => r (j.cast h.symm)) w ↔ IsWord M fun j => w (j.cast h) := by
  subst h
  simp

theorem Enumerates.inj {lt : H → H → Bool} (hlt : StrictTotal lt) {A : List H} {α : Fin n → H} (h : Enumerates lt A α) :
    Function.Injective α := by
  intro i j hij
  rcases lt_trichotomy i j with h1 | h1 | h1
  · have := h.increasing i j h1
    rw [hij, hlt.irrefl] at this; cases this
  · exact h1
  · have := h.increasing j i h1
    rw [hij, hlt.irrefl] at this; cases this

variable {A B : List H} {W : Set H} {χ : H → Bool} {lt : H → H → Bool}

theorem Reached.good (h : QTGood A B W χ) {g : H} (hg : Reached A B g) : g ∈ W ∧ χ g = χ 1 := by
  induction hg with
  | one => exact ⟨h.one, rfl⟩
  | step _ ha hb ih =>
    refine ⟨h.right _ (h.left _ ih.1 _ ha) _ hb, ?_⟩
    rw [h.colB _ _ hb, h.colA _ _ ha, Bool.not_not, ih.2]

/-- Words of a Tanner code on the faces. -/
theorem words_faceEdges (h : QTGood A B W χ) (hlt : StrictTotal lt) {E : List (H × Finset H × (H × H))}
    (hE : FaceEdges A B W E) (hA : A.Nodup) (hB : B.Nodup) (hn : A.length = n) (hm : B.length = m) {α : Fin n → H} {β : Fin m → H}
    (hα : Enumerates lt A α) (hβ : Enumerates lt B β) {sub : CCode F (n * m)} {c}
    (hc : tannerCode (qtLt lt) (buildEdges (biEdges E)) sub = some c) (x : H ⊕ Finset H → F) :
    IsWord c.matrix (fun b => x ((pySorted (qtLt lt) Sum.inr (buildEdges (biEdges E)).sinks).get b)) ↔
      ∀ k, (∃ e ∈ E, e.1 = k) → IsWord sub.matrix fun i => x (.inr (qtFace k (α i.divNat) (β i.modNat))) := by
  have hg := hE.halfRegular h hlt hA hB hn hm
  rw [isWord_tanner hg.simple hg.degree hc]
  have hsn : ∀ k, (∃ e ∈ E, e.1 = k) → sortedNeighbors (qtLt lt) (buildEdges (biEdges E)) (.inl k) =
      List.ofFn fun i : Fin (n * m) => (.inr (qtFace k (α i.divNat) (β i.modNat)) : H ⊕ Finset H) := by
    intro k hk
    unfold sortedNeighbors
    rw [hE.sorted h hlt hα.increasing hβ.increasing (hα.inj hlt) (hβ.inj hlt) hα.mem hβ.mem hk, List.map_ofFn]
    rfl
  have heq : ∀ k, (∃ e ∈ E, e.1 = k) → ∀ hl : (sortedNeighbors (qtLt lt) (buildEdges (biEdges E)) (.inl k)).length = n * m,
      (fun j => x ((sortedNeighbors (qtLt lt) (buildEdges (biEdges E)) (.inl k)).get (Fin.cast hl.symm j))) =
        fun i => x (.inr (qtFace k (α i.divNat) (β i.modNat))) := by
    intro k hk hl
    funext j
    simp only [List.get_eq_getElem, hsn k hk, List.getElem_ofFn]
    rfl
  constructor
  · rintro hw k ⟨e, he, rfl⟩
    have hsrc := mem_sources_biEdges hE.nodup he
    have hl : (sortedNeighbors (qtLt lt) (buildEdges (biEdges E)) (.inl e.1)).length = n * m := by
      rw [hsn _ ⟨e, he, rfl⟩, List.length_ofFn]
    have := hw _ hsrc hl
    rwa [heq _ ⟨e, he, rfl⟩ hl] at this
  · intro hw v hv hl
    obtain ⟨e, he, rfl⟩ := sources_biEdges hE.nodup hv
    rw [heq _ ⟨e, he, rfl⟩ hl]
    exact hw _ ⟨e, he, rfl⟩

theorem qt_main [Fintype H] (h : QTGood A B W χ) (hlt : StrictTotal lt) (hA : A.Nodup) (hB : B.Nodup) (hA0 : A ≠ [])
    (hB0 : B ≠ []) (hn : A.length = n) (hm : B.length = m) (codeA : CCode F n) (codeB : CCode F m) (ha : codeA.gen? = none)
    (hb : codeB.gen? = none) (pick : ℕ → ℕ) (fuel : ℕ) (hfuel : Fintype.card H < fuel) :
    ∃ c, qtCode lt A B pick fuel codeA codeB = some c ∧ IsQuantumTanner lt A B codeA codeB c := by
  obtain ⟨P, hP, hPin, hPV, hcl, hloop⟩ := subgraphLoop_spec hA0 hB0 {g | Reached A B g}
    (fun g hg a ha b hb => Reached.step hg ha hb) (fun g hg a ha b hb => h.ne_self (Reached.good h hg).1 ha hb) pick fuel [] [1]
    (by simp) (by rintro g hg; rw [List.append_nil, List.mem_singleton] at hg; subst hg; exact Reached.one) (by simp)
    (by simpa using hfuel)
  have hiff : ∀ g, g ∈ P ↔ Reached A B g := by
    intro g
    refine ⟨hPV g, fun hg => ?_⟩
    induction hg with
    | one => exact hPin 1 (by simp)
    | step _ ha hb ih => exact hcl _ ih _ ha _ hb
  have hsub : qtSubgraphs A B pick fuel =
      some (buildEdges (biEdges (edgesX A B P)), buildEdges (biEdges (edgesZ A B P))) := by
    rw [← foldl_addFaces, ← hloop]
    unfold qtSubgraphs
    cases A with
    | nil => exact absurd rfl hA0
    | cons a A => simp
  have hPW : ∀ g ∈ P, g ∈ W ∧ χ g = χ 1 := fun g hg => Reached.good h (hPV g hg)
  have hrows : ∀ s ∈ (codeA.tensorProduct codeB).dual.matrix, ∀ t ∈ (codeA.dual.tensorProduct codeB.dual).dual.matrix,
      ((∀ j, IsWord codeA.matrix fun i => s (flat i j)) ∧ ∀ i, IsWord codeB.matrix fun j => s (flat i j)) ∧
      (∀ j, IsWord codeA.dual.matrix fun i => t (flat i j)) ∧ ∀ i, IsWord codeB.dual.matrix fun j => t (flat i j) := by
    intro s hs t ht
    exact ⟨(tensor_word codeA codeB ha hb s).1 (dual_rows _ rfl hs),
      (tensor_word codeA.dual codeB.dual rfl rfl t).1 (dual_rows _ rfl ht)⟩
  obtain ⟨cx, cz, hcx, hcz, hl, horth⟩ := qt_rows_orthogonal (F := F) h hlt hA hB hB0 hn hm hP hPW hcl
    (subx := (codeA.tensorProduct codeB).dual) (subz := (codeA.dual.tensorProduct codeB.dual).dual)
    (by
      intro s hs t ht i i'
      obtain ⟨⟨_, h2⟩, _, h4⟩ := hrows s hs t ht
      have := (C04_dual codeB hb _).1 (h4 i') _ (h2 i)
      rw [← this]
      exact Finset.sum_congr rfl fun j _ => mul_comm _ _)
    (by
      intro s hs t ht j j'
      obtain ⟨⟨h1, _⟩, h3, _⟩ := hrows s hs t ht
      have := (C04_dual codeA ha _).1 (h3 j') _ (h1 j)
      rw [← this]
      exact Finset.sum_congr rfl fun j _ => mul_comm _ _)
  have hX := faceEdges_X h hA hB hP fun g hg => (hPW g hg).1
  have hZ := faceEdges_Z h hA hB hB0 hP (fun g hg => (hPW g hg).1) hcl
  have hsX := hX.sinks (lt := lt) h
  have hsZ := hZ.sinks (lt := lt) h
  have hS : pySorted (qtLt lt) Sum.inr (buildEdges (biEdges (edgesZ A B P))).sinks =
      pySorted (qtLt lt) Sum.inr (buildEdges (biEdges (edgesX A B P))).sinks := by
    rw [hsX, hsZ]
    congr 1
    simp [edgesX, edgesZ, List.map_flatMap, Function.comp_def]
  have hmem := fun x => (mem_rightNodes (α := H) ((edgesX A B P).map fun e => e.2.1)).2 x
  have hnd := (mem_rightNodes (α := H) ((edgesX A B P).map fun e => e.2.1)).1
  rw [← hsX] at hnd
  have hright : ∀ b, ∃ f : Finset H, (pySorted (qtLt lt) Sum.inr (buildEdges (biEdges (edgesX A B P))).sinks).get b = .inr f := by
    intro b
    have : (pySorted (qtLt lt) Sum.inr (buildEdges (biEdges (edgesX A B P))).sinks).get b ∈ _ := List.get_mem _ b
    generalize (pySorted (qtLt lt) Sum.inr (buildEdges (biEdges (edgesX A B P))).sinks).get b = y at this
    rw [hsX, hmem] at this
    obtain ⟨t, -, ht⟩ := this
    exact ⟨t, ht⟩
  choose face hface using hright
  refine ⟨⟨_, cx.matrix, cz.matrix.map fun r j => r (j.cast hl.symm)⟩, ?_, ?_, face, ?_, ?_, ?_⟩
  · unfold qtCode
    simp only [hsub, hcx, hcz, dif_pos hl]
  · intro r hr r' hr'
    obtain ⟨r'', hr'', rfl⟩ := List.mem_map.1 hr'
    exact horth r hr r'' hr''
  · intro b b' hbb
    apply List.nodup_iff_injective_get.1 hnd
    rw [hface, hface, hbb]
  · intro f
    have h1 : (∃ b, face b = f) ↔ (.inr f : H ⊕ Finset H) ∈ pySorted (qtLt lt) Sum.inr (buildEdges (biEdges (edgesX A B P))).sinks := by
      rw [List.mem_iff_get]
      constructor
      · rintro ⟨b, rfl⟩; exact ⟨b, hface b⟩
      · rintro ⟨b, hb⟩; rw [hface] at hb; exact ⟨b, Sum.inr_injective hb⟩
    rw [h1, hsX, hmem]
    constructor
    · rintro ⟨t, ht, hf⟩
      obtain ⟨e, he, rfl⟩ := List.mem_map.1 ht
      unfold edgesX at he
      obtain ⟨g, hg, he⟩ := List.mem_flatMap.1 he
      obtain ⟨p, hp, rfl⟩ := List.mem_map.1 he
      exact ⟨g, p.1, p.2, hPV g hg, (mem_product'.1 hp).1, (mem_product'.1 hp).2, Sum.inr_injective hf⟩
    · rintro ⟨g, a, b, hg, ha, hb, rfl⟩
      refine ⟨_, List.mem_map.2 ⟨(g, qtFace g a b, (a, b)), ?_, rfl⟩, rfl⟩
      unfold edgesX
      exact List.mem_flatMap.2 ⟨g, (hiff g).2 hg, List.mem_map.2 ⟨(a, b), mem_product'.2 ⟨ha, hb⟩, rfl⟩⟩
  · intro α β hα hβ x
    have hloc : ∀ g, (fun i j => (fun k : Fin (n * m) => (Sum.elim 0 x : H ⊕ Finset H → F) (.inr (qtFace g (α k.divNat) (β k.modNat)))) (flat i j)) =
        fun i j => x {g, α i * g, g * β j, α i * g * β j} := by
      intro g
      funext i j
      simp only [divNat_flat, modNat_flat, Sum.elim_inr]
      rfl
    constructor
    · have hw := words_faceEdges h hlt hX hA hB hn hm hα hβ hcx (Sum.elim 0 x)
      simp only [hface, Sum.elim_inr] at hw
      refine hw.trans ?_
      constructor
      · intro hh g hg
        obtain ⟨a0, ha0⟩ := List.exists_mem_of_ne_nil A hA0
        obtain ⟨b0, hb0⟩ := List.exists_mem_of_ne_nil B hB0
        have := hh g ⟨(g, qtFace g a0 b0, (a0, b0)), by
          unfold edgesX
          exact List.mem_flatMap.2 ⟨g, (hiff g).2 hg, List.mem_map.2 ⟨(a0, b0), mem_product'.2 ⟨ha0, hb0⟩, rfl⟩⟩, rfl⟩
        rw [dual_tensor_word _ _ ha hb] at this
        rw [← hloc]
        exact this
      · rintro hh k ⟨e, he, rfl⟩
        unfold edgesX at he
        obtain ⟨g, hg, he⟩ := List.mem_flatMap.1 he
        obtain ⟨p, hp, rfl⟩ := List.mem_map.1 he
        have := hh g (hPV g hg)
        rw [dual_tensor_word _ _ ha hb]
        rw [← hloc] at this
        exact this
    · rw [isWord_iff_of_sum hl]
      have hfz : (fun j => x (face (j.cast hl))) = fun b =>
          (Sum.elim 0 x : H ⊕ Finset H → F) ((pySorted (qtLt lt) Sum.inr (buildEdges (biEdges (edgesZ A B P))).sinks).get b) := by
        funext b
        have h2 : (pySorted (qtLt lt) Sum.inr (buildEdges (biEdges (edgesZ A B P))).sinks).get b = .inr (face (b.cast hl)) := by
          rw [← hface]
          simp only [List.get_eq_getElem, hS, Fin.val_cast]
        rw [h2, Sum.elim_inr]
      change IsWord cz.matrix (fun j => x (face (j.cast hl))) ↔ _
      rw [hfz]
      refine (words_faceEdges h hlt hZ hA hB hn hm hα hβ hcz (Sum.elim 0 x)).trans ?_
      have hd : ∀ y : Fin (n * m) → F, IsWord (codeA.dual.tensorProduct codeB.dual).dual.matrix y ↔
          OrthogonalTo (InDual codeA.matrix) (InDual codeB.matrix) fun i j => y (flat i j) := by
        intro y
        rw [dual_tensor_word _ _ rfl rfl]
        unfold OrthogonalTo
        simp only [C04_dual codeA ha, C04_dual codeB hb]
        rfl
      constructor
      · rintro hh k ⟨g, hg, a, ha', rfl⟩
        obtain ⟨b0, hb0⟩ := List.exists_mem_of_ne_nil B hB0
        have := hh (a * g) ⟨(a * g, qtFace g a b0, (a⁻¹, b0)), by
          unfold edgesZ
          exact List.mem_flatMap.2 ⟨g, (hiff g).2 hg, List.mem_map.2 ⟨(a, b0), mem_product'.2 ⟨ha', hb0⟩, rfl⟩⟩, rfl⟩
        rw [hd] at this
        rw [← hloc]
        exact this
      · rintro hh k ⟨e, he, rfl⟩
        unfold edgesZ at he
        obtain ⟨g, hg, he⟩ := List.mem_flatMap.1 he
        obtain ⟨p, hp, rfl⟩ := List.mem_map.1 he
        have := hh (p.1 * g) ⟨g, hPV g hg, p.1, (mem_product'.1 hp).1, rfl⟩
        rw [hd]
        rw [← hloc] at this
        exact this

end Proofs

/-! ### The property -/

section Property

variable {G : Type} [Group G] [DecidableEq G] [Fintype G]

/-- Accepted subsets of a bipartite complex have the properties that the construction needs. -/
theorem good_bipartite (members A B : List G) (hmem : ∀ g ∈ Subgroup.closure {g | g ∈ A ∨ g ∈ B}, g ∈ members)
    (hacc : complexAccepted members A B true = true) :
    QTGood (coverBi A) (coverBi B) {x | x.1 ∈ Subgroup.closure {g | g ∈ A ∨ g ∈ B}} fun x => decide (x.2 = shift) := by
  simp only [complexAccepted, isSymmetric, totalNoConjugacy, Bool.and_eq_true, Bool.not_true, Bool.false_or, List.all_eq_true,
    decide_eq_true_eq] at hacc
  have hs : ∀ i : Two, (shift * i = shift) = ¬ (i = shift) := by decide +kernel
  have hs' : ∀ i : Two, (i * shift = shift) = ¬ (i = shift) := by decide +kernel
  have hinv : (shift)⁻¹ = shift := by decide +kernel
  have hmemc : ∀ {S : List G} {x}, x ∈ coverBi S → x.1 ∈ S ∧ x.2 = shift := by
    intro S x hx
    obtain ⟨a, ha, rfl⟩ := List.mem_map.1 hx
    exact ⟨ha, rfl⟩
  constructor
  · rintro x hx
    obtain ⟨a, haA, rfl⟩ := List.mem_map.1 hx
    exact List.mem_map.2 ⟨a⁻¹, hacc.1.1 a haA, by rw [Prod.inv_mk, hinv]⟩
  · rintro x hx
    obtain ⟨a, haA, rfl⟩ := List.mem_map.1 hx
    exact List.mem_map.2 ⟨a⁻¹, hacc.1.2 a haA, by rw [Prod.inv_mk, hinv]⟩
  · exact one_mem (Subgroup.closure {g | g ∈ A ∨ g ∈ B})
  · intro g hg a ha
    exact (Subgroup.closure {g | g ∈ A ∨ g ∈ B}).mul_mem (Subgroup.subset_closure (Or.inl (hmemc ha).1)) hg
  · intro g hg b hb
    exact (Subgroup.closure {g | g ∈ A ∨ g ∈ B}).mul_mem hg (Subgroup.subset_closure (Or.inr (hmemc hb).1))
  · intro g a ha
    simp only [Prod.snd_mul, (hmemc ha).2, hs, decide_not]
  · intro g b hb
    simp only [Prod.snd_mul, (hmemc hb).2, hs', decide_not]
  · intro g hg a ha b hb hc
    exact hacc.2 g.1 (hmem _ hg) a.1 (hmemc ha).1 b.1 (hmemc hb).1 (congrArg Prod.fst hc)

/-- **C55**, bipartite complexes: if `A` and `B` are accepted (symmetric and without conjugate members), then for all codes of
matching lengths and every order in which nodes are taken from the set, the loop ends and gives the quantum Tanner code on the
double cover; in particular its X and Z checks commute. -/
theorem C55_bipartite (members A B : List G) (hmem : ∀ g ∈ Subgroup.closure {g | g ∈ A ∨ g ∈ B}, g ∈ members) (hA : A.Nodup)
    (hB : B.Nodup) (hA0 : A ≠ []) (hB0 : B ≠ []) (hacc : complexAccepted members A B true = true)
    (lt : G × Two → G × Two → Bool) (hlt : StrictTotal lt) (codeA : CCode F A.length) (codeB : CCode F B.length)
    (ha : codeA.gen? = none) (hb : codeB.gen? = none) (pick : ℕ → ℕ) (fuel : ℕ) (hfuel : Fintype.card (G × Two) < fuel) :
    ∃ c, qtCodeBi members lt A B pick fuel codeA codeB = some c ∧
      IsQuantumTanner lt (coverBi A) (coverBi B) codeA codeB c := by
  unfold qtCodeBi
  rw [if_pos hacc]
  have hinj : Function.Injective fun a : G => (a, shift) := fun a b h => congrArg Prod.fst h
  exact qt_main (good_bipartite members A B hmem hacc) hlt
    (hA.map hinj) (hB.map hinj) (by simpa [coverBi] using hA0) (by simpa [coverBi] using hB0) (by simp [coverBi])
    (by simp [coverBi]) codeA codeB ha hb pick fuel hfuel

/-- Accepted subsets of a quadripartite complex have the properties that the construction needs. -/
theorem good_quadripartite (members A B : List G) (hacc : complexAccepted members A B false = true) :
    QTGood (coverQuadA A) (coverQuadB B) Set.univ fun x => decide (x.2.1 * x.2.2 = shift) := by
  simp only [complexAccepted, isSymmetric, Bool.and_eq_true, Bool.not_false, Bool.true_or, and_true, List.all_eq_true,
    decide_eq_true_eq] at hacc
  have hs : ∀ i j : Two, (shift * i * j = shift) = ¬ (i * j = shift) := by decide +kernel
  have hs' : ∀ i j : Two, (i * (j * shift) = shift) = ¬ (i * j = shift) := by decide +kernel
  have hs1 : ∀ i : Two, shift * i ≠ i := by decide +kernel
  have hinv : (shift)⁻¹ = shift := by decide +kernel
  have hinv1 : (1 : Two)⁻¹ = 1 := by decide +kernel
  have hmema : ∀ {S : List G} {x}, x ∈ coverQuadA S → x.1 ∈ S ∧ x.2.1 = shift ∧ x.2.2 = 1 := by
    intro S x hx
    obtain ⟨a, ha, rfl⟩ := List.mem_map.1 hx
    exact ⟨ha, rfl, rfl⟩
  have hmemb : ∀ {S : List G} {x}, x ∈ coverQuadB S → x.1 ∈ S ∧ x.2.1 = 1 ∧ x.2.2 = shift := by
    intro S x hx
    obtain ⟨a, ha, rfl⟩ := List.mem_map.1 hx
    exact ⟨ha, rfl, rfl⟩
  constructor
  · rintro x hx
    obtain ⟨a, haA, rfl⟩ := List.mem_map.1 hx
    exact List.mem_map.2 ⟨a⁻¹, hacc.1 a haA, by rw [Prod.inv_mk, Prod.inv_mk, hinv, hinv1]⟩
  · rintro x hx
    obtain ⟨a, haA, rfl⟩ := List.mem_map.1 hx
    exact List.mem_map.2 ⟨a⁻¹, hacc.2 a haA, by rw [Prod.inv_mk, Prod.inv_mk, hinv, hinv1]⟩
  · trivial
  · intros; trivial
  · intros; trivial
  · intro g a ha
    simp only [Prod.snd_mul, Prod.fst_mul, (hmema ha).2.1, (hmema ha).2.2, one_mul, hs, decide_not]
  · intro g b hb
    simp only [Prod.snd_mul, Prod.fst_mul, (hmemb hb).2.1, (hmemb hb).2.2, mul_one, hs', decide_not]
  · intro g _ a ha b hb hc
    have h1 := congrArg (fun x => x.2.1) hc
    simp only [Prod.snd_mul, Prod.fst_mul, (hmema ha).2.1, (hmemb hb).2.1, mul_one] at h1
    exact hs1 _ h1

/-- **C55**, quadripartite complexes: as above, without any condition on conjugate members. -/
theorem C55_quadripartite (members A B : List G) (hA : A.Nodup) (hB : B.Nodup) (hA0 : A ≠ []) (hB0 : B ≠ [])
    (hacc : complexAccepted members A B false = true) (lt : G × Two × Two → G × Two × Two → Bool) (hlt : StrictTotal lt)
    (codeA : CCode F A.length) (codeB : CCode F B.length) (ha : codeA.gen? = none) (hb : codeB.gen? = none) (pick : ℕ → ℕ)
    (fuel : ℕ) (hfuel : Fintype.card (G × Two × Two) < fuel) :
    ∃ c, qtCodeQuad members lt A B pick fuel codeA codeB = some c ∧
      IsQuantumTanner lt (coverQuadA A) (coverQuadB B) codeA codeB c := by
  unfold qtCodeQuad
  rw [if_pos hacc]
  exact qt_main (good_quadripartite members A B hacc) hlt
    (hA.map fun a b h => congrArg Prod.fst h) (hB.map fun a b h => congrArg Prod.fst h) (by simpa [coverQuadA] using hA0)
    (by simpa [coverQuadB] using hB0) (by simp [coverQuadA]) (by simp [coverQuadB]) codeA codeB ha hb pick fuel hfuel

/-- Subsets that are not symmetric are rejected. -/
theorem C55_rejects (members A B : List G) (bipartite : Bool) (h : (∃ a ∈ A, a⁻¹ ∉ A) ∨ ∃ b ∈ B, b⁻¹ ∉ B) :
    complexAccepted members A B bipartite = false := by
  unfold complexAccepted isSymmetric
  rcases h with ⟨a, ha, h⟩ | ⟨a, ha, h⟩
  · have : (A.all fun g => decide (g⁻¹ ∈ A)) = false := by
      rw [List.all_eq_false]
      exact ⟨a, ha, by simpa using h⟩
    simp [this]
  · have : (B.all fun g => decide (g⁻¹ ∈ B)) = false := by
      rw [List.all_eq_false]
      exact ⟨a, ha, by simpa using h⟩
    simp [this]

end Property

/-! ### Examples -/

/-- the cyclic group of order three -/
abbrev Cyc3 := Multiplicative (ZMod 3)

/-- lexicographic order of the labels -/
def ltQuad (x y : Cyc3 × Two × Two) : Bool :=
  decide ((x.1.toAdd.val * 4 + x.2.1.toAdd.val * 2 + x.2.2.toAdd.val) < y.1.toAdd.val * 4 + y.2.1.toAdd.val * 2 + y.2.2.toAdd.val)

theorem ltQuad_total : StrictTotal ltQuad := by
  constructor
  · decide +kernel
  · intro x y z h1 h2
    simp only [ltQuad, decide_eq_true_eq] at *
    omega
  · decide +kernel

/-- the subset without the identity -/
def A3 : List Cyc3 := [Multiplicative.ofAdd 1, Multiplicative.ofAdd 2]

example : A3.Nodup ∧ A3 ≠ [] ∧ complexAccepted [] A3 A3 false = true := by decide +kernel

def rep2 : CCode (ZMod 2) A3.length := CCode.ofMatrix [![1, 1]]

example : rep2.gen? = none := rfl

example : ∃ c, qtCodeQuad [] ltQuad A3 A3 (fun k => k) 13 rep2 rep2 = some c ∧
    IsQuantumTanner ltQuad (coverQuadA A3) (coverQuadB A3) rep2 rep2 c :=
  C55_quadripartite [] A3 A3 (by decide +kernel) (by decide +kernel) (by decide +kernel) (by decide +kernel) (by decide +kernel)
    ltQuad ltQuad_total rep2 rep2 rfl rfl _ 13 (by decide +kernel)

/-- a bipartite complex: in the cyclic group of order two, generated by the shift and by the identity -/
def ltTwo (x y : Two × Two) : Bool := decide (x.1.toAdd.val * 2 + x.2.toAdd.val < y.1.toAdd.val * 2 + y.2.toAdd.val)

example : complexAccepted [1, shift] [shift] [1] true = true := by decide +kernel

example : ∀ g ∈ Subgroup.closure {g : Two | g ∈ [shift] ∨ g ∈ [(1 : Two)]}, g ∈ [1, shift] := by
  intro g _
  have : ∀ g : Two, g ∈ [1, shift] := by decide +kernel
  exact this g

example : StrictTotal ltTwo := by
  constructor <;> decide +kernel

section AxiomCheck
#print axioms C55_bipartite
#print axioms C55_quadripartite
#print axioms C55_rejects
end AxiomCheck

/-! ### Instances of the theorems: concrete cases meet the hypotheses -/

example := C55_bipartite (F := ZMod 2) [1, shift] [shift] [1]
  (by intro g _; have h : ∀ g : Two, g ∈ [1, shift] := by decide +kernel
      exact h g) (by decide +kernel) (by decide +kernel) (by simp) (by simp) (by decide +kernel) ltTwo (by constructor <;> decide +kernel)
  (CCode.ofMatrix []) (CCode.ofMatrix []) rfl rfl (fun k => k) 5 (by decide +kernel)
example := C55_rejects [] [Multiplicative.ofAdd (1 : ZMod 3)] [1] false (Or.inl (by decide +kernel))

end QLDPC.Props
