import Verif.Lemmas.QuantumTanner
import Verif.Props.Tanner
import Verif.Props.Classical

/-!
# Lemmas on quantum Tanner codes: the checks
-/

namespace QLDPC

open Spec Props

/-- A strict total order, as `GroupMember.__lt__` is. -/
structure StrictTotal {H : Type} (lt : H → H → Bool) : Prop where
  asymm : ∀ x y, lt x y = true → lt y x = false
  trans : ∀ x y z, lt x y = true → lt y z = true → lt x z = true
  total : ∀ x y, x ≠ y → lt x y = true ∨ lt y x = true

section Order

variable {H : Type} [DecidableEq H] {lt : H → H → Bool}

theorem StrictTotal.irrefl (h : StrictTotal lt) (x : H) : lt x x = false := by
  by_contra hc
  have hc : lt x x = true := by simpa using hc
  have := h.asymm x x hc
  rw [hc] at this
  cases this

theorem pySorted_strict (h : StrictTotal lt) {l : List H} (hl : l.Nodup) :
    (pySorted lt id l).Pairwise fun a b => lt a b = true := by
  have hp : (pySorted lt id l).Pairwise fun a b => lt b a = false := by
    have e : pySorted lt id l = l.insertionSort fun a b => lt b a = false := rfl
    rw [e]
    haveI : Std.Total (α := H) fun a b => lt b a = false := ⟨fun a b => by
      by_cases hc : lt b a = true
      · exact Or.inr (h.asymm _ _ hc)
      · exact Or.inl (by simpa using hc)⟩
    haveI : IsTrans H fun a b => lt b a = false := ⟨fun a b c hab hbc => by
      by_contra hc
      have hc : lt c a = true := by simpa using hc
      by_cases hab' : a = b
      · subst hab'; rw [hc] at hbc; cases hbc
      · rcases h.total a b hab' with h1 | h1
        · have := h.trans c a b hc h1
          rw [this] at hbc; cases hbc
        · rw [h1] at hab; cases hab⟩
    exact List.pairwise_insertionSort _ l
  have hn : (pySorted lt id l).Nodup := (pySorted_perm _ _ _).nodup_iff.2 hl
  refine hp.imp₂ (R := fun a b => lt b a = false) (S := fun a b => a ≠ b) ?_ hn
  intro a b h1 h2
  rcases h.total a b h2 with h3 | h3
  · exact h3
  · rw [h3] at h1; cases h1

/-- The members of a set in increasing order. -/
theorem exists_enum (h : StrictTotal lt) {l : List H} (hl : l.Nodup) {n : ℕ} (hn : l.length = n) :
    ∃ α : Fin n → H, (∀ i j, i < j → lt (α i) (α j) = true) ∧ Function.Injective α ∧ ∀ x, x ∈ l ↔ ∃ i, x = α i := by
  subst hn
  have hlen : (pySorted lt id l).length = l.length := (pySorted_perm _ _ _).length_eq
  have hs := pySorted_strict h hl
  have hlt : ∀ i j : Fin l.length, i < j →
      lt ((pySorted lt id l).get (Fin.cast hlen.symm i)) ((pySorted lt id l).get (Fin.cast hlen.symm j)) = true :=
    fun i j hij => List.pairwise_iff_get.1 hs _ _ (Fin.lt_def.2 (Fin.lt_def.1 hij))
  refine ⟨fun i => (pySorted lt id l).get (Fin.cast hlen.symm i), hlt, ?_, ?_⟩
  · intro i j hij
    rcases lt_trichotomy i j with h1 | h1 | h1
    · have := hlt i j h1
      simp only at hij
      rw [hij, h.irrefl] at this; cases this
    · exact h1
    · have := hlt j i h1
      simp only at hij
      rw [hij, h.irrefl] at this; cases this
  · intro x
    rw [← (pySorted_perm lt id l).mem_iff, List.mem_iff_get]
    constructor
    · rintro ⟨i, rfl⟩; exact ⟨Fin.cast hlen i, by simp⟩
    · rintro ⟨i, rfl⟩; exact ⟨_, rfl⟩

end Order

section Code

variable {H : Type} [Group H] [DecidableEq H] {lt : H → H → Bool}

theorem qtLt_asymm (h : StrictTotal lt) : ∀ x y, qtLt lt x y = true → qtLt lt y x = false := by
  intro x y hxy
  match x, y with
  | .inl p, .inl q =>
    simp only [qtLt] at *
    by_cases hc : p.1 = q.1
    · rw [if_pos hc] at hxy; rw [if_pos hc.symm]; exact h.asymm _ _ hxy
    · rw [if_neg hc] at hxy; rw [if_neg (fun h => hc h.symm)]; exact h.asymm _ _ hxy
  | .inr (.inl g), .inr (.inl k) => exact h.asymm _ _ hxy
  | .inr (.inr f), .inr (.inr f') =>
    simp only [qtLt, decide_eq_true_eq, decide_eq_false_iff_not] at *
    exact fun hc => (hxy.trans hc).ne rfl
  | .inl _, .inr _ => simp [qtLt] at hxy
  | .inr (.inl _), .inr (.inr _) => simp [qtLt] at hxy
  | .inr (.inr _), .inr (.inl _) => simp [qtLt] at hxy
  | .inr (.inl _), .inl _ => simp [qtLt] at hxy
  | .inr (.inr _), .inl _ => simp [qtLt] at hxy

variable {A B : List H} {W : Set H} {χ : H → Bool} {F : Type} [Field F] [DecidableEq F] {n m : ℕ}

/-- The edges of a source: one for each pair of members of the subsets. -/
structure FaceEdges (A B : List H) (W : Set H) (E : List (H × Finset H × (H × H))) : Prop where
  nodup : (E.map fun e => (e.1, e.2.1)).Nodup
  mem : ∀ e ∈ E, e.1 ∈ W
  iff : ∀ k, (∃ e ∈ E, e.1 = k) → ∀ f p, (k, f, p) ∈ E ↔ p.1 ∈ A ∧ p.2 ∈ B ∧ f = qtFace k p.1 p.2

theorem FaceEdges.sorted (h : QTGood A B W χ) (hlt : StrictTotal lt) {E : List (H × Finset H × (H × H))}
    (hE : FaceEdges A B W E) {α : Fin n → H} {β : Fin m → H} (hα : ∀ i j, i < j → lt (α i) (α j) = true)
    (hβ : ∀ i j, i < j → lt (β i) (β j) = true) (iα : Function.Injective α) (iβ : Function.Injective β)
    (mα : ∀ x, x ∈ A ↔ ∃ i, x = α i) (mβ : ∀ x, x ∈ B ↔ ∃ i, x = β i) {k : H} (hk : ∃ e ∈ E, e.1 = k) :
    pySorted (qtLt lt) edgeKey ((buildEdges (biEdges E)).succ (.inl k)) =
      List.ofFn fun i : Fin (n * m) =>
        ((.inr (qtFace k (α i.divNat) (β i.modNat)), some (α i.divNat, β i.modNat)) : (H ⊕ Finset H) × Option (H × H)) := by
  apply pySorted_eq (qtLt_asymm hlt)
  · rw [List.perm_ext_iff_of_nodup]
    · rintro ⟨x, s⟩
      rw [(succ_biEdges hE.nodup).1, List.mem_map, List.mem_ofFn]
      constructor
      · rintro ⟨i, hi⟩
        refine ⟨(k, qtFace k (α i.divNat) (β i.modNat), (α i.divNat, β i.modNat)), List.mem_filter.2 ⟨?_, by simp⟩, hi⟩
        exact (hE.iff k hk _ _).2 ⟨(mα _).2 ⟨_, rfl⟩, (mβ _).2 ⟨_, rfl⟩, rfl⟩
      · rintro ⟨⟨k', f, p⟩, he, hx⟩
        obtain ⟨he', hk'⟩ := List.mem_filter.1 he
        have hk' : k' = k := by simpa using hk'
        subst hk'
        obtain ⟨h1, h2, h3⟩ := (hE.iff k' hk f p).1 he'
        obtain ⟨i, hi⟩ := (mα _).1 h1
        obtain ⟨j, hj⟩ := (mβ _).1 h2
        refine ⟨flat i j, ?_⟩
        rw [divNat_flat, modNat_flat, ← hi, ← hj, ← hx, h3]
    · refine List.nodup_ofFn.2 ?_
      intro i j hij
      simp only [Prod.mk.injEq, Option.some.injEq] at hij
      have h1 := iα hij.2.1
      have h2 := iβ hij.2.2
      have : ∀ k : Fin (n * m), k = flat k.divNat k.modNat := fun k => (finProdFinEquiv.apply_symm_apply k).symm
      rw [this i, this j, h1, h2]
    · exact List.Nodup.of_map _ (simple_buildEdges _ (nodup_biEdges hE.nodup) _)
  · rw [List.pairwise_ofFn]
    intro i j hij
    simp only [edgeKey, qtLt]
    have hd : i.divNat ≤ j.divNat := by
      simp only [Fin.le_def, Fin.coe_divNat]
      exact Nat.div_le_div_right (Fin.lt_def.1 hij).le
    rcases lt_or_eq_of_le hd with hd | hd
    · rw [if_neg (fun hc => by have := iα hc; rw [this] at hd; exact lt_irrefl _ hd)]
      exact hα _ _ hd
    · rw [if_pos (by rw [hd])]
      apply hβ
      have e1 := Nat.div_add_mod i.val m
      have e2 := Nat.div_add_mod j.val m
      have e3 : i.val / m = j.val / m := by simpa [Fin.ext_iff] using hd
      have := Fin.lt_def.1 hij
      rw [Fin.lt_def, Fin.coe_modNat, Fin.coe_modNat]
      rw [e3] at e1
      omega

theorem FaceEdges.halfRegular (h : QTGood A B W χ) (hlt : StrictTotal lt) {E : List (H × Finset H × (H × H))}
    (hE : FaceEdges A B W E) (hA : A.Nodup) (hB : B.Nodup) (hn : A.length = n) (hm : B.length = m) :
    HalfRegular (buildEdges (biEdges E)) (n * m) := by
  refine ⟨simple_buildEdges _ (nodup_biEdges hE.nodup), ?_, ?_⟩
  · intro v hv
    obtain ⟨e, he, rfl⟩ := sources_biEdges hE.nodup hv
    obtain ⟨α, h1, h2, h3⟩ := exists_enum hlt hA hn
    obtain ⟨β, h4, h5, h6⟩ := exists_enum hlt hB hm
    have := hE.sorted h hlt h1 h4 h2 h5 h3 h6 ⟨e, he, rfl⟩
    rw [← (pySorted_perm (qtLt lt) edgeKey _).length_eq, this, List.length_ofFn]
  · intro v hv e he
    obtain ⟨d, hd, rfl⟩ := sources_biEdges hE.nodup hv
    rw [(succ_biEdges hE.nodup).1] at he
    obtain ⟨d', hd', rfl⟩ := List.mem_map.1 he
    rw [sinks_biEdges hE.nodup, (mem_rightNodes _).2]
    exact ⟨_, List.mem_map.2 ⟨d', (List.mem_filter.1 hd').1, rfl⟩, rfl⟩

theorem FaceEdges.sinks (h : QTGood A B W χ) {E : List (H × Finset H × (H × H))} (hE : FaceEdges A B W E) :
    pySorted (qtLt lt) Sum.inr (buildEdges (biEdges E)).sinks = rightNodes (E.map fun e => e.2.1) := by
  rw [sinks_biEdges hE.nodup]
  apply pySorted_eq_self
  have hc : ∀ x : H ⊕ Finset H, x ∈ (rightNodes (E.map fun e => e.2.1) : List (H ⊕ Finset H)) →
      ∃ f : Finset H, x = .inr f ∧ f.card = 4 := by
    intro x hx
    obtain ⟨f, hf, rfl⟩ := ((mem_rightNodes _).2 _).1 hx
    obtain ⟨⟨k, f', p⟩, he, rfl⟩ := List.mem_map.1 hf
    obtain ⟨h1, h2, h3⟩ := (hE.iff k ⟨_, he, rfl⟩ f' p).1 he
    exact ⟨_, rfl, by rw [h3]; exact h.card_face (hE.mem _ he) h1 h2⟩
  intro x hx y hy
  obtain ⟨f, rfl, hf⟩ := hc x hx
  obtain ⟨f', rfl, hf'⟩ := hc y hy
  simp only [qtLt, decide_eq_false_iff_not]
  intro hss
  have := Finset.card_lt_card hss
  omega

/-- A row of a Tanner code on such a graph. -/
theorem FaceEdges.rows (h : QTGood A B W χ) (hlt : StrictTotal lt) {E : List (H × Finset H × (H × H))}
    (hE : FaceEdges A B W E) (hA : A.Nodup) (hB : B.Nodup) (hn : A.length = n) (hm : B.length = m)
    {α : Fin n → H} {β : Fin m → H} (hα : ∀ i j, i < j → lt (α i) (α j) = true)
    (hβ : ∀ i j, i < j → lt (β i) (β j) = true) (iα : Function.Injective α) (iβ : Function.Injective β)
    (mα : ∀ x, x ∈ A ↔ ∃ i, x = α i) (mβ : ∀ x, x ∈ B ↔ ∃ i, x = β i) {sub : CCode F (n * m)}
    {c} (hc : tannerCode (qtLt lt) (buildEdges (biEdges E)) sub = some c) {r} (hr : r ∈ c.matrix) :
    ∃ e ∈ E, ∃ s ∈ sub.matrix, ∀ x : H ⊕ Finset H → F,
      ∑ b, r b * x ((pySorted (qtLt lt) Sum.inr (buildEdges (biEdges E)).sinks).get b) =
        ∑ i, ∑ j, s (flat i j) * x (.inr (qtFace e.1 (α i) (β j))) := by
  have hg := hE.halfRegular h hlt hA hB hn hm
  obtain ⟨v, hv, s, hs, hl, hx⟩ := tanner_rows hg.simple hg.degree hc hr
  obtain ⟨e, he, rfl⟩ := sources_biEdges hE.nodup hv
  refine ⟨e, he, s, hs, fun x => ?_⟩
  rw [hx]
  have hsn : sortedNeighbors (qtLt lt) (buildEdges (biEdges E)) (.inl e.1) =
      List.ofFn fun i : Fin (n * m) => (.inr (qtFace e.1 (α i.divNat) (β i.modNat)) : H ⊕ Finset H) := by
    unfold sortedNeighbors
    rw [hE.sorted h hlt hα hβ iα iβ mα mβ ⟨e, he, rfl⟩, List.map_ofFn]
    rfl
  rw [← Fintype.sum_prod_type' (f := fun i j => s (flat i j) * x (.inr (qtFace e.1 (α i) (β j)))),
    ← Equiv.sum_comp finProdFinEquiv]
  refine Finset.sum_congr rfl fun p _ => ?_
  have : (sortedNeighbors (qtLt lt) (buildEdges (biEdges E)) (.inl e.1)).get (Fin.cast hl.symm (finProdFinEquiv p)) =
      (.inr (qtFace e.1 (α p.1) (β p.2)) : H ⊕ Finset H) := by
    have e1 := divNat_flat p.1 p.2
    have e2 := modNat_flat p.1 p.2
    unfold flat at e1 e2
    simp only [List.get_eq_getElem, hsn, List.getElem_ofFn]
    simp only [Fin.val_cast, Fin.eta, e1, e2, Prod.mk.eta]
  rw [this]
  rfl

/-! ### The two graphs -/

theorem faceEdges_X (h : QTGood A B W χ) (hA : A.Nodup) (hB : B.Nodup) {P : List H} (hP : P.Nodup) (hPW : ∀ g ∈ P, g ∈ W) :
    FaceEdges A B W (edgesX A B P) := by
  have hmem : ∀ k f p, (k, f, p) ∈ edgesX A B P ↔ k ∈ P ∧ p.1 ∈ A ∧ p.2 ∈ B ∧ f = qtFace k p.1 p.2 := by
    intro k f p
    unfold edgesX
    simp only [List.mem_flatMap, List.mem_map, mem_product', Prod.mk.injEq]
    constructor
    · rintro ⟨g, hg, q, hq, rfl, rfl, rfl⟩; exact ⟨hg, hq.1, hq.2, rfl⟩
    · rintro ⟨hk, h1, h2, rfl⟩; exact ⟨k, hk, p, ⟨h1, h2⟩, rfl, rfl, rfl⟩
  refine ⟨?_, ?_, ?_⟩
  · unfold edgesX
    rw [List.map_flatMap, List.nodup_flatMap]
    constructor
    · intro g hg
      rw [List.map_map]
      refine List.Nodup.map_on ?_ (hA.product hB)
      intro p hp q hq hpq
      simp only [Function.comp_apply, Prod.mk.injEq, true_and] at hpq
      have hp := mem_product'.1 hp
      have hq := mem_product'.1 hq
      have := h.face_inj (hPW g hg) hp.1 hp.2 hq.1 hq.2 hpq
      exact Prod.ext this.1 this.2
    · refine hP.imp ?_
      intro g g' hgg x hx hx'
      simp only [List.map_map, List.mem_map, Function.comp_apply] at hx hx'
      obtain ⟨p, -, rfl⟩ := hx
      obtain ⟨q, -, hq⟩ := hx'
      exact hgg (congrArg Prod.fst hq).symm
  · rintro ⟨k, f, p⟩ he; exact hPW k ((hmem k f p).1 he).1
  · rintro k ⟨⟨k', f', p'⟩, he, rfl⟩ f p
    rw [hmem]
    have := ((hmem _ _ _).1 he).1
    simp [this]

theorem faceEdges_Z (h : QTGood A B W χ) (hA : A.Nodup) (hB : B.Nodup) (hB0 : B ≠ []) {P : List H} (hP : P.Nodup)
    (hPW : ∀ g ∈ P, g ∈ W) (hcl : ∀ g ∈ P, ∀ a ∈ A, ∀ b ∈ B, a * g * b ∈ P) :
    FaceEdges A B W (edgesZ A B P) := by
  obtain ⟨b0, hb0⟩ := List.exists_mem_of_ne_nil B hB0
  have hmem : ∀ k f p, (k, f, p) ∈ edgesZ A B P ↔ ∃ g ∈ P, ∃ a ∈ A, ∃ b ∈ B, k = a * g ∧ f = qtFace g a b ∧ p = (a⁻¹, b) := by
    intro k f p
    unfold edgesZ
    simp only [List.mem_flatMap, List.mem_map, mem_product', Prod.mk.injEq]
    constructor
    · rintro ⟨g, hg, q, hq, rfl, rfl, rfl⟩; exact ⟨g, hg, q.1, hq.1, q.2, hq.2, rfl, rfl, rfl⟩
    · rintro ⟨g, hg, a, ha, b, hb, rfl, rfl, rfl⟩; exact ⟨g, hg, (a, b), ⟨ha, hb⟩, rfl, rfl, rfl⟩
  refine ⟨?_, ?_, ?_⟩
  · unfold edgesZ
    rw [List.map_flatMap, List.nodup_flatMap]
    constructor
    · intro g hg
      rw [List.map_map]
      refine List.Nodup.map_on ?_ (hA.product hB)
      intro p hp q hq hpq
      simp only [Function.comp_apply, Prod.mk.injEq] at hpq
      have hp := mem_product'.1 hp
      have hq := mem_product'.1 hq
      have := h.face_inj (hPW g hg) hp.1 hp.2 hq.1 hq.2 hpq.2
      exact Prod.ext this.1 this.2
    · refine hP.imp_of_mem ?_
      intro g g' hg hg' hgg x hx hx'
      simp only [List.map_map, List.mem_map, Function.comp_apply] at hx hx'
      obtain ⟨p, hp, rfl⟩ := hx
      obtain ⟨q, hq, hpq⟩ := hx'
      simp only [Prod.mk.injEq] at hpq
      have hp := mem_product'.1 hp
      have hq := mem_product'.1 hq
      obtain ⟨hpq1, hpq2⟩ := hpq
      rw [← qtFace_left g, ← qtFace_left g', hpq1] at hpq2
      have := h.face_inj (h.left g (hPW g hg) _ hp.1) (h.invA _ hq.1) hq.2 (h.invA _ hp.1) hp.2 hpq2
      have h1 := inv_injective this.1
      rw [h1] at hpq1
      exact hgg (mul_left_cancel hpq1).symm
  · rintro ⟨k, f, p⟩ he
    obtain ⟨g, hg, a, ha, b, hb, rfl, -, -⟩ := (hmem k f p).1 he
    exact h.left g (hPW g hg) a ha
  · rintro k ⟨⟨k', f', p'⟩, he, rfl⟩ f p
    obtain ⟨g0, hg0, a0, ha0, b, hb, hk, -, -⟩ := (hmem _ _ _).1 he
    simp only at hk ⊢
    rw [hmem]
    constructor
    · rintro ⟨g, hg, a, ha, b, hb, rfl, rfl, rfl⟩
      exact ⟨h.invA a ha, hb, (qtFace_left g a b).symm⟩
    · rintro ⟨h1, h2, rfl⟩
      refine ⟨p.1 * k', ?_, p.1⁻¹, h.invA _ h1, p.2, h2, by simp, (qtFace_left _ _ _).symm, by simp⟩
      have := hcl _ (hcl g0 hg0 a0 ha0 b0 hb0) p.1 h1 _ (h.invB _ hb0)
      rw [hk]
      simpa [mul_assoc] using this

/-- Rows of the two Tanner codes are orthogonal. -/
theorem qt_rows_orthogonal (h : QTGood A B W χ) (hlt : StrictTotal lt) (hA : A.Nodup) (hB : B.Nodup) (hB0 : B ≠ [])
    (hn : A.length = n) (hm : B.length = m) {P : List H} (hP : P.Nodup)
    (hPW : ∀ g ∈ P, g ∈ W ∧ χ g = χ 1) (hcl : ∀ g ∈ P, ∀ a ∈ A, ∀ b ∈ B, a * g * b ∈ P) {subx subz : CCode F (n * m)}
    (h1 : ∀ s ∈ subx.matrix, ∀ t ∈ subz.matrix, ∀ i i', ∑ j, s (flat i j) * t (flat i' j) = 0)
    (h2 : ∀ s ∈ subx.matrix, ∀ t ∈ subz.matrix, ∀ j j', ∑ i, s (flat i j) * t (flat i j') = 0) :
    ∃ cx cz, tannerCode (qtLt lt) (buildEdges (biEdges (edgesX A B P))) subx = some cx ∧
      tannerCode (qtLt lt) (buildEdges (biEdges (edgesZ A B P))) subz = some cz ∧
      ∃ hl : (pySorted (qtLt lt) Sum.inr (buildEdges (biEdges (edgesZ A B P))).sinks).length =
          (pySorted (qtLt lt) Sum.inr (buildEdges (biEdges (edgesX A B P))).sinks).length,
        ∀ r ∈ cx.matrix, ∀ r' ∈ cz.matrix, ∑ b, r b * r' (b.cast hl.symm) = 0 := by
  have hX := faceEdges_X h hA hB hP fun g hg => (hPW g hg).1
  have hZ := faceEdges_Z h hA hB hB0 hP (fun g hg => (hPW g hg).1) hcl
  have hgX := hX.halfRegular h hlt hA hB hn hm
  have hgZ := hZ.halfRegular h hlt hA hB hn hm
  obtain ⟨cx, hcx, -⟩ := C34_exists (qtLt lt) _ subx hgX
  obtain ⟨cz, hcz, -⟩ := C34_exists (qtLt lt) _ subz hgZ
  have hS : pySorted (qtLt lt) Sum.inr (buildEdges (biEdges (edgesZ A B P))).sinks =
      pySorted (qtLt lt) Sum.inr (buildEdges (biEdges (edgesX A B P))).sinks := by
    rw [hX.sinks h, hZ.sinks h]
    congr 1
    simp [edgesX, edgesZ, List.map_flatMap, Function.comp_def]
  have hnd : (pySorted (qtLt lt) Sum.inr (buildEdges (biEdges (edgesZ A B P))).sinks).Nodup := by
    rw [hZ.sinks h]; exact (mem_rightNodes _).1
  refine ⟨cx, cz, hcx, hcz, congrArg List.length hS, fun r hr r' hr' => ?_⟩
  obtain ⟨α, hα, iα, mα⟩ := exists_enum hlt hA hn
  obtain ⟨β, hβ, iβ, mβ⟩ := exists_enum hlt hB hm
  obtain ⟨e, he, s, hs, hx⟩ := hX.rows h hlt hA hB hn hm hα hβ iα iβ mα mβ hcx hr
  obtain ⟨e', he', t, ht, hz⟩ := hZ.rows h hlt hA hB hn hm hα hβ iα iβ mα mβ hcz hr'
  have hpos : ∀ b, r' (b.cast (congrArg List.length hS).symm) =
      (fun v => ∑ b', r' b' * (if (pySorted (qtLt lt) Sum.inr (buildEdges (biEdges (edgesZ A B P))).sinks).get b' = v then 1 else 0))
        ((pySorted (qtLt lt) Sum.inr (buildEdges (biEdges (edgesX A B P))).sinks).get b) := by
    intro b
    simp only
    rw [Finset.sum_eq_single (b.cast (congrArg List.length hS).symm)]
    · rw [if_pos (by simp only [List.get_eq_getElem, Fin.val_cast, hS]), mul_one]
    · intro b' _ hb'
      rw [if_neg, mul_zero]
      intro hc
      apply hb'
      apply List.nodup_iff_injective_get.1 hnd
      rw [hc]
      simp only [List.get_eq_getElem, Fin.val_cast, hS]
    · simp
  simp only [hpos]
  rw [hx fun v => ∑ b', r' b' * (if (pySorted (qtLt lt) Sum.inr (buildEdges (biEdges (edgesZ A B P))).sinks).get b' = v then 1 else 0)]
  have hz' := fun v => hz fun w => if w = v then 1 else 0
  simp only [hz']
  have hg : e.1 ∈ P := by
    unfold edgesX at he
    obtain ⟨g, hg, he⟩ := List.mem_flatMap.1 he
    obtain ⟨p, -, rfl⟩ := List.mem_map.1 he
    exact hg
  obtain ⟨g', hg', a', ha', hk⟩ : ∃ g' ∈ P, ∃ a' ∈ A, e'.1 = a' * g' := by
    unfold edgesZ at he'
    obtain ⟨g, hg, he⟩ := List.mem_flatMap.1 he'
    obtain ⟨p, hp, rfl⟩ := List.mem_map.1 he
    exact ⟨g, hg, p.1, (mem_product'.1 hp).1, rfl⟩
  have hk' : e'.1 ∈ W := hZ.mem _ he'
  have hcol : χ e'.1 ≠ χ e.1 := by
    rw [hk, h.colA _ _ ha', (hPW g' hg').2, (hPW _ hg).2]
    cases χ 1 <;> decide
  have hd := double_sum_zero α β iα iβ (fun i j => s (flat i j)) (fun i j => t (flat i j)) (h1 s hs t ht) (h2 s hs t ht) e.1 e'.1 (by
    rintro i j ⟨hi, hj⟩
    exact h.tnc _ (hPW _ hg).1 (α i) ((mα _).2 ⟨i, rfl⟩) (β j) ((mβ _).2 ⟨j, rfl⟩) (hi.symm.trans hj))
  refine Eq.trans ?_ hd
  refine Finset.sum_congr rfl fun i _ => Finset.sum_congr rfl fun j _ => ?_
  rw [Finset.mul_sum]
  refine Finset.sum_congr rfl fun i' _ => ?_
  rw [Finset.mul_sum]
  refine Finset.sum_congr rfl fun j' _ => ?_
  rw [mul_assoc]
  congr 2
  have := h.face_eq_iff (hPW _ hg).1 hk' hcol ((mα _).2 ⟨i, rfl⟩) ((mβ _).2 ⟨j, rfl⟩) ((mα _).2 ⟨i', rfl⟩) ((mβ _).2 ⟨j', rfl⟩)
  refine if_congr (Iff.trans ?_ this) rfl rfl
  rw [Sum.inr.injEq, eq_comm]

end Code

end QLDPC
