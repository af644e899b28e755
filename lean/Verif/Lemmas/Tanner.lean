import Verif.Model.Tanner
import Verif.Spec.Code
import Verif.Lemmas.CssSector

/-! Tanner codes. -/

set_option linter.unusedSectionVars false

namespace QLDPC

open Spec

variable {F : Type} [Field F] [DecidableEq F] {n m : ℕ} {α κ : Type} [DecidableEq α]

theorem pySorted_perm {β γ : Type} (lt : γ → γ → Bool) (key : β → γ) (l : List β) :
    (pySorted lt key l).Perm l := List.perm_insertionSort _ l

theorem orderedInsert_skip {β : Type} {r : β → β → Prop} [DecidableRel r] {a : β} {o1 o2 : List β}
    (h1 : ∀ b ∈ o1, ¬ r a b) (h2 : ∀ b ∈ o2, r a b) :
    List.orderedInsert r a (o1 ++ o2) = o1 ++ a :: o2 := by
  induction o1 with
  | nil =>
    cases o2 with
    | nil => rfl
    | cons b o2 => simp [List.orderedInsert, h2 b (by simp)]
  | cons b o1 ih =>
    simp only [List.cons_append, List.orderedInsert]
    rw [if_neg (h1 b (by simp)), ih fun c hc => h1 c (List.mem_cons_of_mem _ hc)]

/-- A strictly sorted arrangement is what `sorted` returns. -/
theorem pySorted_eq {β γ : Type} {lt : γ → γ → Bool} {key : β → γ}
    (hasym : ∀ x y, lt x y = true → lt y x = false) {l order : List β} (hp : order.Perm l)
    (hs : order.Pairwise fun a b => lt (key a) (key b) = true) : pySorted lt key l = order := by
  unfold pySorted
  induction l generalizing order with
  | nil => simp [hp.eq_nil]
  | cons a l ih =>
    obtain ⟨o1, o2, rfl⟩ := List.append_of_mem (hp.symm.subset (List.mem_cons_self (l := l)))
    have hp' : (o1 ++ o2).Perm l := (List.perm_middle.symm.trans hp).cons_inv
    rw [List.pairwise_append] at hs
    obtain ⟨s1, s2, s3⟩ := hs
    rw [List.pairwise_cons] at s2
    have hs' : (o1 ++ o2).Pairwise fun a b => lt (key a) (key b) = true :=
      List.pairwise_append.2 ⟨s1, s2.2, fun x hx y hy => s3 x hx y (List.mem_cons_of_mem _ hy)⟩
    rw [List.insertionSort_cons, ih hp' hs']
    apply orderedInsert_skip
    · intro b hb
      rw [s3 b hb a (by simp)]; simp
    · intro b hb
      exact hasym _ _ (s2.1 b hb)

/-- Incomparable elements stay in place. -/
theorem pySorted_eq_self {β γ : Type} {lt : γ → γ → Bool} {key : β → γ} {l : List β}
    (h : ∀ a ∈ l, ∀ b ∈ l, lt (key a) (key b) = false) : pySorted lt key l = l := by
  apply List.Pairwise.insertionSort_eq
  apply List.pairwise_of_forall_mem_list
  intro a ha b hb
  exact h b hb a ha

theorem mapM_some_iff {β γ : Type} {f : β → Option γ} {l : List β} {r : List γ} :
    l.mapM f = some r ↔ List.Forall₂ (fun a b => f a = some b) l r := by
  induction l generalizing r with
  | nil => simp [eq_comm]
  | cons a l ih =>
    simp only [List.mapM_cons, Option.bind_eq_bind, Option.bind_eq_some_iff, Option.pure_def]
    constructor
    · rintro ⟨b, hb, s, hs, h⟩
      cases h
      exact List.Forall₂.cons hb (ih.1 hs)
    · intro h
      cases h with
      | cons hb hs => exact ⟨_, hb, _, ih.2 hs, rfl⟩

theorem forall₂_left {β γ : Type} {R : β → γ → Prop} {l : List β} {r : List γ}
    (h : List.Forall₂ R l r) : ∀ a ∈ l, ∃ b ∈ r, R a b := by
  induction h with
  | nil => simp
  | cons h _ ih =>
    intro a ha
    rcases List.mem_cons.1 ha with rfl | ha
    · exact ⟨_, List.mem_cons_self, h⟩
    · obtain ⟨b, hb, hr⟩ := ih a ha
      exact ⟨b, List.mem_cons_of_mem _ hb, hr⟩

theorem forall₂_right {β γ : Type} {R : β → γ → Prop} {l : List β} {r : List γ}
    (h : List.Forall₂ R l r) : ∀ b ∈ r, ∃ a ∈ l, R a b := by
  induction h with
  | nil => simp
  | cons h _ ih =>
    intro a ha
    rcases List.mem_cons.1 ha with rfl | ha
    · exact ⟨_, List.mem_cons_self, h⟩
    · obtain ⟨b, hb, hr⟩ := ih a ha
      exact ⟨b, List.mem_cons_of_mem _ hb, hr⟩

theorem mapM_isSome {β γ : Type} {f : β → Option γ} {l : List β} (h : ∀ a ∈ l, (f a).isSome) :
    (l.mapM f).isSome := by
  induction l with
  | nil => rfl
  | cons a l ih =>
    obtain ⟨b, hb⟩ := Option.isSome_iff_exists.1 (h a (by simp))
    obtain ⟨s, hs⟩ := Option.isSome_iff_exists.1 (ih fun x hx => h x (by simp [hx]))
    simp [List.mapM_cons, hb, hs]

theorem sum_scatter {N : ℕ} (w : Fin N → F) : ∀ (ps : List (Fin N × F)) (init : Fin N → F),
    (ps.map Prod.fst).Nodup → (∀ p ∈ ps, init p.1 = 0) →
    ∑ b, (ps.foldl (fun r p => Function.update r p.1 p.2) init) b * w b
      = ∑ b, init b * w b + (ps.map fun p => p.2 * w p.1).sum := by
  intro ps
  induction ps with
  | nil => intro init _ _; simp
  | cons p ps ih =>
    intro init hnd h0
    rw [List.map_cons, List.nodup_cons] at hnd
    rw [List.foldl_cons, ih _ hnd.2]
    · have : ∑ b, Function.update init p.1 p.2 b * w b = ∑ b, init b * w b + p.2 * w p.1 := by
        have e : ∀ b, Function.update init p.1 p.2 b * w b
            = init b * w b + if b = p.1 then p.2 * w b else 0 := by
          intro b
          by_cases hb : b = p.1
          · subst hb
            rw [Function.update_self, h0 p (by simp)]
            simp
          · rw [Function.update_of_ne hb, if_neg hb, add_zero]
        rw [Finset.sum_congr rfl fun b _ => e b, Finset.sum_add_distrib]
        simp
      rw [this, List.map_cons, List.sum_cons, add_assoc]
    · intro q hq
      have hne : q.1 ≠ p.1 := by
        intro h
        exact hnd.1 (List.mem_map.2 ⟨q, hq, h⟩)
      rw [Function.update_of_ne hne]
      exact h0 q (by simp [hq])

theorem sum_scatterRow {N : ℕ} (w : Fin N → F) {bits : List (Fin N)} (hnd : bits.Nodup) (r : Fin n → F)
    (hl : bits.length = n) :
    ∑ b, scatterRow bits (List.ofFn r) b * w b = ∑ j : Fin n, r j * w (bits.get (Fin.cast hl.symm j)) := by
  unfold scatterRow
  rw [sum_scatter w _ _ (by rwa [List.map_fst_zip (by simp [hl])]) (fun _ _ => rfl)]
  simp only [Pi.zero_apply, zero_mul, Finset.sum_const_zero, zero_add]
  subst hl
  rw [← List.sum_ofFn]
  congr 1
  apply List.ext_getElem
  · simp
  · intro i h1 h2
    simp

theorem sinkIndices_spec {sinks l : List α} {bits : List (Fin sinks.length)}
    (h : sinkIndices sinks l = some bits) : bits.map sinks.get = l := by
  unfold sinkIndices at h
  rw [mapM_some_iff] at h
  induction h with
  | nil => rfl
  | cons hb _ ih =>
    split at hb
    · cases hb
      rw [List.map_cons, ih]
      simp
    · exact absurd hb (by simp)

theorem sinkIndices_isSome {sinks l : List α} (h : ∀ a ∈ l, a ∈ sinks) : (sinkIndices sinks l).isSome := by
  unfold sinkIndices
  apply mapM_isSome
  intro a ha
  rw [dif_pos (h a ha)]
  rfl

theorem isWord_flatten {N : ℕ} (bl : List (Rows F N)) (w : Fin N → F) :
    IsWord bl.flatten w ↔ ∀ b ∈ bl, IsWord b w := by
  unfold IsWord
  constructor
  · intro h b hb r hr; exact h r (List.mem_flatten.2 ⟨b, hb, hr⟩)
  · intro h r hr
    obtain ⟨b, hb, hr'⟩ := List.mem_flatten.1 hr
    exact h b hb r hr'

theorem isWord_scatter {N : ℕ} {bits : List (Fin N)} {sub : Rows F n} {b : Rows F N}
    (h : scatterBlock bits sub = some b) (hnd : bits.Nodup) (hl : bits.length = n) (w : Fin N → F) :
    IsWord b w ↔ IsWord sub fun j => w (bits.get (Fin.cast hl.symm j)) := by
  unfold scatterBlock at h
  rw [if_pos hl] at h
  cases h
  unfold IsWord
  simp only [List.mem_map, forall_exists_index, and_imp, forall_apply_eq_imp_iff₂, sum_scatterRow w hnd _ hl]

theorem sortedNeighbors_perm (lt : κ ⊕ α → κ ⊕ α → Bool) (g : DiGraph α κ) (v : α) :
    (sortedNeighbors lt g v).Perm ((g.succ v).map Prod.fst) := (pySorted_perm _ _ _).map _

/-- Words of a Tanner code, with the neighbors in the order the code reads them. -/
theorem isWord_tanner {lt : κ ⊕ α → κ ⊕ α → Bool} {g : DiGraph α κ} {sub : CCode F n}
    (hnd : ∀ v, ((g.succ v).map Prod.fst).Nodup) (hreg : ∀ v ∈ g.sources, (g.succ v).length = n)
    {c} (hc : tannerCode lt g sub = some c) (x : α → F) :
    IsWord c.matrix (fun b => x ((pySorted lt Sum.inr g.sinks).get b)) ↔
      ∀ v ∈ g.sources, ∀ (hl : (sortedNeighbors lt g v).length = n),
        IsWord sub.matrix fun j => x ((sortedNeighbors lt g v).get (Fin.cast hl.symm j)) := by
  unfold tannerCode at hc
  rw [Option.map_eq_some_iff] at hc
  obtain ⟨blocks, hb, rfl⟩ := hc
  rw [mapM_some_iff] at hb
  have key : ∀ v b, v ∈ g.sources →
      ((sinkIndices (pySorted lt Sum.inr g.sinks) (sortedNeighbors lt g v)).bind fun bits =>
        scatterBlock bits sub.matrix) = some b →
      (IsWord b (fun b => x ((pySorted lt Sum.inr g.sinks).get b)) ↔
        ∀ (hl : (sortedNeighbors lt g v).length = n),
          IsWord sub.matrix fun j => x ((sortedNeighbors lt g v).get (Fin.cast hl.symm j))) := by
    intro v b hv h
    rw [Option.bind_eq_some_iff] at h
    obtain ⟨bits, h1, h2⟩ := h
    have hs := sinkIndices_spec h1
    have hlen : (sortedNeighbors lt g v).length = n := by
      rw [(sortedNeighbors_perm lt g v).length_eq, List.length_map]; exact hreg v hv
    have hbl : bits.length = n := by rw [← hlen, ← hs, List.length_map]
    have hbn : bits.Nodup := by
      apply List.Nodup.of_map (pySorted lt Sum.inr g.sinks).get
      rw [hs]
      exact (sortedNeighbors_perm lt g v).nodup_iff.2 (hnd v)
    rw [isWord_scatter h2 hbn hbl]
    have e : (fun j => x ((pySorted lt Sum.inr g.sinks).get (bits.get (Fin.cast hbl.symm j))))
        = fun j => x ((sortedNeighbors lt g v).get (Fin.cast hlen.symm j)) := by
      funext j
      congr 1
      simp only [← hs, List.get_eq_getElem, List.getElem_map, Fin.val_cast]
    rw [e]
    exact ⟨fun h _ => h, fun h => h hlen⟩
  change IsWord blocks.flatten _ ↔ _
  rw [isWord_flatten]
  constructor
  · intro h v hv
    obtain ⟨b, hb', hvb⟩ := forall₂_left hb v ((pySorted_perm _ _ _).mem_iff.2 hv)
    exact (key v b hv hvb).1 (h b hb')
  · intro h b hb'
    obtain ⟨v, hv, hvb⟩ := forall₂_right hb b hb'
    have hv' := (pySorted_perm _ _ _).mem_iff.1 hv
    exact (key v b hv' hvb).2 (h v hv')

theorem tanner_isSome {lt : κ ⊕ α → κ ⊕ α → Bool} {g : DiGraph α κ} {sub : CCode F n}
    (hreg : ∀ v ∈ g.sources, (g.succ v).length = n)
    (hsink : ∀ v ∈ g.sources, ∀ e ∈ g.succ v, e.1 ∈ g.sinks) : (tannerCode lt g sub).isSome := by
  unfold tannerCode
  rw [Option.isSome_map]
  apply mapM_isSome
  intro v hv
  have hv' := (pySorted_perm _ _ _).mem_iff.1 hv
  obtain ⟨bits, hb⟩ := Option.isSome_iff_exists.1 (sinkIndices_isSome (sinks := pySorted lt Sum.inr g.sinks)
    (l := sortedNeighbors lt g v) (by
      intro a ha
      rw [(pySorted_perm _ _ _).mem_iff]
      obtain ⟨e, he, rfl⟩ := List.mem_map.1 ((sortedNeighbors_perm lt g v).mem_iff.1 ha)
      exact hsink v hv' e he))
  have hs := sinkIndices_spec hb
  have : bits.length = n := by
    rw [← List.length_map (f := (pySorted lt Sum.inr g.sinks).get), hs, (sortedNeighbors_perm lt g v).length_eq,
      List.length_map]
    exact hreg v hv'
  rw [hb]
  simp only [Option.bind_some]
  unfold scatterBlock
  rw [if_pos this]
  rfl

end QLDPC
