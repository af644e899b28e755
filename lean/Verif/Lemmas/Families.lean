import Verif.Model.Families
import Verif.Lemmas.Classical
import Verif.Lemmas.Binary
import Verif.Spec.Code

/-! Repetition, ring and Hamming codes. -/

set_option linter.unusedSectionVars false

namespace QLDPC

open Spec

variable {F : Type} [Field F] [DecidableEq F] {n m : ℕ}

theorem sum_edgeRow {i j : ℕ} (hi : i < n) (hj : j < n) (hne : i ≠ j) (w : Fin n → F) :
    ∑ b, edgeRow (F := F) n i j b * w b = w ⟨i, hi⟩ - w ⟨j, hj⟩ := by
  have h : ∀ b : Fin n, edgeRow (F := F) n i j b * w b
      = (if b = ⟨i, hi⟩ then w b else 0) - (if b = ⟨j, hj⟩ then w b else 0) := by
    intro b
    unfold edgeRow
    by_cases h1 : b.val = j
    · have : b = ⟨j, hj⟩ := Fin.ext h1
      subst this
      simp [Fin.ext_iff, Ne.symm hne]
    · by_cases h2 : b.val = i
      · have : b = ⟨i, hi⟩ := Fin.ext h2
        subst this
        simp [Fin.ext_iff, hne]
      · simp [h1, h2, Fin.ext_iff]
  rw [Finset.sum_congr rfl fun b _ => h b, Finset.sum_sub_distrib]
  simp

theorem isWord_repetition {c : CCode F n} (hc : repetitionCode F n = some c) (w : Fin n → F) :
    IsWord c.matrix w ↔ ∃ x, w = fun _ => x := by
  unfold repetitionCode at hc
  split at hc
  · exact absurd hc (by simp)
  rename_i hn
  cases hc
  constructor
  · intro h
    refine ⟨w ⟨0, by omega⟩, funext fun b => ?_⟩
    obtain ⟨b, hb⟩ := b
    induction b with
    | zero => rfl
    | succ b ih =>
      have := h (edgeRow n b (b + 1)) (List.mem_map.2 ⟨b, by simp; omega, rfl⟩)
      rw [sum_edgeRow (by omega) hb (by omega)] at this
      rw [← ih (by omega)]
      exact (sub_eq_zero.1 this).symm
  · rintro ⟨x, rfl⟩ r hr
    obtain ⟨k, hk, rfl⟩ := List.mem_map.1 hr
    rw [List.mem_range] at hk
    rw [sum_edgeRow (by omega) (show k + 1 < n by omega) (by omega), sub_self]

theorem isWord_ring (hn : 2 ≤ n) (w : Fin n → F) :
    IsWord (ringCode F n).matrix w ↔ ∃ x, w = fun _ => x := by
  have hne : ∀ k, k < n → k ≠ (k + 1) % n := by
    intro k hk
    by_cases h : k + 1 = n
    · rw [h, Nat.mod_self]; omega
    · rw [Nat.mod_eq_of_lt (by omega)]; omega
  constructor
  · intro h
    refine ⟨w ⟨0, by omega⟩, funext fun b => ?_⟩
    obtain ⟨b, hb⟩ := b
    induction b with
    | zero => rfl
    | succ b ih =>
      have := h (edgeRow n b ((b + 1) % n)) (List.mem_map.2 ⟨b, by simp; omega, rfl⟩)
      rw [sum_edgeRow (by omega) (Nat.mod_lt _ (by omega)) (hne b (by omega))] at this
      rw [← ih (by omega), sub_eq_zero.1 this]
      congr 1
      exact Fin.ext (Nat.mod_eq_of_lt hb).symm
  · rintro ⟨x, rfl⟩ r hr
    obtain ⟨k, hk, rfl⟩ := List.mem_map.1 hr
    rw [List.mem_range] at hk
    rw [sum_edgeRow hk (Nat.mod_lt _ (by omega)) (hne k hk), sub_self]

theorem codeDim_constant (hn : n ≠ 0) {H : Rows F n} (h : ∀ w, IsWord H w ↔ ∃ x, w = fun _ => x) :
    codeDim H = 1 := by
  have : codeSpace H = Submodule.span F {(fun _ => 1 : Fin n → F)} := by
    ext w
    rw [Submodule.mem_span_singleton]
    refine (h w).trans ⟨?_, ?_⟩
    · rintro ⟨x, rfl⟩; exact ⟨x, by funext i; simp⟩
    · rintro ⟨x, rfl⟩; exact ⟨x, by funext i; simp⟩
  unfold codeDim
  rw [this]
  apply finrank_span_singleton
  intro h
  exact one_ne_zero (congrFun h ⟨0, by omega⟩)

theorem minDistance_constant (hn : n ≠ 0) {H : Rows F n} (h : ∀ w, IsWord H w ↔ ∃ x, w = fun _ => x) :
    IsMinDistance H n := by
  have hw : ∀ x : F, x ≠ 0 → hammingNorm (fun _ : Fin n => x) = n := by
    intro x hx; simp [hammingNorm, hx]
  constructor
  · refine ⟨fun _ => 1, (h _).2 ⟨1, rfl⟩, ?_, (hw 1 one_ne_zero).symm⟩
    intro h0
    exact one_ne_zero (congrFun h0 ⟨0, by omega⟩)
  · rintro k ⟨w, hwd, hne, rfl⟩
    obtain ⟨x, rfl⟩ := (h w).1 hwd
    rw [hw x]
    rintro rfl
    exact hne rfl

/-! ### Codes given by the columns of their parity check matrix -/

/-- column `j` of the matrix -/
def colOf (r : ℕ) (H : Rows F n) (j : Fin n) : Fin r → F := fun i => (H.getD i 0) j

theorem isWord_cols {r : ℕ} {H : Rows F n} (hr : H.length = r) (w : Fin n → F) :
    IsWord H w ↔ ∑ j, w j • colOf r H j = 0 := by
  constructor
  · intro h
    funext i
    rw [Finset.sum_apply]
    have := h H[i] (List.getElem_mem _)
    refine Eq.trans ?_ this
    refine Finset.sum_congr rfl fun j _ => ?_
    simp only [Pi.smul_apply, smul_eq_mul, colOf]
    rw [List.getD_eq_getElem _ _ (by omega), mul_comm]
    rfl
  · intro h r' hr'
    obtain ⟨i, hi, rfl⟩ := List.getElem_of_mem hr'
    have := congrFun h ⟨i, by omega⟩
    rw [Finset.sum_apply] at this
    rw [← show (0 : Fin r → F) ⟨i, by omega⟩ = 0 from rfl, ← this]
    refine Finset.sum_congr rfl fun j _ => ?_
    simp only [Pi.smul_apply, smul_eq_mul, colOf]
    rw [List.getD_eq_getElem _ _ hi, mul_comm]

/-- Every nonzero vector is a multiple of exactly one column. -/
structure Projective (r : ℕ) (H : Rows F n) : Prop where
  rows : H.length = r
  nonzero : ∀ j, colOf r H j ≠ 0
  cover : ∀ v : Fin r → F, v ≠ 0 → ∃! j, ∃ c : F, v = c • colOf r H j

theorem support_word {w : Fin n → F} {k : ℕ} (h : hammingNorm w = k) :
    ∃ s : Finset (Fin n), s.card = k ∧ (∀ j, w j ≠ 0 ↔ j ∈ s) :=
  ⟨Finset.univ.filter fun j => w j ≠ 0, h, by simp⟩

theorem sum_support {V : Type} [AddCommGroup V] [Module F V] {w : Fin n → F} {s : Finset (Fin n)}
    (hs : ∀ j, w j ≠ 0 ↔ j ∈ s) (f : Fin n → V) : ∑ j, w j • f j = ∑ j ∈ s, w j • f j := by
  symm
  apply Finset.sum_subset (Finset.subset_univ s)
  intro j _ hj
  have : w j = 0 := by by_contra h; exact hj ((hs j).1 h)
  rw [this, zero_smul]

theorem Projective.min_weight {r : ℕ} {H : Rows F n} (h : Projective r H) {w : Fin n → F}
    (hw : IsWord H w) (hne : w ≠ 0) : 3 ≤ hammingNorm w := by
  rw [isWord_cols h.rows] at hw
  by_contra hlt
  obtain ⟨s, hc, hs⟩ := support_word (rfl : hammingNorm w = _)
  rw [sum_support hs] at hw
  have h0 : hammingNorm w ≠ 0 := by rwa [Ne, hammingNorm_eq_zero]
  have h12 : s.card = 1 ∨ s.card = 2 := by omega
  rcases h12 with h1 | h2
  · obtain ⟨j, rfl⟩ := Finset.card_eq_one.1 h1
    rw [Finset.sum_singleton, smul_eq_zero] at hw
    rcases hw with hw | hw
    · exact (hs j).2 (by simp) hw
    · exact h.nonzero j hw
  · obtain ⟨j, k, hjk, rfl⟩ := Finset.card_eq_two.1 h2
    rw [Finset.sum_pair hjk] at hw
    have hj := (hs j).2 (by simp)
    have hk := (hs k).2 (by simp)
    have e : colOf r H j = (-(w j)⁻¹ * w k) • colOf r H k := by
      have := congrArg (fun v => (w j)⁻¹ • v) hw
      simp only [smul_add, smul_smul, inv_mul_cancel₀ hj, one_smul, smul_zero] at this
      rw [neg_mul, neg_smul]
      exact eq_neg_of_add_eq_zero_left this
    obtain ⟨l, _, hl⟩ := h.cover (colOf r H j) (h.nonzero j)
    exact hjk ((hl j ⟨1, (one_smul _ _).symm⟩).trans (hl k ⟨_, e⟩).symm)

theorem Projective.exists_three {r : ℕ} {H : Rows F n} (h : Projective r H) (hr : 2 ≤ r) :
    ∃ w, IsWord H w ∧ hammingNorm w = 3 := by
  let e0 : Fin r → F := Pi.single ⟨0, by omega⟩ 1
  let e1 : Fin r → F := Pi.single ⟨1, by omega⟩ 1
  have a0 : e0 ⟨0, by omega⟩ = 1 := by simp [e0]
  have a1 : e0 ⟨1, by omega⟩ = 0 := by simp [e0]
  have b0 : e1 ⟨0, by omega⟩ = 0 := by simp [e1]
  have b1 : e1 ⟨1, by omega⟩ = 1 := by simp [e1]
  have ne0 : e0 ≠ 0 := fun h => one_ne_zero (a0.symm.trans (congrFun h _))
  have ne1 : e1 ≠ 0 := fun h => one_ne_zero (b1.symm.trans (congrFun h _))
  have ne2 : e0 + e1 ≠ 0 := by
    intro h
    have := congrFun h ⟨0, by omega⟩
    simp [a0, b0] at this
  obtain ⟨i, ⟨c, hc⟩, _⟩ := h.cover e0 ne0
  obtain ⟨j, ⟨d, hd⟩, _⟩ := h.cover e1 ne1
  obtain ⟨k, ⟨e, he⟩, _⟩ := h.cover (e0 + e1) ne2
  have cn : c ≠ 0 := by rintro rfl; rw [zero_smul] at hc; exact ne0 hc
  have dn : d ≠ 0 := by rintro rfl; rw [zero_smul] at hd; exact ne1 hd
  have en : e ≠ 0 := by rintro rfl; rw [zero_smul] at he; exact ne2 he
  have key : ∀ (x y : Fin r → F) (a b : F) (l : Fin n), a ≠ 0 → x = a • colOf r H l →
      y = b • colOf r H l → y = (b * a⁻¹) • x := by
    intro x y a b l ha hx hy
    rw [hx, hy, smul_smul, mul_assoc, inv_mul_cancel₀ ha, mul_one]
  have hij : i ≠ j := by
    rintro rfl
    have := congrFun (key e0 e1 c d i cn hc hd) ⟨1, by omega⟩
    simp [a1, b1] at this
  have hik : i ≠ k := by
    rintro rfl
    have := congrFun (key e0 (e0 + e1) c e i cn hc he) ⟨1, by omega⟩
    simp [a1, b1] at this
  have hjk : j ≠ k := by
    rintro rfl
    have := congrFun (key e1 (e0 + e1) d e j dn hd he) ⟨0, by omega⟩
    simp [a0, b0] at this
  let w : Fin n → F := Pi.single i c + Pi.single j d + Pi.single k (-e)
  have hs : ∀ l, w l ≠ 0 ↔ l ∈ ({i, j, k} : Finset (Fin n)) := by
    intro l
    by_cases h1 : l = i
    · subst h1; simp [w, hij, hik, cn]
    · by_cases h2 : l = j
      · subst h2; simp [w, hjk, hij.symm, dn]
      · by_cases h3 : l = k
        · subst h3; simp [w, hjk.symm, hik.symm, en]
        · simp [w, h1, h2, h3]
  refine ⟨w, (isWord_cols h.rows _).2 ?_, ?_⟩
  · simp only [w, Pi.add_apply, add_smul, Finset.sum_add_distrib, Pi.single_apply, ite_smul, zero_smul,
      Finset.sum_ite_eq', Finset.mem_univ, if_true]
    rw [← hc, ← hd, neg_smul, ← he]
    abel
  · have : (Finset.univ.filter fun l => w l ≠ 0) = {i, j, k} := by
      ext l; simpa using hs l
    unfold hammingNorm
    rw [this, Finset.card_eq_three.2 ⟨i, j, k, hij, hik, hjk, rfl⟩]

theorem Projective.codeDim {r : ℕ} {H : Rows F n} (h : Projective r H) : codeDim H + r = n := by
  have hf : Module.finrank F (codeSpace H) = Module.finrank F
      (LinearMap.ker (Fintype.linearCombination F (colOf r H))) := by
    have e : codeSpace H = LinearMap.ker (Fintype.linearCombination F (colOf r H)) := by
     ext w
     rw [LinearMap.mem_ker, Fintype.linearCombination_apply]
     exact isWord_cols h.rows w
    rw [e]
  have hsurj : LinearMap.range (Fintype.linearCombination F (colOf r H)) = ⊤ := by
    rw [eq_top_iff]
    intro v _
    by_cases hv : v = 0
    · subst hv; exact zero_mem _
    · obtain ⟨j, ⟨c, hc⟩, _⟩ := h.cover v hv
      exact ⟨Pi.single j c, by simp [Fintype.linearCombination_apply, Pi.single_apply, hc]⟩
  have := LinearMap.finrank_range_add_finrank_ker (Fintype.linearCombination F (colOf r H))
  rw [hsurj, finrank_top, Module.finrank_fin_fun, Module.finrank_fin_fun] at this
  unfold Spec.codeDim
  omega

/-! ### Hamming codes -/

/-- a string whose first nonzero entry is 1 -/
def Normalised : List F → Prop
  | [] => False
  | x :: l => x = 1 ∨ x = 0 ∧ Normalised l

theorem normalised_iff {l : List F} :
    Normalised l ↔ ∃ t rest, l = List.replicate t 0 ++ [1] ++ rest := by
  induction l with
  | nil => simp [Normalised]
  | cons x l ih =>
    unfold Normalised
    constructor
    · rintro (rfl | ⟨rfl, h⟩)
      · exact ⟨0, l, rfl⟩
      · obtain ⟨t, rest, rfl⟩ := ih.1 h
        exact ⟨t + 1, rest, rfl⟩
    · rintro ⟨t, rest, h⟩
      cases t with
      | zero => left; simpa using (List.cons.inj h).1
      | succ t =>
        have := List.cons.inj h
        exact Or.inr ⟨this.1, ih.2 ⟨t, rest, by simpa using this.2⟩⟩

theorem mem_stringColumns {els : List F} (hall : ∀ x, x ∈ els) {r : ℕ} {v : List F} :
    v ∈ stringColumns els r ↔ v.length = r ∧ Normalised v := by
  unfold stringColumns
  rw [List.mem_flatMap, normalised_iff]
  constructor
  · rintro ⟨t, ht, hv⟩
    rw [List.mem_reverse, List.mem_range] at ht
    obtain ⟨rest, hr, rfl⟩ := List.mem_map.1 hv
    have := ((mem_productRepeat _ _ _).1 hr).1
    exact ⟨by simp [this]; omega, t, rest, rfl⟩
  · rintro ⟨hl, t, rest, rfl⟩
    simp at hl
    refine ⟨t, by simp; omega, List.mem_map.2 ⟨rest, (mem_productRepeat _ _ _).2 ⟨by omega, ?_⟩, rfl⟩⟩
    intro x _; exact hall x

theorem nodup_stringColumns {els : List F} (hnd : els.Nodup) (r : ℕ) :
    (stringColumns els r).Nodup := by
  unfold stringColumns
  rw [List.nodup_flatMap]
  constructor
  · intro t _
    exact (nodup_productRepeat _ hnd _).map fun a b h => by simpa using h
  · apply List.Nodup.pairwise_of_forall_ne (List.nodup_reverse.2 List.nodup_range)
    intro t _ u _ hne v hv hv'
    obtain ⟨a, _, rfl⟩ := List.mem_map.1 hv
    obtain ⟨b, _, hb⟩ := List.mem_map.1 hv'
    have main : ∀ (t u : ℕ) (a b : List F), t < u →
        List.replicate u 0 ++ [1] ++ b ≠ List.replicate t (0 : F) ++ [1] ++ a := by
      intro t u a b htu h
      have := congrArg (fun l => l[t]?) h
      simp [List.getElem?_append, htu] at this
    rcases lt_or_gt_of_ne hne with h | h
    · exact main t u a b h hb
    · exact main u t b a h hb.symm

theorem mem_bitColumns (hb : IsBinary F) {r : ℕ} {v : List F} :
    v ∈ bitColumns F r ↔ v.length = r ∧ Normalised v := by
  have key : ∀ v : List F, Normalised v ↔ v ≠ List.replicate v.length 0 := by
    intro v
    induction v with
    | nil => simp [Normalised]
    | cons x l ih =>
      unfold Normalised
      rcases hb x with rfl | rfl
      · simp [ih, List.replicate_succ]
      · simp [List.replicate_succ]
  unfold bitColumns
  have hnd : (productRepeat ([0, 1] : List F) r).Nodup := nodup_productRepeat _ (by simp) r
  have hh := productRepeat_head (0 : F) [1] r
  have hm := fun v => mem_productRepeat ([0, 1] : List F) r v
  generalize productRepeat ([0, 1] : List F) r = l at *
  cases l with
  | nil => simp at hh
  | cons a l =>
    simp at hh
    subst hh
    simp only [List.drop_succ_cons, List.drop_zero]
    rw [List.nodup_cons] at hnd
    rw [key]
    constructor
    · intro h
      have hl := ((hm v).1 (List.mem_cons_of_mem _ h)).1
      refine ⟨hl, ?_⟩
      rw [hl]
      rintro rfl
      exact hnd.1 h
    · rintro ⟨hl, hne⟩
      have := (hm v).2 ⟨hl, fun x _ => by simpa using hb x⟩
      rcases List.mem_cons.1 this with h | h
      · rw [hl] at hne; exact absurd h hne
      · exact h

theorem nodup_bitColumns (r : ℕ) : (bitColumns F r).Nodup :=
  (nodup_productRepeat ([0, 1] : List F) (by simp) r).sublist (List.drop_sublist _ _)

theorem length_fromColumns (r : ℕ) (cols : List (List F)) : (fromColumns r cols).length = r := by
  simp [fromColumns]

theorem colOf_fromColumns (r : ℕ) (cols : List (List F)) (j : Fin cols.length) :
    colOf r (fromColumns r cols) j = fun i : Fin r => (cols.get j).getD i 0 := by
  funext i
  simp [colOf, fromColumns]

theorem list_ext_getD {a b : List F} {r : ℕ} (ha : a.length = r) (hb : b.length = r)
    (h : ∀ i : Fin r, a.getD i 0 = b.getD i 0) : a = b := by
  apply List.ext_getElem (ha.trans hb.symm)
  intro i h1 h2
  have := h ⟨i, by omega⟩
  rwa [List.getD_eq_getElem _ _ h1, List.getD_eq_getElem _ _ h2] at this

theorem Normalised.exists_top {l : List F} (h : Normalised l) :
    ∃ t, t < l.length ∧ l.getD t 0 = 1 ∧ ∀ s < t, l.getD s 0 = 0 := by
  obtain ⟨t, rest, rfl⟩ := normalised_iff.1 h
  refine ⟨t, by simp, by simp [List.getD, List.getElem?_append], ?_⟩
  intro s hs
  simp [List.getD, List.getElem?_append, hs, hs.trans (Nat.lt_succ_self t)]

theorem projective_fromColumns {r : ℕ} {cols : List (List F)} (hnd : cols.Nodup)
    (hm : ∀ v, v ∈ cols ↔ v.length = r ∧ Normalised v) : Projective r (fromColumns r cols) := by
  refine ⟨length_fromColumns _ _, ?_, ?_⟩
  · intro j h0
    rw [colOf_fromColumns r cols j] at h0
    have hj := (hm (cols.get j)).1 (List.get_mem _ _)
    obtain ⟨t, ht, h1, _⟩ := hj.2.exists_top
    have := congrFun h0 ⟨t, by omega⟩
    exact one_ne_zero (h1.symm.trans this)
  · intro v hv
    have htop : ∃ t : Fin r, v t ≠ 0 ∧ ∀ s < t, v s = 0 := by
      have hex : ∃ t : ℕ, ∃ h : t < r, v ⟨t, h⟩ ≠ 0 := by
        by_contra hno
        apply hv
        funext i
        by_contra hi
        exact hno ⟨i, i.isLt, hi⟩
      classical
      obtain ⟨h1, h2⟩ := Nat.find_spec hex
      refine ⟨⟨Nat.find hex, h1⟩, h2, fun s hs => ?_⟩
      by_contra hs'
      exact Nat.find_min hex (show s.val < Nat.find hex from hs) ⟨s.isLt, hs'⟩
    obtain ⟨t, ht, hlow⟩ := htop
    let u : List F := List.ofFn fun i => (v t)⁻¹ * v i
    have hu : ∀ i : Fin r, u.getD i 0 = (v t)⁻¹ * v i := by
      intro i
      rw [List.getD_eq_getElem _ _ (by simp [u])]
      simp [u]
    have hun : Normalised u := by
      rw [normalised_iff]
      refine ⟨t, u.drop (t + 1), ?_⟩
      apply list_ext_getD (r := r) (by simp [u]) (by simp [u]; omega)
      intro i
      rw [hu]
      rcases lt_trichotomy i t with h | h | h
      · rw [hlow i h]
        have : i.val < t.val := h
        simp [List.getD, List.getElem?_append, this, this.trans (Nat.lt_succ_self _)]
      · subst h
        simp [List.getD, List.getElem?_append, ht]
      · have hlt : t.val < i.val := h
        rw [List.getD_append_right _ _ _ _ (by simp; omega)]
        simp only [List.length_append, List.length_replicate, List.length_singleton]
        rw [← hu i, List.getD_eq_getElem?_getD, List.getD_eq_getElem?_getD, List.getElem?_drop]
        congr 2
        omega
    obtain ⟨j, hj⟩ := List.mem_iff_get.1 ((hm u).2 ⟨by simp [u], hun⟩)
    refine ⟨j, ⟨v t, ?_⟩, ?_⟩
    · rw [colOf_fromColumns, hj]
      funext i
      rw [Pi.smul_apply, smul_eq_mul, hu, ← mul_assoc, mul_inv_cancel₀ ht, one_mul]
    · rintro k ⟨c, hc⟩
      rw [colOf_fromColumns] at hc
      have hk := (hm (cols.get k)).1 (List.get_mem _ _)
      obtain ⟨s, hs, h1, h0⟩ := hk.2.exists_top
      have hcn : c ≠ 0 := by
        rintro rfl
        exact ht (by simpa using congrFun hc t)
      have hst : s = t := by
        rcases lt_trichotomy s t with h | h | h
        · have := congrFun hc ⟨s, by omega⟩
          rw [hlow ⟨s, by omega⟩ h] at this
          simp only [Pi.smul_apply, smul_eq_mul, h1, mul_one] at this
          exact absurd this.symm hcn
        · exact h
        · have := congrFun hc t
          simp only [Pi.smul_apply, smul_eq_mul, h0 _ h, mul_zero] at this
          exact absurd this ht
      have hvc : v t = c := by
        have := congrFun hc t
        rw [this, Pi.smul_apply, smul_eq_mul, ← hst, h1, mul_one]
      have : cols.get k = u := by
        apply list_ext_getD hk.1 (by simp [u])
        intro i
        have e := congrFun hc i
        simp only [Pi.smul_apply, smul_eq_mul] at e
        rw [hu, e, hvc, ← mul_assoc, inv_mul_cancel₀ hcn, one_mul]
      exact hnd.injective_get (this.trans hj.symm)

theorem mem_hammingColumns {els : List F} (hnd : els.Nodup) (hall : ∀ x, x ∈ els) {r : ℕ} {v : List F} :
    v ∈ hammingColumns els r ↔ v.length = r ∧ Normalised v := by
  unfold hammingColumns
  split
  · exact mem_bitColumns (isBinary_of_list hnd hall (by assumption))
  · exact mem_stringColumns hall

theorem projective_hamming {els : List F} (hnd : els.Nodup) (hall : ∀ x, x ∈ els) (r : ℕ) :
    Projective r (hammingCode els r).matrix := by
  apply projective_fromColumns
  · unfold hammingColumns
    split
    · exact nodup_bitColumns r
    · exact nodup_stringColumns hnd r
  · intro v; exact mem_hammingColumns hnd hall

theorem length_bitColumns (r : ℕ) : (bitColumns F r).length = 2 ^ r - 1 := by
  simp [bitColumns, length_productRepeat]

theorem length_hammingColumns {els : List F} (r : ℕ) :
    (hammingColumns els r).length = ∑ t ∈ Finset.range r, els.length ^ t := by
  unfold hammingColumns
  split
  · rename_i h
    rw [length_bitColumns, h]
    induction r with
    | zero => rfl
    | succ r ih =>
      rw [Finset.sum_range_succ, ← ih, pow_succ]
      have := Nat.one_le_two_pow (n := r)
      omega
  · unfold stringColumns
    rw [List.length_flatMap]
    simp only [List.length_map, length_productRepeat, List.map_reverse, List.sum_reverse]
    rw [← Finset.sum_range_reflect]
    have e : ∀ t, r - t - 1 = r - 1 - t := by omega
    simp only [e]
    rfl

end QLDPC
