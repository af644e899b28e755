import Verif.Lemmas.StandardForm
import Mathlib.LinearAlgebra.Pi

/-!
# The standard form of a stabilizer code
-/

namespace QLDPC

open Spec

set_option linter.unusedSectionVars false

variable {F : Type} [Field F] [DecidableEq F] {n : ℕ}

theorem sform_add_left (p p' q : Fin (n + n) → F) : sform (p + p') q = sform p q + sform p' q := by
  unfold sform xPart zPart
  rw [← Finset.sum_add_distrib]
  exact Finset.sum_congr rfl fun i _ => by simp only [Pi.add_apply]; ring

theorem sform_smul_left (c : F) (p q : Fin (n + n) → F) : sform (c • p) q = c * sform p q := by
  unfold sform xPart zPart
  rw [Finset.mul_sum]
  exact Finset.sum_congr rfl fun i _ => by simp only [Pi.smul_apply, smul_eq_mul]; ring

theorem sform_zero_left (q : Fin (n + n) → F) : sform 0 q = 0 := by
  unfold sform xPart zPart; simp

theorem sform_span_left {M : Rows F (n + n)} {q : Fin (n + n) → F} (h : ∀ p ∈ M, sform p q = 0)
    {p : Fin (n + n) → F} (hp : p ∈ rowSpan M) : sform p q = 0 := by
  induction hp using Submodule.span_induction with
  | mem r hr => exact h r hr
  | zero => exact sform_zero_left q
  | add a b _ _ ha hb => rw [sform_add_left, ha, hb, add_zero]
  | smul c a _ ha => rw [sform_smul_left, ha, mul_zero]

theorem sform_span_right {M : Rows F (n + n)} {q : Fin (n + n) → F} (h : ∀ p ∈ M, sform q p = 0)
    {p : Fin (n + n) → F} (hp : p ∈ rowSpan M) : sform q p = 0 := by
  rw [sform_comm, sform_span_left (fun r hr => by rw [sform_comm, h r hr, neg_zero]) hp, neg_zero]

theorem allCommute_span {M : Rows F (n + n)} (h : AllCommute M) {p q : Fin (n + n) → F}
    (hp : p ∈ rowSpan M) (hq : q ∈ rowSpan M) : sform p q = 0 :=
  sform_span_left (fun r hr => sform_span_right (fun s hs => h r hr s hs) hq) hp

theorem rowSpan_map {m : ℕ} (f : (Fin n → F) →ₗ[F] (Fin m → F)) (L : Rows F n) :
    rowSpan (L.map f) = (rowSpan L).map f := by
  unfold rowSpan
  rw [Submodule.map_span]
  congr 1
  ext v; simp

/-- Split of a list sorted by key at a threshold. -/
theorem filter_split {α : Type} (key : α → ℕ) (m : ℕ) :
    ∀ l : List α, l.Pairwise (fun a b => key a < key b) →
      l = l.filter (fun a => decide (key a < m)) ++ l.filter (fun a => decide (¬ key a < m))
  | [], _ => rfl
  | a :: l, h => by
    rw [List.pairwise_cons] at h
    have ih := filter_split key m l h.2
    by_cases ha : key a < m
    · simp only [List.filter_cons, ha, decide_true, if_true, not_true, decide_false,
        Bool.false_eq_true, if_false, List.cons_append]
      rw [← ih]
    · have hnil : l.filter (fun a => decide (key a < m)) = [] := by
        rw [List.filter_eq_nil_iff]
        intro b hb
        have := h.1 b hb
        simp only [decide_eq_true_eq]; omega
      have hall : l.filter (fun a => decide (¬ key a < m)) = l := by
        rw [hnil] at ih; exact ih.symm
      simp only [List.filter_cons, ha, decide_false, Bool.false_eq_true, if_false, not_false_iff,
        decide_true, if_true, hnil, List.nil_append]
      rw [hall]

/-- Permutation of the entries as a linear equivalence. -/
noncomputable def permLin (F : Type) [Field F] {l : List (Fin n)} (h : l.Perm (List.finRange n)) :
    (Fin n → F) ≃ₗ[F] (Fin n → F) := LinearEquiv.funCongrLeft F F (permEquiv h)

theorem permLin_apply {l : List (Fin n)} (h : l.Perm (List.finRange n)) (v : Fin n → F) :
    permLin F h v = takeAt l v := rfl

theorem rank_takeAt {l : List (Fin n)} (h : l.Perm (List.finRange n)) (L : Rows F n) :
    rank (L.map (takeAt l)) = rank L := by
  rw [← finrank_rowSpan, ← finrank_rowSpan]
  have : L.map (takeAt l) = L.map (permLin F h).toLinearMap := rfl
  rw [this, rowSpan_map]
  exact LinearEquiv.finrank_map_eq (permLin F h) _

theorem takeAt_mem_rowSpan {l : List (Fin n)} (h : l.Perm (List.finRange n)) {L : Rows F n}
    {v : Fin n → F} (hv : v ∈ rowSpan L) : takeAt l v ∈ rowSpan (L.map (takeAt l)) := by
  have : L.map (takeAt l) = L.map (permLin F h).toLinearMap := rfl
  rw [this, rowSpan_map]
  exact ⟨v, hv, rfl⟩

/-- Positions of moved pivots: if all pivots are below `m`, positions `m, m+1, ...` keep their order
right after the others. -/
theorem moveToBack_getElem {piv : List (Fin n)} (hn : piv.Nodup) {m : ℕ} (hm : m ≤ n)
    (hlt : ∀ p ∈ piv, p.val < m) :
    piv.length ≤ m ∧
    (∀ j (hj : m + j < n), (moveToBack piv)[m - piv.length + j]? = some ⟨m + j, hj⟩) ∧
    (∀ j (hj : j < piv.length), (moveToBack piv)[n - piv.length + j]? = some piv[j]) := by
  have hlen : (moveToBack piv).length = n := by rw [(moveToBack_perm hn).length_eq]; simp
  have hsplit : (List.finRange n).filter (fun q => q ∉ piv) =
      ((List.finRange n).take m).filter (fun q => q ∉ piv) ++ (List.finRange n).drop m := by
    conv_lhs => rw [← List.take_append_drop m (List.finRange n)]
    rw [List.filter_append]
    congr 1
    rw [List.filter_eq_self]
    intro a ha
    obtain ⟨i, hi, rfl⟩ := List.mem_iff_getElem.1 ha
    simp only [decide_eq_true_eq]
    intro hmem
    have := hlt _ hmem
    simp at this
  have hl1 : (((List.finRange n).take m).filter (fun q => q ∉ piv)).length + piv.length = m := by
    unfold moveToBack at hlen
    rw [hsplit] at hlen
    simp only [List.length_append, List.length_drop, List.length_finRange] at hlen
    omega
  refine ⟨by omega, ?_, ?_⟩
  · intro j hj
    unfold moveToBack
    rw [hsplit, List.append_assoc, List.getElem?_append_right (by omega),
      List.getElem?_append_left (by rw [List.length_drop, List.length_finRange]; omega)]
    have : m - piv.length + j - (((List.finRange n).take m).filter (fun q => q ∉ piv)).length = j := by
      omega
    rw [this]
    simp [hj]
  · intro j hj
    unfold moveToBack
    have hl2 : ((List.finRange n).filter (fun q => q ∉ piv)).length + piv.length = n := by
      unfold moveToBack at hlen; rw [List.length_append] at hlen; exact hlen
    rw [List.getElem?_append_right (by omega)]
    have : n - piv.length + j - ((List.finRange n).filter (fun q => q ∉ piv)).length = j := by omega
    rw [this, List.getElem?_eq_getElem hj]

theorem takeAt_getElem? {α : Type} {l : List (Fin n)} {v : Fin n → α} {j : ℕ} {hj : j < n}
    {c : Fin n} (h : l[j]? = some c) : takeAt l v ⟨j, hj⟩ = v c := by
  simp [takeAt, List.getD_eq_getElem?_getD, h]

theorem pivotsBelow_getElem {l : List (Fin (n + n))} (h : ∀ p ∈ l, p.val < n) :
    (pivotsBelow l).length = l.length ∧
      ∀ j (hj : j < (pivotsBelow l).length) (hj' : j < l.length),
        Fin.castAdd n (pivotsBelow l)[j] = l[j] := by
  induction l with
  | nil => exact ⟨rfl, fun j hj => absurd hj (Nat.not_lt_zero _)⟩
  | cons a l ih =>
    have ha : a.val < n := h a List.mem_cons_self
    obtain ⟨h1, h2⟩ := ih fun p hp => h p (List.mem_cons_of_mem _ hp)
    have he : pivotsBelow (a :: l) = ⟨a.val, ha⟩ :: pivotsBelow l := by
      simp [pivotsBelow, ha]
    refine ⟨by rw [he]; simp [h1], ?_⟩
    intro j hj hj'
    simp only [he]
    cases j with
    | zero => exact Fin.ext rfl
    | succ j => exact h2 j (by rw [he] at hj; simpa using hj) (by simpa using hj')

theorem pivotsBelow_append (l l' : List (Fin (n + n))) (h : ∀ p ∈ l', ¬ p.val < n) :
    pivotsBelow (l ++ l') = pivotsBelow l := by
  unfold pivotsBelow
  rw [List.filterMap_append]
  have : l'.filterMap (fun p => if h : p.val < n then some (⟨p.val, h⟩ : Fin n) else none) = [] := by
    rw [List.filterMap_eq_nil_iff]
    intro a ha
    simp [h a ha]
  rw [this, List.append_nil]

theorem slices_perm {k a b : ℕ} (h : k + a + b = n) :
    pySlice (List.finRange n) (0, k) ++ pySlice (List.finRange n) (k, k + a) ++
      pySlice (List.finRange n) (k + a, k + a + b) = List.finRange n := by
  have h1 : pySlice (List.finRange n) (0, k) ++ pySlice (List.finRange n) (k, k + a) =
      (List.finRange n).take (k + a) := by
    simp only [pySlice, List.drop_zero]
    conv_rhs => rw [← List.take_append_drop k ((List.finRange n).take (k + a))]
    rw [List.take_take]; congr 2; omega
  rw [h1]
  simp only [pySlice]
  have h2 : (List.finRange n).take (k + a + b) = List.finRange n := by
    apply List.take_of_length_le; simp [h]
  rw [h2, List.take_append_drop]

theorem slice_length {a b : ℕ} (hab : a ≤ b) (hb : b ≤ n) :
    (pySlice (List.finRange n) (a, b)).length = b - a := by
  simp [pySlice, hb]

theorem slice_getElem {a b j : ℕ} (hj : j < (pySlice (List.finRange n) (a, b)).length) :
    ((pySlice (List.finRange n) (a, b))[j]).val = a + j := by
  simp [pySlice]

/-- Z parts of the reduced rows with pivot in the Z sector form a reduced matrix. -/
theorem rank_zParts {d : List (Fin (n + n) × (Fin (n + n) → F))} (h : IsRREF d)
    (hz : ∀ q ∈ d, ¬ q.1.val < n) : rank (d.map fun q => zPart q.2) = d.length := by
  have hidx : ∀ p : Fin (n + n), p.val - n < n := fun p => by have := p.isLt; omega
  let e : List (Fin n × (Fin n → F)) := d.map fun q => (⟨q.1.val - n, hidx q.1⟩, zPart q.2)
  have hcol : ∀ p : Fin (n + n), ¬ p.val < n → Fin.natAdd n (⟨p.val - n, hidx p⟩ : Fin n) = p := by
    intro p hp; apply Fin.ext; simp only [Fin.val_natAdd]; omega
  have he : IsRREF e := by
    constructor
    · intro q' hq'
      obtain ⟨q, hq, rfl⟩ := List.mem_map.1 hq'
      show zPart q.2 _ = 1
      unfold zPart
      rw [hcol _ (hz q hq), h.one q hq]
    · intro q' hq' c hc
      obtain ⟨q, hq, rfl⟩ := List.mem_map.1 hq'
      show zPart q.2 _ = 0
      unfold zPart
      apply h.left q hq
      rw [Fin.lt_def] at hc ⊢
      have := hz q hq
      simp only [Fin.val_natAdd] at hc ⊢; omega
    · rw [List.pairwise_map]
      refine List.Pairwise.imp_of_mem ?_ h.pair
      intro a b ha hb hab
      refine ⟨?_, ?_⟩
      · have := hab.1
        have h1 := hz a ha
        rw [Fin.lt_def] at this ⊢
        simp only; omega
      · show zPart a.2 _ = 0
        unfold zPart
        rw [hcol _ (hz b hb), hab.2]
  have hmap : (d.map fun q => zPart q.2) = e.map Prod.snd := by
    simp only [e, List.map_map]; rfl
  rw [hmap, ← finrank_rowSpan, finrank_rowSpan_rref he]
  simp [e]

/-- The standard form of a stabilizer code exists and has the required shape. -/
theorem stdStabilizer_spec (M : Rows F (n + n)) (hM : AllCommute M) :
    ∃ d, stdStabilizer M = some d ∧ IsStd d (stabDimension M) ∧ stabDimension M + rank M = n ∧
      ∀ r ∈ (rrefPairs M).map Prod.snd,
        (xPart r ∘ d.locs, zPart r ∘ d.locs) ∈ pySlice d.matrix d.rowsSX ∨
        (xPart r = 0 ∧ zPart r ∘ d.locs ∈ rowSpan ((pySlice d.matrix d.rowsSZ).map Prod.snd)) := by
  have hD := rrefPairs_isRREF M
  set D := rrefPairs M with hDdef
  have hDrank : rank M = D.length := rfl
  have hspan : rowSpan (D.map Prod.snd) = rowSpan M := rowSpan_rrefPairs M
  set DX := D.filter (fun q => decide (q.1.val < n)) with hDX
  set DZ := D.filter (fun q => decide (¬ q.1.val < n)) with hDZ
  have hDsplit : D = DX ++ DZ :=
    filter_split (fun q : Fin (n + n) × (Fin (n + n) → F) => q.1.val) n D
      (hD.pair.imp fun h => h.1)
  have hDXlt : ∀ q ∈ DX, q.1.val < n := fun q hq => by simpa using (List.mem_filter.1 hq).2
  have hDZge : ∀ q ∈ DZ, ¬ q.1.val < n := fun q hq => by
    have := (List.mem_filter.1 hq).2
    rwa [decide_eq_true_eq] at this
  have hDXD : ∀ q ∈ DX, q ∈ D := fun q hq => (List.mem_filter.1 hq).1
  have hDZD : ∀ q ∈ DZ, q ∈ D := fun q hq => (List.mem_filter.1 hq).1
  have hDZrref : IsRREF DZ := ⟨fun q hq => hD.one q (hDZD q hq), fun q hq => hD.left q (hDZD q hq),
    hD.pair.filter _⟩
  have hDZx : ∀ q ∈ DZ, xPart q.2 = 0 := by
    intro q hq
    funext i
    apply hD.left q (hDZD q hq)
    rw [Fin.lt_def]
    have := hDZge q hq
    simp only [Fin.val_castAdd]; omega
  -- X pivots
  set px := pivotsBelow (D.map Prod.fst) with hpx
  have hpx' : px = pivotsBelow (DX.map Prod.fst) := by
    rw [hpx]
    conv_lhs => rw [hDsplit, List.map_append]
    apply pivotsBelow_append
    intro p hp
    obtain ⟨q, hq, rfl⟩ := List.mem_map.1 hp
    exact hDZge q hq
  obtain ⟨hpxlen, hpxget⟩ := pivotsBelow_getElem (l := DX.map Prod.fst) (n := n) (by
    intro p hp
    obtain ⟨q, hq, rfl⟩ := List.mem_map.1 hp
    exact hDXlt q hq)
  rw [← hpx'] at hpxlen
  rw [List.length_map] at hpxlen
  have hpxget' : ∀ j (hj : j < px.length) (hj' : j < DX.length), Fin.castAdd n px[j] = DX[j].1 := by
    intro j hj hj'
    have := hpxget j (by rw [← hpx']; exact hj) (by simpa using hj')
    rw [List.getElem_map] at this
    rw [← this]
    congr 1
    simp only [hpx']
  have hDXnd : (DX.map Prod.fst).Pairwise (· < ·) := by
    rw [List.pairwise_map]; exact (hD.pair.filter _).imp fun h => h.1
  have hpxnd : px.Nodup := by
    rw [List.nodup_iff_injective_getElem]
    intro a b hab
    have ha : a.val < DX.length := hpxlen ▸ a.isLt
    have hb : b.val < DX.length := hpxlen ▸ b.isLt
    have h1 := hpxget' a.val a.isLt ha
    have h2 := hpxget' b.val b.isLt hb
    replace hab : px[a.val] = px[b.val] := hab
    rw [hab, h2] at h1
    have hnd : (DX.map Prod.fst).Nodup := hDXnd.imp fun h => ne_of_lt h
    have := (List.Nodup.getElem_inj_iff hnd (i := a.val) (hi := by simpa using ha) (j := b.val)
      (hj := by simpa using hb)).1 (by simpa using h1.symm)
    exact Fin.ext this
  set A := px.length with hA
  have hp1 := moveToBack_perm hpxnd
  set perm1 := moveToBack px with hperm1
  have hAn : A ≤ n := by
    have := hp1.length_eq
    simp only [hperm1, moveToBack, List.length_append, List.length_finRange] at this
    omega
  obtain ⟨-, -, hperm1get⟩ := moveToBack_getElem hpxnd (le_refl n) (fun p _ => p.isLt)
  -- low rows
  set LZ := (DZ.map fun q => zPart q.2).map (takeAt perm1) with hLZ
  have hE := rrefPairs_isRREF LZ
  set E := rrefPairs LZ with hEdef
  have hElen : E.length = DZ.length := by
    have : E.length = rank LZ := rfl
    rw [this, hLZ, rank_takeAt hp1, rank_zParts hDZrref hDZge]
  have hcommZ : ∀ q ∈ DX, ∀ z ∈ rowSpan LZ, dot (takeAt perm1 (xPart q.2)) z = 0 := by
    intro q hq z hz
    have hk : takeAt perm1 (xPart q.2) ∈ kernel LZ := by
      intro r hr
      obtain ⟨z0, hz0, rfl⟩ := List.mem_map.1 hr
      obtain ⟨q', hq', rfl⟩ := List.mem_map.1 hz0
      rw [dot_takeAt hp1, dot_comm]
      have h0 := allCommute_span hM (p := q.2) (q := q'.2)
        (by rw [← hspan]; exact subset_rowSpan (List.mem_map.2 ⟨q, hDXD q hq, rfl⟩))
        (by rw [← hspan]; exact subset_rowSpan (List.mem_map.2 ⟨q', hDZD q' hq', rfl⟩))
      rw [sform_eq, hDZx q' hq', dot_zero_right, sub_zero] at h0
      exact h0
    rw [dot_comm]
    exact dot_eq_zero_of_mem_rowSpan hz hk
  have hElt : ∀ q ∈ E, q.1.val < n - A := by
    intro q hq
    by_contra hge
    obtain ⟨i, hi⟩ : ∃ i, q.1.val = n - A + i := ⟨q.1.val - (n - A), by omega⟩
    have hiA : i < A := by have := q.1.isLt; omega
    have hiX : i < DX.length := hpxlen ▸ hiA
    have h0 := hcommZ DX[i] (List.getElem_mem hiX) q.2 (by
      rw [← rowSpan_rrefPairs LZ]; exact subset_rowSpan (List.mem_map.2 ⟨q, hq, rfl⟩))
    have hsum : dot (takeAt perm1 (xPart DX[i].2)) q.2 = q.2 q.1 := by
      unfold dot
      rw [Finset.sum_eq_single q.1]
      · have : takeAt perm1 (xPart DX[i].2) q.1 = 1 := by
          have hq1 : q.1 = ⟨n - A + i, by omega⟩ := Fin.ext hi
          rw [hq1, takeAt_getElem? (hperm1get i hiA)]
          unfold xPart
          rw [hpxget' i hiA hiX]
          exact hD.one _ (hDXD _ (List.getElem_mem hiX))
        rw [this, one_mul]
      · intro c _ hc
        by_cases hlt : c < q.1
        · rw [hE.left q hq c hlt, mul_zero]
        · obtain ⟨i', hi'⟩ : ∃ i', c.val = n - A + i' := ⟨c.val - (n - A), by
            rw [Fin.lt_def] at hlt; omega⟩
          have hiA' : i' < A := by have := c.isLt; omega
          have hiX' : i' < DX.length := hpxlen ▸ hiA'
          have : takeAt perm1 (xPart DX[i].2) c = 0 := by
            have hq1 : c = ⟨n - A + i', by omega⟩ := Fin.ext hi'
            rw [hq1, takeAt_getElem? (hperm1get i' hiA')]
            unfold xPart
            rw [hpxget' i' hiA' hiX',
              hD.pivot_eq _ (hDXD _ (List.getElem_mem hiX)) _ (hDXD _ (List.getElem_mem hiX')),
              if_neg]
            intro he
            have hnd : DX.Nodup := hD.nodup.filter _
            have := (List.Nodup.getElem_inj_iff hnd).1 he
            apply hc; apply Fin.ext; omega
          rw [this, zero_mul]
      · intro h; exact absurd (Finset.mem_univ _) h
    rw [hsum, hE.one q hq] at h0
    exact one_ne_zero h0
  -- Z pivots
  have hpznd : (E.map Prod.fst).Nodup := hE.nodup_pivots.imp fun h => ne_of_lt h
  obtain ⟨hEm, hperm2mid, hperm2get⟩ := moveToBack_getElem hpznd (m := n - A) (by omega) (by
    intro p hp
    obtain ⟨q, hq, rfl⟩ := List.mem_map.1 hp
    exact hElt q hq)
  have hp2 := moveToBack_perm hpznd
  simp only [List.length_map] at hEm hperm2mid hperm2get
  have hlenD : D.length = A + E.length := by
    rw [hDsplit, List.length_append, hElen, hpxlen]
  have hdim : stabDimension M = n - D.length := by
    unfold stabDimension
    rw [dropZero_rowReduce, List.length_map]
  have hk : stabDimension M + rank M = n := by rw [hdim, hDrank]; omega
  -- unfold the model
  have hm0 : dropZero (rowReduce M) = D.map Prod.snd := dropZero_rowReduce M
  have hfn : firstNonzeroCols (D.map Prod.snd) = D.map Prod.fst := firstNonzeroCols_rref hD
  let f1 : (Fin (n + n) → F) → (Fin n → F) × (Fin n → F) := fun r =>
    (takeAt perm1 (xPart r), takeAt perm1 (zPart r))
  have hDtake : (D.map Prod.snd).take A = DX.map Prod.snd := by
    rw [hDsplit, List.map_append, List.take_append_of_le_length (by simp [hpxlen]),
      List.take_of_length_le (by simp [hpxlen])]
  have hDdrop : (D.map Prod.snd).drop A = DZ.map Prod.snd := by
    rw [hDsplit, List.map_append, List.drop_append_of_le_length (by simp [hpxlen]),
      List.drop_of_length_le (by simp [hpxlen]), List.nil_append]
  have hlow : ((D.map Prod.snd).map f1).drop A = DZ.map fun q => f1 q.2 := by
    rw [← List.map_drop, hDdrop, List.map_map]; rfl
  have hhigh : ((D.map Prod.snd).map f1).take A = DX.map fun q => f1 q.2 := by
    rw [← List.map_take, hDtake, List.map_map]; rfl
  have hlowz : (((D.map Prod.snd).map f1).drop A).map Prod.snd = LZ := by
    rw [hlow, hLZ, List.map_map, List.map_map]; rfl
  have hlz2 : (DZ.map fun q => f1 q.2).map Prod.snd = LZ := by
    rw [hLZ, List.map_map, List.map_map]; rfl
  have hsub : dropZero (rowReduce LZ) = E.map Prod.snd := dropZero_rowReduce LZ
  have hfz : firstNonzeroCols (E.map Prod.snd) = E.map Prod.fst := firstNonzeroCols_rref hE
  have htake : (E.map Prod.fst).take (n - A - stabDimension M) = E.map Prod.fst := by
    apply List.take_of_length_le
    rw [List.length_map, hdim]; omega
  have hkA : n - A - E.length = stabDimension M := by rw [hdim]; omega
  set k := stabDimension M with hkdef
  have hkn : k + A + E.length = n := by omega
  let f2 : (Fin n → F) × (Fin n → F) → (Fin n → F) × (Fin n → F) := fun r =>
    (takeAt (moveToBack (E.map Prod.fst)) r.1, takeAt (moveToBack (E.map Prod.fst)) r.2)
  let zip := List.zipWith (fun (r : (Fin n → F) × (Fin n → F)) z => (r.1, z))
    (DZ.map fun q => f1 q.2) (E.map Prod.snd)
  have hm3 : stdStabilizer M = some
      { matrix := ((DX.map fun q => f1 q.2) ++ zip).map f2,
        locs := takeAt (moveToBack (E.map Prod.fst)) (takeAt perm1 id),
        rowsSX := (0, A), rowsGX := (0, 0), rowsSZ := (A, A + E.length),
        rowsGZ := (0, 0), colsLX := pySlice (List.finRange n) (0, k),
        colsLZ := pySlice (List.finRange n) (0, k),
        colsSX := pySlice (List.finRange n) (k, k + A),
        colsSZ := pySlice (List.finRange n) (k + A, k + A + E.length),
        colsGX := [], colsGZ := [] } := by
    unfold stdStabilizer
    simp only [hm0, hfn]
    rw [← hpx, ← hperm1]
    simp only [← hA]
    show (if _ then none else some _) = _
    rw [if_neg]
    · show some (StdData.mk _ _ _ _ _ _ _ _ _ _ _ _) = _
      have e1 : ((D.map Prod.snd).map fun r => (takeAt perm1 (xPart r), takeAt perm1 (zPart r))) =
        (D.map Prod.snd).map f1 := rfl
      simp only [e1, hlow, hlz2, hsub, hfz, ← hkdef, htake, List.length_map, hkA, hhigh]
      rfl
    · rw [not_not]
      show (dropZero (rowReduce (List.map Prod.snd (((D.map Prod.snd).map f1).drop A)))).length =
        (((D.map Prod.snd).map f1).drop A).length
      rw [hlowz, hsub, hlow]; simp [hElen]
  have hziplen : zip.length = E.length := by simp [zip, hElen]
  have hrowsX : pySlice (((DX.map fun q => f1 q.2) ++ zip).map f2) (0, A) =
      DX.map fun q => f2 (f1 q.2) := by
    simp only [pySlice, List.drop_zero]
    rw [List.map_append, List.take_append_of_le_length (by simp [hpxlen]),
      List.take_of_length_le (by simp [hpxlen]), List.map_map]; rfl
  have hrowsZ : pySlice (((DX.map fun q => f1 q.2) ++ zip).map f2) (A, A + E.length) =
      zip.map f2 := by
    simp only [pySlice]
    rw [List.take_of_length_le (by simp [hziplen, hpxlen]), List.map_append,
      List.drop_append_of_le_length (by simp [hpxlen]),
      List.drop_of_length_le (by simp [hpxlen]), List.nil_append]
  have hrowsZsnd : (zip.map f2).map Prod.snd =
      (E.map Prod.snd).map (takeAt (moveToBack (E.map Prod.fst))) := by
    rw [List.map_map]
    have : Prod.snd ∘ f2 = takeAt (moveToBack (E.map Prod.fst)) ∘ Prod.snd := rfl
    rw [this, ← List.map_map]
    congr 1
    simp only [zip, List.map_zipWith]
    apply List.ext_getElem
    · simp [hElen]
    · intro i h1 h2; simp
  refine ⟨_, hm3, ?_, hk, ?_⟩
  · constructor
    · rfl
    · rfl
    · simp only
      rw [slices_perm hkn]
    · simp only; rw [slice_length (by omega) (by omega)]; omega
    · simp only
      rw [hrowsX, slice_length (by omega) (by omega)]; simp [hpxlen]
    · simp only
      rw [hrowsZ, slice_length (by omega) (by omega)]; simp [hziplen]
    · intro i j hi hj
      simp only at hi hj ⊢
      simp only [hrowsX] at hi ⊢
      have hiX : i < DX.length := by simpa using hi
      have hjA : j < A := by rw [slice_length (by omega) (by omega)] at hj; omega
      have hjX : j < DX.length := hpxlen ▸ hjA
      rw [List.getElem_map]
      have hcol : (pySlice (List.finRange n) (k, k + A))[j] =
          ⟨n - A - E.length + j, by omega⟩ := by
        apply Fin.ext; rw [slice_getElem]; simp only; omega
      rw [hcol]
      show takeAt _ (takeAt perm1 (xPart DX[i].2)) _ = _
      rw [takeAt_getElem? (hperm2mid j (by omega)), takeAt_getElem? (hperm1get j hjA)]
      unfold xPart
      rw [hpxget' j hjA hjX,
        hD.pivot_eq _ (hDXD _ (List.getElem_mem hiX)) _ (hDXD _ (List.getElem_mem hjX))]
      have hnd : DX.Nodup := hD.nodup.filter _
      simp only [List.Nodup.getElem_inj_iff hnd]
    · intro i j hi hj
      simp only at hi hj ⊢
      simp only [hrowsZ] at hi ⊢
      have hiE : i < E.length := by simpa [hziplen] using hi
      have hjE : j < E.length := by rw [slice_length (by omega) (by omega)] at hj; omega
      have hrow : (zip.map f2)[i].2 = takeAt (moveToBack (E.map Prod.fst)) E[i].2 := by
        have := List.getElem_map (l := zip.map f2) (f := Prod.snd) (i := i) (h := by simpa using hi)
        rw [← this]
        simp only [hrowsZsnd, List.getElem_map]
      rw [hrow]
      have hcol : (pySlice (List.finRange n) (k + A, k + A + E.length))[j] =
          ⟨n - E.length + j, by omega⟩ := by
        apply Fin.ext; rw [slice_getElem]; simp only; omega
      rw [hcol, takeAt_getElem? (hperm2get j hjE), List.getElem_map,
        hE.pivot_eq _ (List.getElem_mem hiE) _ (List.getElem_mem hjE)]
      simp only [List.Nodup.getElem_inj_iff hE.nodup]
    · show Function.Injective (fun j => permEquiv hp1 (permEquiv hp2 j))
      exact (permEquiv hp1).injective.comp (permEquiv hp2).injective
  · intro r hr
    simp only
    rw [hrowsX, hrowsZ, hrowsZsnd]
    obtain ⟨q, hq, rfl⟩ := List.mem_map.1 hr
    rw [hDsplit] at hq
    rcases List.mem_append.1 hq with hq | hq
    · left
      exact List.mem_map.2 ⟨q, hq, rfl⟩
    · right
      refine ⟨hDZx q hq, ?_⟩
      show takeAt _ (takeAt perm1 (zPart q.2)) ∈ _
      apply takeAt_mem_rowSpan hp2
      rw [rowSpan_rrefPairs LZ]
      exact subset_rowSpan (List.mem_map.2 ⟨zPart q.2, List.mem_map.2 ⟨q, hq, rfl⟩, rfl⟩)

end QLDPC
