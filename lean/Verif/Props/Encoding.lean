import Verif.Lemmas.Encoding
import Verif.Props.Qudit
import Verif.Props.CSS
import Verif.Props.CssDistance
import Verif.Model.Product

/-!
# Encoding tableaus (C61)
-/

namespace QLDPC.Props

open QLDPC QLDPC.Spec

variable {n : ℕ}

/-! ## Helper lemmas -/

theorem getElem_idx {α : Type} {L : List α} {i j : ℕ} (h : i = j) (hi : i < L.length) (hj : j < L.length) : L[i] = L[j] := by
  subst h; rfl

theorem isReduced_rref {m : ℕ} {F : Type} [Field F] [DecidableEq F] {d : List (Fin m × (Fin m → F))} (h : IsRREF d) :
    IsReduced (d.map Prod.snd) := by
  intro j hj
  rw [List.length_map] at hj
  refine ⟨d[j].1, fun c' hc' => ?_, fun i hi => ?_⟩
  · rw [List.getElem_map]
    exact h.left _ (List.getElem_mem hj) _ hc'
  · rw [List.length_map] at hi
    rw [List.getElem_map, h.pivot_eq _ (List.getElem_mem hi) _ (List.getElem_mem hj)]
    exact if_congr h.nodup.getElem_inj_iff rfl rfl

theorem isReduced_blockDiag2 {F : Type} [Field F] {a b : ℕ} {A : Rows F a} {B : Rows F b}
    (hA : IsReduced A) (hB : IsReduced B) : IsReduced (blockDiag2 A B) := by
  intro j hj
  unfold blockDiag2 at hj ⊢
  simp only [List.length_append, List.length_map] at hj
  by_cases h1 : j < A.length
  · obtain ⟨c, h0, hc⟩ := hA j h1
    refine ⟨Fin.castAdd b c, fun c' hc' => ?_, fun i hi => ?_⟩
    · rw [List.getElem_append_left (by simpa using h1), List.getElem_map]
      have hlt : c'.val < a := lt_trans (Fin.lt_def.1 hc') c.isLt
      have e : c' = Fin.castAdd b ⟨c'.val, hlt⟩ := rfl
      rw [e, Fin.append_left]
      exact h0 _ (Fin.lt_def.2 (Fin.lt_def.1 hc'))
    · simp only [List.length_append, List.length_map] at hi
      by_cases h2 : i < A.length
      · rw [List.getElem_append_left (by simpa using h2), List.getElem_map, Fin.append_left, hc i h2]
      · rw [List.getElem_append_right (by simpa using h2), List.getElem_map, Fin.append_left, if_neg (by omega)]
        rfl
  · obtain ⟨c, h0, hc⟩ := hB (j - A.length) (by omega)
    refine ⟨Fin.natAdd a c, fun c' hc' => ?_, fun i hi => ?_⟩
    · rw [List.getElem_append_right (by simpa using h1), List.getElem_map]
      refine Fin.addCases (motive := fun c' => c' < Fin.natAdd a c → Fin.append (0 : Fin a → F) _ c' = 0) ?_ ?_ c' hc'
      · intro x _
        rw [Fin.append_left]; rfl
      · intro x hx
        rw [Fin.append_right]
        have h3 : x < c := by
          have := Fin.lt_def.1 hx
          simp only [Fin.val_natAdd] at this
          exact Fin.lt_def.2 (by omega)
        exact (congrFun (getElem_idx (by rw [List.length_map]) _ _) x).trans (h0 x h3)
    · simp only [List.length_append, List.length_map] at hi
      by_cases h2 : i < A.length
      · rw [List.getElem_append_left (by simpa using h2), List.getElem_map, Fin.append_right, if_neg (by omega)]
        rfl
      · rw [List.getElem_append_right (by simpa using h2), List.getElem_map, Fin.append_right]
        have h4 := hc (i - A.length) (by omega)
        have h5 : (if i - A.length = j - A.length then (1 : F) else 0) = if i = j then 1 else 0 :=
          if_congr (by omega) rfl rfl
        rw [h5] at h4
        exact (congrFun (getElem_idx (by rw [List.length_map]) _ _) c).trans h4

theorem IsLogicalBasis.inPairs {M LX LZ : Rows (ZMod 2) (n + n)} (h : IsLogicalBasis M LX LZ) : InPairs LX LZ :=
  ⟨h.len, h.pair, h.xx, h.zz⟩

theorem stimTableau_iff {t : Rows (ZMod 2) (n + n) × Rows (ZMod 2) (n + n)} {r} :
    stimTableau t = some r ↔ r = t ∧ IsTableau t.1 t.2 := by
  have hall : ∀ ops : Rows (ZMod 2) (n + n), (ops.all fun p => ops.all fun q => decide (sform p q = 0)) = true ↔
      ∀ p ∈ ops, ∀ q ∈ ops, sform p q = 0 := by
    intro ops
    simp only [List.all_eq_true, decide_eq_true_eq]
  unfold stimTableau
  simp only
  split
  · rename_i h
    obtain ⟨h1, h2, h3, h4, h5⟩ := h
    rw [hall] at h3 h4
    rw [decide_eq_true_eq] at h5
    rw [Option.some.injEq]
    refine ⟨fun e => ⟨e.symm, h1, h2, h3, h4, fun i j hi hj => ?_⟩, fun e => e.1.symm⟩
    have := h5 ⟨i, by omega⟩ ⟨j, by omega⟩
    simp only [List.getD_eq_getElem?_getD, List.getElem?_eq_getElem hi, List.getElem?_eq_getElem hj, Option.getD_some,
      Fin.mk.injEq] at this
    exact this
  · rename_i h
    refine ⟨fun e => by simp at e, fun ⟨_, e⟩ => absurd ⟨e.lenX, e.lenZ, (hall _).2 e.xx, (hall _).2 e.zz,
      decide_eq_true fun i j => ?_⟩ h⟩
    have hi : i.val < t.1.length := by rw [e.lenX]; exact i.isLt
    have hj : j.val < t.2.length := by rw [e.lenZ]; exact j.isLt
    have := e.pair i j hi hj
    rw [List.getD_eq_getElem?_getD, List.getD_eq_getElem?_getD, List.getElem?_eq_getElem hi, List.getElem?_eq_getElem hj,
      Option.getD_some, Option.getD_some, this]
    exact if_congr Fin.val_inj rfl rfl

theorem stimTableau_of {xs zs : Rows (ZMod 2) (n + n)} (h : IsTableau xs zs) : stimTableau (xs, zs) = some (xs, zs) :=
  stimTableau_iff.2 ⟨rfl, h⟩

/-! ## C61 -/

/-- For all reduced stabilizers, logical operators and gauge operators with the right relations and numbers: the
operators handed over to Stim are the given ones, completed by destabilizers, and satisfy the relations of the images
of X and Z operators under a Clifford. -/
theorem C61_tableau {S LX LZ GX GZ : Rows (ZMod 2) (n + n)} (hS : IsReduced S) (hSS : AllCommute S)
    (hL : IsLogicalBasis S LX LZ) (hG : IsLogicalBasis (S ++ LX ++ LZ) GX GZ)
    (hn : LX.length + GX.length + S.length = n) :
    ∃ D : Rows (ZMod 2) (n + n), encodingTableau S (LX ++ LZ) (GX ++ GZ) LX.length GX.length = (LX ++ GX ++ D, LZ ++ GZ ++ S) ∧
      IsTableau (LX ++ GX ++ D) (LZ ++ GZ ++ S) := by
  refine tableau_spec hS hSS (IsLogicalBasis.inPairs hL) (IsLogicalBasis.inPairs hG) ?_ ?_ ?_ hn
  · intro s hs l hl
    rcases List.mem_append.1 hl with hl | hl
    · exact hL.commX s hs l hl
    · exact hL.commZ s hs l hl
  · intro s hs l hl
    have hs' : s ∈ S ++ LX ++ LZ := List.mem_append_left _ (List.mem_append_left _ hs)
    rcases List.mem_append.1 hl with hl | hl
    · exact hG.commX s hs' l hl
    · exact hG.commZ s hs' l hl
  · intro l hl g hg
    have hl' : l ∈ S ++ LX ++ LZ := by rw [List.append_assoc]; exact List.mem_append_right _ hl
    rcases List.mem_append.1 hg with hg | hg
    · exact hG.commX l hl' g hg
    · exact hG.commZ l hl' g hg

/-- Operators with these relations are a basis: every Pauli string is a product of them in precisely one way. -/
theorem C61_basis {xs zs : Rows (ZMod 2) (n + n)} (h : IsTableau xs zs) (p : Fin (n + n) → ZMod 2) :
    (∃ a b : ℕ → ZMod 2, p = logicalProduct xs zs a b) ∧
      ∀ a b a' b' : ℕ → ZMod 2, logicalProduct xs zs a b = logicalProduct xs zs a' b' →
        ∀ i < n, a i = a' i ∧ b i = b' i := by
  have hb : IsLogicalBasis ([] : Rows (ZMod 2) (n + n)) xs zs :=
    { len := h.lenX.trans h.lenZ.symm, pair := h.pair, xx := h.xx, zz := h.zz
      commX := fun r hr => absurd hr (by simp), commZ := fun r hr => absurd hr (by simp) }
  constructor
  · have h1 := hb.finrank_ge
    rw [h.lenX] at h1
    have h2 : rowSpan ([] ++ xs ++ zs) = (⊤ : Submodule (ZMod 2) (Fin (n + n) → ZMod 2)) := by
      apply Submodule.eq_top_of_finrank_eq
      have h3 := Submodule.finrank_le (rowSpan ([] ++ xs ++ zs) : Submodule (ZMod 2) (Fin (n + n) → ZMod 2))
      simp only [Module.finrank_fin_fun] at h3 ⊢
      omega
    have h3 : p ∈ rowSpan ([] ++ xs ++ zs) := by rw [h2]; trivial
    rw [List.nil_append, rowSpan_append', Submodule.mem_sup] at h3
    obtain ⟨u, hu, v, hv, rfl⟩ := h3
    obtain ⟨a, rfl⟩ := (mem_rowSpan_iff_exists _ _).1 hu
    obtain ⟨b, rfl⟩ := (mem_rowSpan_iff_exists _ _).1 hv
    refine ⟨fun i => if hi : i < xs.length then a ⟨i, hi⟩ else 0, fun i => if hi : i < zs.length then b ⟨i, hi⟩ else 0, ?_⟩
    unfold logicalProduct
    congr 1
    · exact Finset.sum_congr rfl fun i _ => by simp only [i.isLt, dif_pos]; rfl
    · exact Finset.sum_congr rfl fun i _ => by simp only [i.isLt, dif_pos]; rfl
  · intro a b a' b' e i hi
    rw [← h.lenX] at hi
    obtain ⟨h1, h2⟩ := hb.sform_product a b i hi
    obtain ⟨h3, h4⟩ := hb.sform_product a' b' i hi
    rw [e] at h1 h2
    exact ⟨h1.symm.trans h3, h2.symm.trans h4⟩

/-- Stabilizer codes whose logical operators are known (for example, because they have been set): the call succeeds.
`X_j` and `Z_j` are sent to the logical operators for `j < k`, and the other `Z_j` to the reduced stabilizers. -/
theorem C61_stored (c : QCode (ZMod 2) n) (hsub : c.isSub = false) (hM : AllCommute c.matrix) {LX LZ : Rows (ZMod 2) (n + n)}
    (hops : c.getLogicalOps = some (LX ++ LZ)) (hL : IsLogicalBasis c.matrix LX LZ) (hk : LX.length = c.dimension)
    (hn : LX.length + rank c.matrix = n) :
    ∃ D, c.encodingTableau = some (LX ++ D, LZ ++ dropZero (rowReduce c.matrix)) ∧
      IsTableau (LX ++ D) (LZ ++ dropZero (rowReduce c.matrix)) ∧
      ∀ p, IsCombination (dropZero (rowReduce c.matrix)) p ↔ IsCombination c.matrix p := by
  have hspan : rowSpan (dropZero (rowReduce c.matrix)) = rowSpan c.matrix := by
    rw [dropZero_rowReduce]; exact rowSpan_rrefPairs c.matrix
  have hmem : ∀ s ∈ dropZero (rowReduce c.matrix), s ∈ rowSpan c.matrix := fun s hs => by rw [← hspan]; exact subset_rowSpan hs
  have hlen : (dropZero (rowReduce c.matrix)).length = rank c.matrix := by rw [dropZero_rowReduce, List.length_map]; rfl
  have hlog : IsLogicalBasis (dropZero (rowReduce c.matrix)) LX LZ :=
    { len := hL.len, pair := hL.pair, xx := hL.xx, zz := hL.zz
      commX := fun r hr l hl => sform_span_left (fun s hs => hL.commX s hs l hl) (hmem r hr)
      commZ := fun r hr l hl => sform_span_left (fun s hs => hL.commZ s hs l hl) (hmem r hr) }
  obtain ⟨D, e, hD⟩ := C61_tableau (S := dropZero (rowReduce c.matrix)) (GX := []) (GZ := [])
    (by rw [dropZero_rowReduce]; exact isReduced_rref (rrefPairs_isRREF c.matrix))
    (fun p hp q hq => sform_span_left (fun s hs => sform_span_right (fun t ht => hM s hs t ht) (hmem q hq)) (hmem p hp))
    hlog
    { len := rfl, pair := fun i j hi => absurd hi (by simp), xx := fun p hp => absurd hp (by simp)
      zz := fun p hp => absurd hp (by simp)
      commX := fun r _ l hl => absurd hl (by simp), commZ := fun r _ l hl => absurd hl (by simp) }
    (by simp only [List.length_nil]; omega)
  simp only [List.append_nil, List.length_nil] at e hD
  refine ⟨D, ?_, hD, fun p => by rw [isCombination_iff, isCombination_iff, hspan]⟩
  unfold QCode.encodingTableau QCode.gaugeOps QCode.stabilizerOpsCanon QCode.gaugeDimension
  rw [hops, hsub]
  simp only [Bool.false_eq_true, if_false, Option.bind_some]
  rw [← hk, e]
  exact stimTableau_of hD

/-- Stabilizer codes: the call succeeds for all parity checks that commute. The operators `X_j` and `Z_j` are sent to
the logical operators for `j < k`, and `Z_j` to stabilizers for `j ≥ k`. -/
theorem C61_stabilizer (M : Rows (ZMod 2) (n + n)) (hM : AllCommute M) :
    ∃ LX LZ D S, (QCode.ofMatrix M (some false)).encodingTableau = some (LX ++ D, LZ ++ S) ∧
      (QCode.ofMatrix M (some false)).getLogicalOps = some (LX ++ LZ) ∧
      LX.length = (QCode.ofMatrix M (some false)).dimension ∧ LX.length = LZ.length ∧ LX.length + rank M = n ∧
      S = dropZero (rowReduce M) ∧ IsLogicalBasis M LX LZ ∧
      IsTableau (LX ++ D) (LZ ++ S) ∧ ∀ p, IsCombination S p ↔ IsCombination M p := by
  obtain ⟨LX, LZ, h1, h2, h3, h4⟩ := stabLogicals_spec M hM
  have hops : (QCode.ofMatrix M (some false)).getLogicalOps = some (LX ++ LZ) := by
    simp [QCode.getLogicalOps, QCode.ofMatrix, h1]
  have hdim : (QCode.ofMatrix M (some false)).dimension = LX.length := by simp [QCode.dimension, QCode.ofMatrix, h3]
  have hn : LX.length + rank M = n := by omega
  obtain ⟨D, e, hD, hS⟩ := C61_stored (QCode.ofMatrix M (some false)) rfl hM hops h2 hdim.symm hn
  exact ⟨LX, LZ, D, _, e, hops, hdim.symm, h2.len, hn, rfl, h2, hD, hS⟩

theorem canonicalStabs_spec {c : CssCode (ZMod 2) n} (h : CssOk c) :
    ∃ SX SZ, c.canonicalStabs = blockDiag2 SX SZ ∧ IsReduced SX ∧ IsReduced SZ ∧
      rowSpan SX = rowSpan c.hx ⊓ kernel c.hz ∧ rowSpan SZ = rowSpan c.hz ⊓ kernel c.hx ∧
      SX.length = rank SX ∧ SZ.length = rank SZ := by
  unfold CssCode.canonicalStabs
  cases hs : c.isSub with
  | true =>
    exact ⟨_, _, rfl, isReduced_rref (rrefPairs_isRREF _), isReduced_rref (rrefPairs_isRREF _),
      rowSpan_cssStabs _ _, rowSpan_cssStabs _ _, length_cssStabs _ _, length_cssStabs _ _⟩
  | false =>
    have hc := h.sub hs
    have e1 : rowSpan c.hx ≤ kernel c.hz :=
      rowSpan_le.2 fun x hx' z hz' => by rw [dot_comm]; exact hc x hx' z hz'
    have e2 : rowSpan c.hz ≤ kernel c.hx := rowSpan_le.2 fun z hz' x hx' => hc x hx' z hz'
    have hlen : ∀ M : Rows (ZMod 2) n, (dropZero (rowReduce M)).length = rank (dropZero (rowReduce M)) := by
      intro M
      rw [rank_eq_of_rowSpan_eq (rowSpan_dropZero_rowReduce M), dropZero_rowReduce, List.length_map]; rfl
    refine ⟨_, _, rfl, ?_, ?_, ?_, ?_, hlen _, hlen _⟩
    · rw [dropZero_rowReduce]; exact isReduced_rref (rrefPairs_isRREF _)
    · rw [dropZero_rowReduce]; exact isReduced_rref (rrefPairs_isRREF _)
    · rw [rowSpan_dropZero_rowReduce]; exact (inf_eq_left.2 e1).symm
    · rw [rowSpan_dropZero_rowReduce]; exact (inf_eq_left.2 e2).symm

/-- CSS codes, both stabilizer codes and subsystem codes: the call succeeds. `X_j` and `Z_j` are sent to the logical
operators for `j < k`, to the gauge operators for `k ≤ j < k + g`, and the other `Z_j` to stabilizers. -/
theorem C61_css (c : CssCode (ZMod 2) n) (h : CssOk c) :
    ∃ LX LZ GX GZ D S, c.encodingTableau = some (LX ++ GX ++ D, LZ ++ GZ ++ S) ∧
      (∃ L, c.logicals = some L ∧ xzRows L = LX ++ LZ) ∧ (∃ G, c.gaugeOps = some G ∧ xzRows G = GX ++ GZ) ∧
      LX.length = c.dimension ∧ LX.length = LZ.length ∧ GX.length = c.gaugeDimension ∧ GX.length = GZ.length ∧
      S = c.canonicalStabs ∧ IsTableau (LX ++ GX ++ D) (LZ ++ GZ ++ S) ∧
      (∀ p, IsCombination S p ↔ IsStabX c.hx c.hz (xPart p) ∧ IsStabX c.hz c.hx (zPart p)) ∧
      ∀ p, IsCombination (S ++ GX ++ GZ) p ↔ IsCombination c.hx (xPart p) ∧ IsCombination c.hz (zPart p) := by
  obtain ⟨LX, LZ, hL, hc, _, hdim⟩ := h.logicals
  obtain ⟨GX, GZ, hG, hb, eX, eZ⟩ : ∃ GX GZ, c.gaugeOps = some (GX, GZ) ∧
      IsCssLogicalBasis (c.stabOps .X ++ LX) (c.stabOps .Z ++ LZ) GX GZ ∧
      rowSpan (c.stabOps .X ++ GX) = rowSpan c.hx ∧ rowSpan (c.stabOps .Z ++ GZ) = rowSpan c.hz := by
    cases hs : c.isSub with
    | true =>
      obtain ⟨GX, GZ, hG, hb, eX, eZ⟩ := gauge_spec h hL hc hdim
      exact ⟨GX, GZ, by rw [CssCode.gaugeOps, if_pos hs]; exact hG, hb, eX, eZ⟩
    | false =>
      obtain ⟨GX, GZ, hG, eX, eZ⟩ := h.gaugeOps
      rw [CssCode.gaugeOps, hs] at hG
      cases hG
      exact ⟨[], [], by rw [CssCode.gaugeOps, hs]; rfl, ⟨rfl, by simp, by simp, by simp⟩, eX, eZ⟩
  obtain ⟨sX, sZ⟩ := h.stabOps
  obtain ⟨SX, SZ, hS, rX, rZ, tX, tZ, lX, lZ⟩ := canonicalStabs_spec h
  have hbas : IsCssLogicalBasis SX SZ LX LZ :=
    { len := hc.basis.len, pair := hc.basis.pair
      commX := fun l hl s hs => dot_eq_zero_of_mem_rowSpan (show s ∈ rowSpan c.hz from
        (show s ∈ rowSpan c.hz ⊓ kernel c.hx by rw [← tZ]; exact subset_rowSpan hs).1) (hc.basis.commX l hl)
      commZ := fun l hl s hs => dot_eq_zero_of_mem_rowSpan (show s ∈ rowSpan c.hx from
        (show s ∈ rowSpan c.hx ⊓ kernel c.hz by rw [← tX]; exact subset_rowSpan hs).1) (hc.basis.commZ l hl) }
  have kX : kernel (SX ++ LX) = kernel (c.stabOps .X ++ LX) :=
    kernel_eq_of_rowSpan_eq (by rw [rowSpan_append', rowSpan_append', sX, tX])
  have kZ : kernel (SZ ++ LZ) = kernel (c.stabOps .Z ++ LZ) :=
    kernel_eq_of_rowSpan_eq (by rw [rowSpan_append', rowSpan_append', sZ, tZ])
  have gbas : IsCssLogicalBasis (SX ++ LX) (SZ ++ LZ) GX GZ :=
    { len := hb.len, pair := hb.pair
      commX := fun l hl => by rw [isWord_iff, kZ, ← isWord_iff]; exact hb.commX l hl
      commZ := fun l hl => by rw [isWord_iff, kX, ← isWord_iff]; exact hb.commZ l hl }
  have hg := isLogicalBasis_of_css gbas
  have hmem : ∀ r ∈ blockDiag2 SX SZ ++ (LX.map fun r => Fin.append r (0 : Fin n → ZMod 2)) ++
      (LZ.map fun r => Fin.append (0 : Fin n → ZMod 2) r), r ∈ blockDiag2 (SX ++ LX) (SZ ++ LZ) := by
    intro r hr
    simp only [blockDiag2, List.map_append, List.mem_append] at hr ⊢
    tauto
  -- the number of operators
  have e1 := finrank_sup_paired (S := rowSpan c.hx ⊓ kernel c.hz) hc.basis.len
    (fun s hs z hz => dot_eq_zero_of_mem_rowSpan hs.1 (hc.basis.commZ z hz)) hc.basis.pair
  rw [hc.x] at e1
  have e1' := finrank_kernel c.hz
  have e2 : Module.finrank (ZMod 2) (rowSpan (SZ ++ GZ)) = SZ.length + GZ.length := by
    rw [rowSpan_append', lZ, ← finrank_rowSpan SZ]
    refine finrank_sup_paired hb.len.symm (fun s hs z hz => ?_) fun i j hi hj => ?_
    · refine dot_eq_zero_of_mem_rowSpan hs ?_
      intro q hq
      exact gbas.commX z hz q (List.mem_append_left _ hq)
    · rw [dot_comm]
      refine (gbas.pair j i hj hi).trans (if_congr eq_comm rfl rfl)
  have e3 : rowSpan (SZ ++ GZ) = rowSpan c.hz := by rw [← eZ, rowSpan_append', rowSpan_append', sZ, tZ]
  rw [e3, finrank_rowSpan] at e2
  rw [← tX, finrank_rowSpan, ← lX] at e1
  have e4 : Module.finrank (ZMod 2) (rowSpan (SX ++ GX)) = SX.length + GX.length := by
    rw [rowSpan_append', lX, ← finrank_rowSpan SX]
    refine finrank_sup_paired hb.len (fun s hs z hz => ?_) gbas.pair
    refine dot_eq_zero_of_mem_rowSpan hs ?_
    intro q hq
    exact gbas.commZ z hz q (List.mem_append_left _ hq)
  have e5 : rowSpan (SX ++ GX) = rowSpan c.hx := by rw [← eX, rowSpan_append', rowSpan_append', sX, tX]
  rw [e5, finrank_rowSpan] at e4
  have hlen := hb.len
  have hgd : c.gaugeDimension = GX.length := by
    unfold CssCode.gaugeDimension
    cases hs : c.isSub with
    | true =>
      rw [if_pos rfl, hS]
      simp only [blockDiag2, List.length_append, List.length_map, dropZero_rowReduce]
      change (rank c.hx + rank c.hz - _) / 2 = _
      omega
    | false =>
      rw [CssCode.gaugeOps, hs] at hG
      cases hG
      rfl
  have hcomm : AllCommute (blockDiag2 SX SZ) := by
    have hxz : ∀ x ∈ SX, ∀ z ∈ SZ, dot x z = 0 := by
      intro x hx z hz
      have h1 : x ∈ rowSpan c.hx ⊓ kernel c.hz := by rw [← tX]; exact subset_rowSpan hx
      have h2 : z ∈ rowSpan c.hz ⊓ kernel c.hx := by rw [← tZ]; exact subset_rowSpan hz
      exact dot_eq_zero_of_mem_rowSpan h1.1 h2.2
    intro p hp q hq
    rw [sform_eq]
    rcases List.mem_append.1 hp with hp | hp <;> obtain ⟨u, hu, rfl⟩ := List.mem_map.1 hp <;>
      rcases List.mem_append.1 hq with hq | hq <;> obtain ⟨v, hv, rfl⟩ := List.mem_map.1 hq <;>
      simp only [xPart_append, zPart_append, dot_zero_left, dot_zero_right, sub_zero, zero_sub, neg_eq_zero]
    · exact hxz u hu v hv
    · rw [dot_comm]; exact hxz v hv u hu
  obtain ⟨D, e, hD⟩ := C61_tableau (isReduced_blockDiag2 rX rZ) hcomm (isLogicalBasis_of_css hbas)
    (GX := GX.map fun r => Fin.append r 0) (GZ := GZ.map fun r => Fin.append 0 r)
    { len := hg.len, pair := hg.pair, xx := hg.xx, zz := hg.zz
      commX := fun r hr => hg.commX r (hmem r hr), commZ := fun r hr => hg.commZ r (hmem r hr) }
    (by simp only [blockDiag2, List.length_append, List.length_map]; omega)
  refine ⟨_, _, _, _, D, blockDiag2 SX SZ, ?_, ⟨_, hL, rfl⟩, ⟨_, hG, rfl⟩, by simp [hdim], by simp [hc.basis.len],
    by rw [List.length_map, hgd], hg.len, hS.symm, hD, ?_, ?_⟩
  · unfold CssCode.encodingTableau
    rw [hL, Option.bind_some, hG, Option.bind_some, hS, hdim, hgd]
    rw [List.length_map, List.length_map] at e
    exact (congrArg stimTableau e).trans (stimTableau_of hD)
  · intro p
    rw [isCombination_iff, mem_rowSpan_blockDiag2, tX, tZ, isStabX_iff, isStabX_iff]
  · intro p
    have e : ∀ r, r ∈ (blockDiag2 SX SZ ++ (GX.map fun r => Fin.append r (0 : Fin n → ZMod 2)) ++
        GZ.map fun r => Fin.append (0 : Fin n → ZMod 2) r) ↔ r ∈ blockDiag2 (SX ++ GX) (SZ ++ GZ) := by
      intro r
      simp only [blockDiag2, List.map_append, List.mem_append]
      tauto
    have e' : rowSpan (blockDiag2 SX SZ ++ (GX.map fun r => Fin.append r (0 : Fin n → ZMod 2)) ++
        GZ.map fun r => Fin.append (0 : Fin n → ZMod 2) r) = rowSpan (blockDiag2 (SX ++ GX) (SZ ++ GZ)) :=
      le_antisymm (rowSpan_le.2 fun r hr => subset_rowSpan ((e r).1 hr)) (rowSpan_le.2 fun r hr => subset_rowSpan ((e r).2 hr))
    rw [isCombination_iff, e', mem_rowSpan_blockDiag2, e3, e5, isCombination_iff, isCombination_iff]

/-- The first row of the destabilizers is only changed by removing logical and gauge operators. -/
theorem commuteLoop_prefix (S : Rows (ZMod 2) (n + n)) (rest done : Rows (ZMod 2) (n + n)) {i : ℕ} (hi : i < done.length) :
    (commuteLoop S done rest)[i]? = done[i]? := by
  induction rest generalizing done with
  | nil => rfl
  | cons d rest ih =>
    rw [commuteLoop, ih _ (by simp; omega), List.getElem?_append_left hi]

/-- The stabilizers that an `SHPCode` stores for the classical codes with parity checks `[[0,1,1],[1,1,0]]` and
`[[1,1]]`. -/
def shpKnown : Rows (ZMod 2) (6 + 6) :=
  let s := shpStabs (CCode.ofMatrix ([![0, 1, 1], ![1, 1, 0]] : Rows (ZMod 2) 3)) (CCode.ofMatrix ([![1, 1]] : Rows (ZMod 2) 2))
  blockDiag2 s.1 s.2

theorem shpKnown_length : shpKnown.length = 3 := by decide +kernel

theorem shpKnown_candidate : ((candidateDestabs shpKnown).take 1).all (fun d =>
    decide (sform (shpKnown[1]'(by rw [shpKnown_length]; omega)) d = 1)) = true := by
  decide +kernel

theorem subtractComponents_nil (D : Rows (ZMod 2) (n + n)) (d : Fin (n + n) → ZMod 2) : subtractComponents D [] d = d := by
  unfold subtractComponents
  rw [Finset.sum_eq_zero (fun i _ => i.elim0), sub_zero]

/-- **Disagreement**: the stored stabilizers of a subsystem hypergraph product code pass the test `_is_canonicalized`
though they are not reduced, and `get_encoding_tableau` then hands over operators that violate the relations, whatever
the logical and gauge operators are. -/
theorem C61_shp_disagreement (computed LX LZ GX GZ : Rows (ZMod 2) (6 + 6)) (hL : IsLogicalBasis shpKnown LX LZ)
    (hG : IsLogicalBasis (shpKnown ++ LX ++ LZ) GX GZ) :
    AllCommute shpKnown ∧ knownStabilizers shpKnown computed = shpKnown ∧
      ∀ xs zs, encodingTableau (knownStabilizers shpKnown computed) (LX ++ LZ) (GX ++ GZ) LX.length GX.length = (xs, zs) →
        ¬ IsTableau xs zs := by
  have hcan : isCanonicalized shpKnown = true := by decide +kernel
  have hk : knownStabilizers shpKnown computed = shpKnown := by rw [knownStabilizers, if_pos hcan]
  have hall : (shpKnown.all fun p => shpKnown.all fun q => decide (sform p q = 0)) = true := by decide +kernel
  refine ⟨fun p hp q hq => by simpa using List.all_eq_true.1 (List.all_eq_true.1 hall p hp) q hq, hk, ?_⟩
  rw [hk]
  intro xs zs e hT
  have h3 := shpKnown_length
  obtain ⟨d0, ds, hd⟩ : ∃ d0 ds, candidateDestabs shpKnown = d0 :: ds := by
    cases h : candidateDestabs shpKnown with
    | nil =>
      have : (candidateDestabs shpKnown).length = 3 := by decide +kernel
      rw [h] at this; cases this
    | cons a l => exact ⟨a, l, rfl⟩
  have h1 : sform (shpKnown[1]'(by omega)) d0 = 1 := by
    simpa using List.all_eq_true.1 shpKnown_candidate d0 (by rw [hd]; exact List.mem_cons_self)
  have hSL : ∀ s ∈ shpKnown, ∀ l ∈ LX ++ LZ, sform s l = 0 := by
    intro s hs l hl
    rcases List.mem_append.1 hl with hl | hl
    · exact hL.commX s hs l hl
    · exact hL.commZ s hs l hl
  have hSG : ∀ s ∈ shpKnown, ∀ l ∈ GX ++ GZ, sform s l = 0 := by
    intro s hs l hl
    have hs' : s ∈ shpKnown ++ LX ++ LZ := List.mem_append_left _ (List.mem_append_left _ hs)
    rcases List.mem_append.1 hl with hl | hl
    · exact hG.commX s hs' l hl
    · exact hG.commZ s hs' l hl
  have h2 := sform_start hSL hSG d0 _ (List.getElem_mem (by omega : 1 < shpKnown.length))
  rw [h1] at h2
  obtain ⟨rfl, rfl⟩ := Prod.mk.inj e
  set D := destabOps shpKnown (LX ++ LZ) (GX ++ GZ) with hDdef
  have hD0 : D[0]? = some (subtractComponents (dualOps (GX ++ GZ)) (GX ++ GZ)
      (subtractComponents (dualOps (LX ++ LZ)) (LX ++ LZ) d0)) := by
    rw [hDdef, destabOps, hd, List.map_cons, List.map_cons, commuteLoop, commuteLoop_prefix _ _ _ (by simp),
      List.nil_append, List.length_nil, List.take_zero, subtractComponents_nil]
    rfl
  have hDlen : 0 < D.length := by
    rw [List.getElem?_eq_some_iff] at hD0
    exact hD0.1
  have hD0' : D[0] = _ := (List.getElem?_eq_some_iff.1 hD0).2
  have := hT.pair (LX.length + GX.length) (LX.length + GX.length + 1)
    (by simp; omega) (by simp [h3, hL.len, hG.len]; omega)
  rw [if_neg (by omega)] at this
  have ea : (List.take LX.length (LX ++ LZ) ++ List.take GX.length (GX ++ GZ) ++ D)[LX.length + GX.length]? = D[0]? := by
    rw [List.getElem?_append_right (by simp)]
    congr 1
    simp
  have eb : (List.drop LX.length (LX ++ LZ) ++ List.drop GX.length (GX ++ GZ) ++ shpKnown)[LX.length + GX.length + 1]? =
      shpKnown[1]? := by
    rw [List.getElem?_append_right (by simp [hL.len, hG.len])]
    congr 1
    simp [hL.len, hG.len]
  rw [List.getElem?_eq_getElem (by simp; omega), List.getElem?_eq_getElem hDlen] at ea
  rw [List.getElem?_eq_getElem (by simp [h3, hL.len, hG.len]; omega), List.getElem?_eq_getElem (by omega)] at eb
  rw [Option.some.inj ea, Option.some.inj eb, hD0', sform_comm2, h2] at this
  exact one_ne_zero this

/-! ## Examples -/

/-- The five-qubit code. -/
example : AllCommute ([![1, 0, 0, 1, 0, 0, 1, 1, 0, 0], ![0, 1, 0, 0, 1, 0, 0, 1, 1, 0],
    ![1, 0, 1, 0, 0, 0, 0, 0, 1, 1], ![0, 1, 0, 1, 0, 1, 0, 0, 0, 1]] : Rows (ZMod 2) (5 + 5)) := by
  unfold AllCommute; decide +kernel

/-- The subsystem code with gauge generators XXII, IIXX, ZIZI, IZIZ. -/
example : CssOk (CssCode.ofMatrices ([![1, 1, 0, 0], ![0, 0, 1, 1]] : Rows (ZMod 2) 4) [![1, 0, 1, 0], ![0, 1, 0, 1]] none) :=
  cssOk_ofMatrices _ _ _ _ (by simp) (by simp)

example : ((CssCode.ofMatrices ([![1, 1, 0, 0], ![0, 0, 1, 1]] : Rows (ZMod 2) 4) [![1, 0, 1, 0], ![0, 1, 0, 1]] none).encodingTableau.map
    fun t => (t.1.length, t.2.length)) = some (4, 4) := by decide +kernel

example : Spec.IsReduced ([![1, 1, 1, 1, 0, 0, 0, 0], ![0, 0, 0, 0, 1, 1, 1, 1]] : Rows (ZMod 2) (4 + 4)) := by
  unfold Spec.IsReduced; decide +kernel

section AxiomCheck
#print axioms C61_tableau
#print axioms C61_basis
#print axioms C61_stored
#print axioms C61_stabilizer
#print axioms C61_css
#print axioms C61_shp_disagreement
end AxiomCheck

/-! ### Instances of the theorems: concrete cases meet the hypotheses -/

example := C61_stabilizer ([Fin.append ![1, 0] ![0, 1], Fin.append ![0, 1] ![1, 0]] : Rows (ZMod 2) (2 + 2)) (by unfold AllCommute; decide +kernel)
example := C61_css (CssCode.ofMatrices ([![1, 1, 1, 1]] : Rows (ZMod 2) 4) [![1, 1, 1, 1]] (some false) false) (cssOk_ofMatrices _ _ _ _ (fun _ => by decide +kernel) (by simp))

private def checks422' : Rows (ZMod 2) (4 + 4) := [Fin.append ![1, 1, 1, 1] 0, Fin.append 0 ![1, 1, 1, 1]]
example : True := by
  have hM : AllCommute checks422' := by unfold AllCommute; decide +kernel
  obtain ⟨LX, LZ, D, S, h1, h2, h3, h4, h5, h6, h7, h8, -⟩ := C61_stabilizer checks422' hM
  have a := C61_stored (QCode.ofMatrix checks422' (some false)) rfl hM h2 h7 h3 h5
  have b := C61_basis h8 (fun _ => 1)
  have d := C21_accepts (QCode.ofMatrix checks422' (some false)) LX LZ h7 h3
  have hr : rank checks422' = 2 := by decide +kernel
  have c := C61_tableau (S := checks422') (LX := LX) (LZ := LZ) (GX := []) (GZ := []) (by unfold Spec.IsReduced; decide +kernel) hM h7
    ⟨rfl, by simp, by simp, by simp, by simp, by simp⟩ (by simp [checks422'] at *; omega)
  trivial

end QLDPC.Props
