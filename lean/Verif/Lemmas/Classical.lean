import Verif.Model.Classical
import Verif.Lemmas.Kernel
import Mathlib.InformationTheory.Hamming

set_option linter.unusedSectionVars false

namespace QLDPC

variable {F : Type} [Field F] [DecidableEq F] {n m : ℕ}

/-! ## Generator, dual -/

namespace CCode

theorem canonicalized_matrix (c : CCode F n) :
    c.canonicalized.matrix = (rrefPairs c.matrix).map Prod.snd := dropZero_rowReduce c.matrix

theorem kernel_canonicalized (c : CCode F n) : kernel c.canonicalized.matrix = kernel c.matrix := by
  rw [canonicalized_matrix, kernel_rref]

/-- The cached generator, if any, generates the code. -/
def GenOk (c : CCode F n) : Prop := rowSpan c.generator = kernel c.matrix

/-- The cached dimension, if any, is right. -/
def DimOk (c : CCode F n) : Prop := ∀ k, c.dim? = some k → k = Module.finrank F (kernel c.matrix)

theorem genOk_of_fresh {c : CCode F n} (h : c.gen? = none) : c.GenOk := by
  unfold GenOk generator; rw [h]; exact rowSpan_nullSpace _

theorem rank_eq {c : CCode F n} (h : c.DimOk) : c.rank = QLDPC.rank c.matrix := by
  unfold rank
  have hk := finrank_kernel c.matrix
  cases hd : c.dim? with
  | none => simp only [canonicalized_matrix, List.length_map]; rfl
  | some k => simp only; rw [h k hd]; omega

theorem dimension_eq {c : CCode F n} (h : c.DimOk) :
    c.dimension = Module.finrank F (kernel c.matrix) := by
  unfold dimension
  have hk := finrank_kernel c.matrix
  cases hd : c.dim? with
  | none => simp only; rw [rank_eq h]; omega
  | some k => exact h k hd

theorem kernel_dual {c : CCode F n} (h : c.GenOk) (v : Fin n → F) :
    v ∈ kernel c.dual.matrix ↔ ∀ w ∈ kernel c.matrix, dot v w = 0 := by
  rw [← h]
  constructor
  · intro hv w hw
    rw [dot_comm]; exact dot_eq_zero_of_mem_rowSpan hw hv
  · intro hv r hr
    rw [dot_comm]; exact hv r (subset_rowSpan hr)

theorem kernel_dual_eq {c : CCode F n} (h : c.GenOk) : kernel c.dual.matrix = rowSpan c.matrix := by
  ext v
  rw [kernel_dual h, mem_rowSpan_iff]

theorem kernel_fromGenerator (G : Rows F n) : kernel (fromGenerator G).matrix = rowSpan G :=
  kernel_dual_eq (genOk_of_fresh rfl)

end CCode

/-! ## Enumeration -/

theorem vecMat_nil (G : Rows F n) : vecMat [] G = 0 := by funext i; simp [vecMat]

theorem vecMat_cons (x : F) (c : List F) (g : Fin n → F) (G : Rows F n) :
    vecMat (x :: c) (g :: G) = x • g + vecMat c G := by funext i; simp [vecMat]

theorem mem_rowSpan_iff_vecMat (G : Rows F n) (v : Fin n → F) :
    v ∈ rowSpan G ↔ ∃ c : List F, c.length = G.length ∧ v = vecMat c G := by
  induction G generalizing v with
  | nil =>
    simp only [List.length_nil, List.length_eq_zero_iff, exists_eq_left, vecMat_nil]
    simp [rowSpan]
  | cons g G ih =>
    have hspan : rowSpan (g :: G) = Submodule.span F {g} ⊔ rowSpan G := by
      unfold rowSpan
      rw [← Submodule.span_union]
      congr 1
      ext x; simp
    rw [hspan, Submodule.mem_sup]
    constructor
    · rintro ⟨y, hy, z, hz, rfl⟩
      obtain ⟨a, rfl⟩ := Submodule.mem_span_singleton.1 hy
      obtain ⟨c, hc, rfl⟩ := (ih z).1 hz
      exact ⟨a :: c, by simp [hc], by rw [vecMat_cons]⟩
    · rintro ⟨c, hc, rfl⟩
      cases c with
      | nil => simp at hc
      | cons a c =>
        rw [vecMat_cons]
        exact ⟨_, Submodule.mem_span_singleton.2 ⟨a, rfl⟩, _, (ih _).2 ⟨c, by simpa using hc, rfl⟩,
          rfl⟩

theorem vecMat_eq_sum (c : List F) (G : Rows F n) (h : c.length = G.length) :
    vecMat c G = ∑ i : Fin G.length, c.get (i.cast h.symm) • G.get i := by
  induction G generalizing c with
  | nil => simp at h; subst h; simp [vecMat_nil]
  | cons g G ih =>
    cases c with
    | nil => simp at h
    | cons a c =>
      rw [vecMat_cons, ih c (by simpa using h)]
      exact (Fin.sum_univ_succ (n := G.length)
        (fun i => (a :: c).get (i.cast h.symm) • (g :: G).get i)).symm

theorem vecMat_injective {G : Rows F n} (hG : LinearIndependent F (fun i => G.get i)) {c d : List F}
    (hc : c.length = G.length) (hd : d.length = G.length) (h : vecMat c G = vecMat d G) : c = d := by
  rw [vecMat_eq_sum c G hc, vecMat_eq_sum d G hd] at h
  have := Fintype.linearIndependent_iffₛ.1 hG _ _ h
  apply List.ext_get (by omega)
  intro i h1 h2
  have := this ⟨i, by omega⟩
  simpa using this

theorem mem_productRepeat {α : Type} (els : List α) (k : ℕ) (v : List α) :
    v ∈ productRepeat els k ↔ v.length = k ∧ ∀ x ∈ v, x ∈ els := by
  induction k generalizing v with
  | zero =>
    simp only [productRepeat, List.mem_singleton, List.length_eq_zero_iff]
    constructor
    · rintro rfl; simp
    · exact fun h => h.1
  | succ k ih =>
    simp only [productRepeat, List.mem_flatMap, List.mem_map, ih]
    constructor
    · rintro ⟨x, hx, v, ⟨hl, hv⟩, rfl⟩
      refine ⟨by simp [hl], ?_⟩
      intro y hy
      rcases List.mem_cons.1 hy with rfl | h
      · exact hx
      · exact hv y h
    · rintro ⟨hl, hv⟩
      cases v with
      | nil => simp at hl
      | cons x v =>
        exact ⟨x, hv x (by simp), v, ⟨by simpa using hl, fun y hy => hv y (by simp [hy])⟩, rfl⟩

theorem nodup_productRepeat {α : Type} (els : List α) (h : els.Nodup) (k : ℕ) :
    (productRepeat els k).Nodup := by
  induction k with
  | zero => simp [productRepeat]
  | succ k ih =>
    rw [productRepeat, List.nodup_flatMap]
    refine ⟨fun x _ => ih.map fun a b hab => (List.cons.inj hab).2, ?_⟩
    refine h.imp ?_
    intro a b hab
    rw [Function.onFun, List.disjoint_left]
    intro v hv hv'
    obtain ⟨_, _, rfl⟩ := List.mem_map.1 hv
    obtain ⟨_, _, he⟩ := List.mem_map.1 hv'
    exact hab (List.cons.inj he).1.symm

theorem length_productRepeat {α : Type} (els : List α) (k : ℕ) :
    (productRepeat els k).length = els.length ^ k := by
  induction k with
  | zero => simp [productRepeat]
  | succ k ih =>
    rw [productRepeat, List.length_flatMap]
    simp [ih, pow_succ, mul_comm]

/-- the first tuple is constantly the first element -/
theorem productRepeat_head {α : Type} (e : α) (els : List α) (k : ℕ) :
    ∃ l, productRepeat (e :: els) k = List.replicate k e :: l := by
  induction k with
  | zero => exact ⟨[], rfl⟩
  | succ k ih =>
    obtain ⟨l, hl⟩ := ih
    rw [productRepeat, List.flatMap_cons, hl, List.map_cons, List.cons_append, List.replicate_succ]
    exact ⟨_, rfl⟩

theorem vecMat_replicate_zero (k : ℕ) (G : Rows F n) : vecMat (List.replicate k 0) G = 0 := by
  induction k generalizing G with
  | zero => simp [vecMat_nil]
  | succ k ih =>
    cases G with
    | nil => funext i; simp [vecMat]
    | cons g G => rw [List.replicate_succ, vecMat_cons, ih]; simp

/-! ## Kronecker products -/

theorem kronRow_add_left (a a' : Fin n → F) (b : Fin m → F) :
    kronRow (a + a') b = kronRow a b + kronRow a' b := by
  funext k; simp [kronRow, add_mul]

theorem kronRow_add_right (a : Fin n → F) (b b' : Fin m → F) :
    kronRow a (b + b') = kronRow a b + kronRow a b' := by
  funext k; simp [kronRow, mul_add]

theorem kronRow_smul_left (c : F) (a : Fin n → F) (b : Fin m → F) :
    kronRow (c • a) b = c • kronRow a b := by
  funext k; simp [kronRow, mul_assoc]

theorem kronRow_smul_right (c : F) (a : Fin n → F) (b : Fin m → F) :
    kronRow a (c • b) = c • kronRow a b := by
  funext k; simp [kronRow]; ring

theorem kronRow_zero_left (b : Fin m → F) : kronRow (0 : Fin n → F) b = 0 := by
  funext k; simp [kronRow]

theorem kronRow_zero_right (a : Fin n → F) : kronRow a (0 : Fin m → F) = 0 := by
  funext k; simp [kronRow]

theorem kronRow_mem {A : Rows F n} {B : Rows F m} {a b} (ha : a ∈ rowSpan A) (hb : b ∈ rowSpan B) :
    kronRow a b ∈ rowSpan (kron A B) := by
  induction ha using Submodule.span_induction with
  | mem a ha =>
    induction hb using Submodule.span_induction with
    | mem b hb =>
      exact subset_rowSpan (List.mem_flatMap.2 ⟨a, ha, List.mem_map.2 ⟨b, hb, rfl⟩⟩)
    | zero => rw [kronRow_zero_right]; exact Submodule.zero_mem _
    | add x y _ _ hx hy => rw [kronRow_add_right]; exact Submodule.add_mem _ hx hy
    | smul c x _ hx => rw [kronRow_smul_right]; exact Submodule.smul_mem _ _ hx
  | zero => rw [kronRow_zero_left]; exact Submodule.zero_mem _
  | add x y _ _ hx hy => rw [kronRow_add_left]; exact Submodule.add_mem _ hx hy
  | smul c x _ hx => rw [kronRow_smul_left]; exact Submodule.smul_mem _ _ hx

theorem rowSpan_kron_le {A A' : Rows F n} {B B' : Rows F m} (hA : rowSpan A ≤ rowSpan A')
    (hB : rowSpan B ≤ rowSpan B') : rowSpan (kron A B) ≤ rowSpan (kron A' B') := by
  rw [rowSpan_le]
  intro r hr
  obtain ⟨a, ha, hr⟩ := List.mem_flatMap.1 hr
  obtain ⟨b, hb, rfl⟩ := List.mem_map.1 hr
  exact kronRow_mem (hA (subset_rowSpan ha)) (hB (subset_rowSpan hb))

/-- flattened index -/
def flat (i : Fin n) (j : Fin m) : Fin (n * m) := finProdFinEquiv (i, j)

theorem flat_val (i : Fin n) (j : Fin m) : (flat i j).val = i.val * m + j.val := by
  simp [flat, finProdFinEquiv]; ring

theorem divNat_flat (i : Fin n) (j : Fin m) : (flat i j).divNat = i := by
  have : finProdFinEquiv.symm (flat i j) = (i, j) := by simp [flat]
  exact congrArg Prod.fst this

theorem modNat_flat (i : Fin n) (j : Fin m) : (flat i j).modNat = j := by
  have : finProdFinEquiv.symm (flat i j) = (i, j) := by simp [flat]
  exact congrArg Prod.snd this

theorem flat_div_mod (k : Fin (n * m)) : flat k.divNat k.modNat = k :=
  finProdFinEquiv.apply_symm_apply k

theorem kronRow_flat (a : Fin n → F) (b : Fin m → F) (i : Fin n) (j : Fin m) :
    kronRow a b (flat i j) = a i * b j := by rw [kronRow, divNat_flat, modNat_flat]

theorem mem_rowSpan_kron (A : Rows F n) (B : Rows F m) (w : Fin (n * m) → F) :
    w ∈ rowSpan (kron A B) ↔
      (∀ j, (fun i => w (flat i j)) ∈ rowSpan A) ∧ (∀ i, (fun j => w (flat i j)) ∈ rowSpan B) := by
  constructor
  · intro hw
    induction hw using Submodule.span_induction with
    | mem r hr =>
      obtain ⟨a, ha, hr⟩ := List.mem_flatMap.1 hr
      obtain ⟨b, hb, rfl⟩ := List.mem_map.1 hr
      constructor
      · intro j
        have : (fun i => kronRow a b (flat i j)) = b j • a := by
          funext i; rw [kronRow_flat]; simp [mul_comm]
        rw [this]; exact Submodule.smul_mem _ _ (subset_rowSpan ha)
      · intro i
        have : (fun j => kronRow a b (flat i j)) = a i • b := by
          funext j; rw [kronRow_flat]; simp
        rw [this]; exact Submodule.smul_mem _ _ (subset_rowSpan hb)
    | zero => exact ⟨fun _ => Submodule.zero_mem _, fun _ => Submodule.zero_mem _⟩
    | add x y _ _ hx hy =>
      exact ⟨fun j => Submodule.add_mem _ (hx.1 j) (hy.1 j),
        fun i => Submodule.add_mem _ (hx.2 i) (hy.2 i)⟩
    | smul c x _ hx =>
      exact ⟨fun j => Submodule.smul_mem _ c (hx.1 j), fun i => Submodule.smul_mem _ c (hx.2 i)⟩
  · rintro ⟨hA, hB⟩
    have hd := rrefPairs_isRREF A
    have hw : w = ((rrefPairs A).map fun q => kronRow q.2 (fun j => w (flat q.1 j))).sum := by
      funext k
      have hcol := hd.eq_combo (v := fun i => w (flat i k.modNat))
        (by rw [rowSpan_rrefPairs]; exact hA _)
      have := congrFun hcol k.divNat
      rw [combo_apply] at this
      simp only [flat_div_mod] at this
      rw [this, Pi.list_sum_apply, List.map_map]
      congr 1
      apply List.map_congr_left
      intro q _
      simp only [Function.comp, kronRow]
      ring
    rw [hw]
    apply list_sum_mem
    intro x hx
    obtain ⟨q, hq, rfl⟩ := List.mem_map.1 hx
    apply kronRow_mem _ (hB _)
    rw [← rowSpan_rrefPairs]
    exact subset_rowSpan (List.mem_map.2 ⟨q, hq, rfl⟩)

theorem rank_kron (A : Rows F n) (B : Rows F m) : rank (kron A B) = rank A * rank B := by
  have hA := rrefPairs_isRREF A
  have hB := rrefPairs_isRREF B
  set a := rrefPairs A with ha
  set b := rrefPairs B with hb
  have hspan : rowSpan (kron A B) = Submodule.span F (Set.range
      (fun p : Fin a.length × Fin b.length => kronRow (a.get p.1).2 (b.get p.2).2)) := by
    have : rowSpan (kron A B) = rowSpan (kron (a.map Prod.snd) (b.map Prod.snd)) :=
      le_antisymm (rowSpan_kron_le (rowSpan_rrefPairs A).ge (rowSpan_rrefPairs B).ge)
        (rowSpan_kron_le (rowSpan_rrefPairs A).le (rowSpan_rrefPairs B).le)
    rw [this, rowSpan]
    congr 1
    ext v
    simp only [kron, Set.mem_setOf_eq, List.mem_flatMap, List.mem_map, Set.mem_range]
    constructor
    · rintro ⟨_, ⟨x, hx, rfl⟩, _, ⟨y, hy, rfl⟩, rfl⟩
      obtain ⟨i, hi⟩ := List.get_of_mem hx
      obtain ⟨j, hj⟩ := List.get_of_mem hy
      exact ⟨(i, j), by simp only [hi, hj]⟩
    · rintro ⟨⟨i, j⟩, rfl⟩
      exact ⟨_, ⟨_, List.get_mem _ _, rfl⟩, _, ⟨_, List.get_mem _ _, rfl⟩, rfl⟩
  have hli : LinearIndependent F
      (fun p : Fin a.length × Fin b.length => kronRow (a.get p.1).2 (b.get p.2).2) := by
    rw [Fintype.linearIndependent_iff]
    intro g hg p
    have := congrFun hg (flat (a.get p.1).1 (b.get p.2).1)
    simp only [Finset.sum_apply, Pi.smul_apply, smul_eq_mul, Pi.zero_apply, kronRow_flat] at this
    rw [Finset.sum_eq_single p] at this
    · rw [hA.one _ (List.get_mem _ _), hB.one _ (List.get_mem _ _)] at this
      simpa using this
    · intro p' _ hne
      rw [hA.pivot_eq _ (List.get_mem _ _) _ (List.get_mem _ _),
        hB.pivot_eq _ (List.get_mem _ _) _ (List.get_mem _ _)]
      split_ifs with h1 h2
      · exfalso; apply hne
        exact Prod.ext (hA.nodup.injective_get h1) (hB.nodup.injective_get h2)
      all_goals simp
    · simp
  rw [← finrank_rowSpan, hspan, finrank_span_eq_card hli]
  simp [rank, ha, hb]

/-! ## Weights -/

theorem countNonzero_eq (v : Fin n → F) : countNonzero v = hammingNorm v := by
  unfold countNonzero hammingNorm
  rw [Finset.card_def]
  simp only [Finset.filter_val, Fin.univ_def, Multiset.filter_coe, Multiset.coe_card]

theorem pyMin_spec (l : List ℕ) (h : l ≠ []) : ∃ d, pyMin l = some d ∧ d ∈ l ∧ ∀ x ∈ l, d ≤ x := by
  cases l with
  | nil => exact absurd rfl h
  | cons x l =>
    refine ⟨_, rfl, ?_⟩
    clear h
    induction l generalizing x with
    | nil => simp
    | cons y l ih =>
      obtain ⟨h1, h2⟩ := ih (min x y)
      rw [List.foldl_cons]
      refine ⟨?_, ?_⟩
      · rcases List.mem_cons.1 h1 with h | h
        · rw [h]
          rcases le_total x y with h' | h'
          · simp [min_eq_left h']
          · simp [min_eq_right h']
        · simp [h]
      · intro z hz
        have h0 := h2 (min x y) (by simp)
        rcases List.mem_cons.1 hz with rfl | hz
        · exact h0.trans (min_le_left _ _)
        · rcases List.mem_cons.1 hz with rfl | hz
          · exact h0.trans (min_le_right _ _)
          · exact h2 z (by simp [hz])

end QLDPC
