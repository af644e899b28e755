import Verif.Lemmas.ProductRank
import Verif.Lemmas.RingArray
import Verif.Props.CSS
import Verif.Props.RingArray
import Verif.Spec.Matrix
import Mathlib.Data.Fintype.Perm
import Mathlib.Algebra.Group.TypeTags.Finite

/-!
# C45, C46, C48, C49: two-block codes, (subsystem) hypergraph product codes, lifted product codes
-/

namespace QLDPC.Props

open QLDPC QLDPC.Spec Matrix

set_option linter.unusedSectionVars false

variable {F : Type} [Field F] [DecidableEq F] {n m : ℕ}

/-! ### C45 -/

theorem vecMat_ofFn {B : Rows F n} (hB : B.length = m) (a : Fin m → F) (j : Fin n) :
    vecMat (List.ofFn a) B j = ∑ k : Fin m, a k * B[k.val] j := by
  rw [vecMat_eq_sum _ _ (by simp [hB])]
  subst hB
  simp [mul_comm]

/-- The matrix product of two square matrices. -/
def Commuting (A B : Rows F n) : Prop := ∀ i j : Fin n,
  ∑ k : Fin n, matEntry A i k * matEntry B k j = ∑ k : Fin n, matEntry B i k * matEntry A k j

theorem matEntry_fin {A : Rows F n} (i : ℕ) (hi : i < A.length) (j : Fin n) : matEntry A i j = A[i] j := by
  simp [matEntry, entryAt, hi]

theorem matEntry_sq {A : Rows F n} (hA : A.length = n) (i j : Fin n) :
    matEntry A i j = (A[i.val]'(by omega)) j := matEntry_fin _ _ _

theorem mulRows_eq_iff {A B : Rows F n} (hA : A.length = n) (hB : B.length = n) :
    mulRows A B = mulRows B A ↔ Commuting A B := by
  unfold mulRows Commuting
  constructor
  · intro h i j
    have h1 := congrArg (fun l => l[i.val]?) h
    simp only [List.getElem?_map] at h1
    rw [List.getElem?_eq_getElem (by rw [hA]; exact i.2), List.getElem?_eq_getElem (by rw [hB]; exact i.2)] at h1
    have h2 : vecMat (List.ofFn A[i.val]) B j = vecMat (List.ofFn B[i.val]) A j := congrFun (Option.some.inj h1) j
    rw [vecMat_ofFn hB, vecMat_ofFn hA] at h2
    simpa only [matEntry_sq hA, matEntry_sq hB] using h2
  · intro h
    apply List.ext_getElem (by simp [hA, hB])
    intro i h1 h2
    simp only [List.length_map] at h1 h2
    simp only [List.getElem_map]
    funext j
    have := h ⟨i, by omega⟩ j
    rw [vecMat_ofFn hB, vecMat_ofFn hA]
    simpa only [matEntry_fin i h1, matEntry_fin i h2, matEntry_sq hA, matEntry_sq hB] using this

/-- **C45**: `TBCode(A, B)` is accepted iff the matrices commute. -/
theorem C45_accepted {A B : Rows F n} (hA : A.length = n) (hB : B.length = n) :
    (tbCode true A B).isSome ↔ Commuting A B := by
  unfold tbCode
  rw [dif_pos ⟨hB, hA⟩]
  by_cases h : mulRows A B = mulRows B A
  · simp [h, (mulRows_eq_iff hA hB).1 h]
  · simp [h, mt (mulRows_eq_iff hA hB).2 h]

/-- C45: the blocks of the parity check matrices. -/
theorem C45_blocks {A B : Rows F n} {v : Bool} {mx mz : Rows F (n + n)} (h : tbCode v A B = some (mx, mz)) :
    mx.length = n ∧ mz.length = n ∧ ∀ i j : Fin n,
      matEntry mx i j = matEntry A i j ∧ matEntry mx i (n + j) = matEntry B i j ∧
      matEntry mz i j = matEntry B j i ∧ matEntry mz i (n + j) = - matEntry A j i := by
  unfold tbCode at h
  split at h
  · rename_i hl
    obtain ⟨hB, hA⟩ := hl
    split at h
    · cases h
    · obtain ⟨rfl, rfl⟩ := Prod.mk.inj (Option.some.inj h)
      refine ⟨by simp [hstack, hA, hB], by simp [hstack, transposeRows, negRows], fun i j => ?_⟩
      have hj : n + j.val < n + n := by omega
      have hj' : j.val < n + n := by omega
      have hiA : i.val < A.length := by omega
      have hiB : i.val < B.length := by omega
      have hjA : j.val < A.length := by omega
      have hjB : j.val < B.length := by omega
      refine ⟨?_, ?_, ?_, ?_⟩
      · rw [matEntry_fin i.val hiA]
        simp only [matEntry, hstack, entryAt]
        rw [List.getElem?_eq_getElem (by simp [hA, hB])]
        simp only [List.getElem_zipWith, Option.map_some, Option.getD_some, hj', dite_true]
        exact Fin.append_left _ _ j
      · rw [matEntry_fin i.val hiB]
        simp only [matEntry, hstack, entryAt]
        rw [List.getElem?_eq_getElem (by simp [hA, hB])]
        simp only [List.getElem_zipWith, Option.map_some, Option.getD_some, hj, dite_true]
        exact Fin.append_right _ _ j
      · rw [matEntry_fin j.val hjB]
        simp only [matEntry, hstack, entryAt, transposeRows, negRows]
        rw [List.getElem?_eq_getElem (by simp)]
        simp only [List.getElem_zipWith, List.getElem_map, Option.map_some, Option.getD_some, hj', dite_true,
          List.getElem_finRange]
        exact Fin.append_left (m := B.length) _ _ ⟨j.val, hjB⟩
      · rw [matEntry_fin j.val hjA]
        simp only [matEntry, hstack, entryAt, transposeRows, negRows]
        rw [List.getElem?_eq_getElem (by simp)]
        simp only [List.getElem_zipWith, List.getElem_map, Option.map_some, Option.getD_some, hj, dite_true,
          List.getElem_finRange]
        have : Fin.cast (by rw [hA, hB]) (⟨n + j.val, hj⟩ : Fin (n + n)) =
          Fin.natAdd B.length (⟨j.val, hjA⟩ : Fin A.length) := by
            apply Fin.ext; simp [hB]
        rw [this, Fin.append_right]
        rfl
  · cases h

/-- **C45**: whether or not the matrices are validated, the X and Z checks commute iff the matrices do; with
validation they always do. -/
theorem C45_checks_commute {A B : Rows F n} {v : Bool} {mx mz : Rows F (n + n)} (h : tbCode v A B = some (mx, mz)) :
    ((∀ x ∈ mx, ∀ z ∈ mz, ∑ q, x q * z q = 0) ↔ Commuting A B) ∧ (v = true → ∀ x ∈ mx, ∀ z ∈ mz, ∑ q, x q * z q = 0) := by
  obtain ⟨hx, hz, hb⟩ := C45_blocks h
  have hAB : A.length = n ∧ B.length = n := by
    unfold tbCode at h
    split at h
    · rename_i hl; exact ⟨hl.2, hl.1⟩
    · cases h
  have key : ∀ (i j : Fin n), ∑ q, (mx[i.val]'(by omega)) q * (mz[j.val]'(by omega)) q =
      ∑ k : Fin n, matEntry A i k * matEntry B k j - ∑ k : Fin n, matEntry B i k * matEntry A k j := by
    intro i j
    rw [Fin.sum_univ_add, ← Finset.sum_sub_distrib, ← Finset.sum_add_distrib]
    refine Finset.sum_congr rfl fun k _ => ?_
    have e1 := matEntry_fin (A := mx) i.val (by omega) (Fin.castAdd n k)
    have e2 := matEntry_fin (A := mx) i.val (by omega) (Fin.natAdd n k)
    have e3 := matEntry_fin (A := mz) j.val (by omega) (Fin.castAdd n k)
    have e4 := matEntry_fin (A := mz) j.val (by omega) (Fin.natAdd n k)
    rw [← e1, ← e2, ← e3, ← e4]
    simp only [Fin.val_castAdd, Fin.val_natAdd]
    rw [(hb i k).1, (hb i k).2.1, (hb j k).2.2.1, (hb j k).2.2.2]
    ring
  have h1 : (∀ x ∈ mx, ∀ z ∈ mz, ∑ q, x q * z q = 0) ↔ Commuting A B := by
    constructor
    · intro hc i j
      have := hc _ (List.getElem_mem (n := i.val) (by omega)) _ (List.getElem_mem (n := j.val) (by omega))
      rw [key] at this
      exact sub_eq_zero.1 this
    · intro hc x hx' z hz'
      obtain ⟨i, hi, rfl⟩ := List.getElem_of_mem hx'
      obtain ⟨j, hj, rfl⟩ := List.getElem_of_mem hz'
      rw [key ⟨i, by omega⟩ ⟨j, by omega⟩]
      exact sub_eq_zero.2 (hc ⟨i, by omega⟩ ⟨j, by omega⟩)
  refine ⟨h1, fun hv => h1.2 ?_⟩
  subst hv
  rw [← C45_accepted hAB.1 hAB.2, h]
  rfl

example : (tbCode true ([![0, 1, 0], ![0, 0, 1], ![1, 0, 0]] : Rows (ZMod 3) 3)
    [![1, 0, 2], ![2, 1, 0], ![0, 2, 1]]).isSome ∧
    tbCode true ([![0, 1], ![0, 0]] : Rows (ZMod 3) 2) [![0, 0], ![1, 0]] = none ∧
    (tbCode false ([![0, 1], ![0, 0]] : Rows (ZMod 3) 2) [![0, 0], ![1, 0]]).isSome := by decide +kernel

/-! ### C46 -/

theorem matEntry_of_getElem? {A : Rows F n} {i : ℕ} {r : Fin n → F} (h : A[i]? = some r) (j : Fin n) :
    matEntry A i j = r j := by
  simp [matEntry, entryAt, h]

/-- **C46**: the entries of the X-type parity check matrix `[H1 ⊗ I, I ⊗ H2ᵀ]`. -/
theorem C46_matrix_x (A : Rows F n) (B : Rows F m) : (hgpX id A B).length = A.length * m ∧
    ∀ i j, i < A.length → j < m →
      (∀ p q, p < n → q < m → matEntry (hgpX id A B) (i * m + j) (p * m + q) =
        if j = q then matEntry A i p else 0) ∧
      (∀ k l, k < A.length → l < B.length →
        matEntry (hgpX id A B) (i * m + j) (n * m + (k * B.length + l)) = if i = k then matEntry B l j else 0) := by
  refine ⟨by rw [hgpX_eq, length_flatMap_map]; simp, fun i j hi hj => ?_⟩
  have hrow : (hgpX id A B)[i * m + j]? = some (hgpRowX id A B ⟨i, hi⟩ ⟨j, hj⟩) := by
    have := getElem?_flatMap_map (hgpRowX id A B) (List.finRange A.length) (List.finRange m) i j (by simpa using hj)
    rw [hgpX_eq]
    simp only [List.length_finRange] at this
    rw [this]
    simp [hi]
  constructor
  · intro p q hp hq
    have e := matEntry_of_getElem? hrow (Fin.castAdd _ (flat ⟨p, hp⟩ ⟨q, hq⟩))
    rw [Fin.val_castAdd, flat_val] at e
    rw [e, hgpRowX, Fin.append_left, kronRow_flat, matEntry_fin i hi ⟨p, hp⟩]
    simp only [unitRow, Fin.mk.injEq, List.get_eq_getElem, eq_comm (a := q)]
    split_ifs <;> simp
  · intro k l hk hl
    have e := matEntry_of_getElem? hrow (Fin.natAdd _ (flat ⟨k, hk⟩ ⟨l, hl⟩))
    rw [Fin.val_natAdd, flat_val] at e
    rw [e, hgpRowX, Fin.append_right, kronRow_flat, matEntry_fin l hl ⟨j, hj⟩]
    simp only [unitRow, Fin.mk.injEq, List.get_eq_getElem, eq_comm (a := k), id]
    split_ifs <;> simp

/-- **C46**: the entries of the Z-type parity check matrix `[-I ⊗ H2, H1ᵀ ⊗ I]`. -/
theorem C46_matrix_z (A : Rows F n) (B : Rows F m) : (hgpZ id A B).length = n * B.length ∧
    ∀ k l, k < n → l < B.length →
      (∀ p q, p < n → q < m → matEntry (hgpZ id A B) (k * B.length + l) (p * m + q) =
        if k = p then - matEntry B l q else 0) ∧
      (∀ i j, i < A.length → j < B.length →
        matEntry (hgpZ id A B) (k * B.length + l) (n * m + (i * B.length + j)) = if l = j then matEntry A i k else 0) := by
  refine ⟨by rw [hgpZ_eq, length_flatMap_map]; simp, fun k l hk hl => ?_⟩
  have hrow : (hgpZ id A B)[k * B.length + l]? = some (hgpRowZ id A B ⟨k, hk⟩ ⟨l, hl⟩) := by
    have := getElem?_flatMap_map (hgpRowZ id A B) (List.finRange n) (List.finRange B.length) k l (by simpa using hl)
    rw [hgpZ_eq]
    simp only [List.length_finRange] at this
    rw [this]
    simp [hk]
  constructor
  · intro p q hp hq
    have e := matEntry_of_getElem? hrow (Fin.castAdd _ (flat ⟨p, hp⟩ ⟨q, hq⟩))
    rw [Fin.val_castAdd, flat_val] at e
    rw [e, hgpRowZ, Fin.append_left, kronRow_flat, matEntry_fin l hl ⟨q, hq⟩]
    simp only [unitRow, Fin.mk.injEq, List.get_eq_getElem, eq_comm (a := p)]
    split_ifs <;> simp
  · intro i j hi hj
    have e := matEntry_of_getElem? hrow (Fin.natAdd _ (flat ⟨i, hi⟩ ⟨j, hj⟩))
    rw [Fin.val_natAdd, flat_val] at e
    rw [e, hgpRowZ, Fin.append_right, kronRow_flat, matEntry_fin i hi ⟨k, hk⟩]
    simp only [unitRow, Fin.mk.injEq, List.get_eq_getElem, eq_comm (a := j), id]
    split_ifs <;> simp

/-- **C46**: the X-type and Z-type checks commute. -/
theorem C46_checks_commute (A : Rows F n) (B : Rows F m) :
    ∀ x ∈ hgpX id A B, ∀ z ∈ hgpZ id A B, ∑ q, x q * z q = 0 :=
  (hgp_commute (star := id) rfl rfl (fun _ => rfl) (fun x y => mul_comm x y) (fun _ => rfl) A B).2
    fun _ _ _ _ _ _ => mul_comm _ _

theorem mem_kron {R : Type} [Mul R] {A : Rows R n} {B : Rows R m} {r} :
    r ∈ kron A B ↔ ∃ a ∈ A, ∃ b ∈ B, kronRow a b = r := by simp [kron]

theorem dot_hgpRowZ (A : Rows F n) (B : Rows F m) (k : Fin n) (l : Fin B.length) (u : Fin n → F) (v : Fin m → F) :
    dot (hgpRowZ id A B k l) (Fin.append (kronRow u v) 0) = - (u k * dot (B.get l) v) := by
  rw [hgpRowZ, dot_append, dot_zero_right, add_zero]
  have : dot (fun p => - kronRow (unitRow F k) (B.get l) p) (kronRow u v) =
      - dot (kronRow (unitRow F k) (B.get l)) (kronRow u v) := by
    unfold dot; simp
  rw [this, dot_kronRow, dot_unitRow]

/-- The canonical logical operators, for generator matrices with independent rows. -/
theorem hgp_logicals (a : CCode F n) (b : CCode F m)
    (ha : rowSpan a.generator = kernel a.matrix) (hb : rowSpan b.generator = kernel b.matrix)
    (ia : LinearIndependent F fun i => a.generator.get i) (ib : LinearIndependent F fun i => b.generator.get i) :
    IsCssLogicalBasis (hgpX id a.matrix b.matrix) (hgpZ id a.matrix b.matrix) (hgpLogicals a b).1 (hgpLogicals a b).2 ∧
      (hgpLogicals a b).1.length = codeDim a.matrix * codeDim b.matrix +
        codeDim (transposeRows id a.matrix) * codeDim (transposeRows id b.matrix) := by
  have ea := rowReduce_eq_rref ia
  have eb := rowReduce_eq_rref ib
  have hn : ∀ {k : ℕ} (M : Rows F k), nullSpace M = (rrefPairs (kernelBasis M)).map Prod.snd := by
    intro k M
    rfl
  have eaT := hn (transposeRows id a.matrix)
  have ebT := hn (transposeRows id b.matrix)
  have pa := paired_pivotRows (rrefPairs_isRREF a.generator)
  have pb := paired_pivotRows (rrefPairs_isRREF b.generator)
  have paT := paired_pivotRows (rrefPairs_isRREF (kernelBasis (transposeRows id a.matrix)))
  have pbT := paired_pivotRows (rrefPairs_isRREF (kernelBasis (transposeRows id b.matrix)))
  rw [← ea] at pa
  rw [← eb] at pb
  rw [← eaT] at paT
  rw [← ebT] at pbT
  have hP : Paired (hgpLogicals a b).1 (hgpLogicals a b).2 :=
    (pa.kron pb.symm).blockDiag2 (paT.symm.kron pbT)
  have ka : ∀ g ∈ rowReduce a.generator, ∀ r ∈ a.matrix, dot r g = 0 := fun g hg => by
    have : g ∈ rowSpan (rowReduce a.generator) := subset_rowSpan hg
    rw [rowSpan_rowReduce, ha] at this; exact this
  have kb : ∀ g ∈ rowReduce b.generator, ∀ r ∈ b.matrix, dot r g = 0 := fun g hg => by
    have : g ∈ rowSpan (rowReduce b.generator) := subset_rowSpan hg
    rw [rowSpan_rowReduce, hb] at this; exact this
  have kaT : ∀ g ∈ nullSpace (transposeRows id a.matrix), ∀ p, dot (fun i => a.matrix.get i p) g = 0 := fun g hg p => by
    have : g ∈ rowSpan (nullSpace (transposeRows id a.matrix)) := subset_rowSpan hg
    rw [rowSpan_nullSpace] at this
    exact this _ (List.mem_map.2 ⟨p, List.mem_finRange p, rfl⟩)
  have kbT : ∀ g ∈ nullSpace (transposeRows id b.matrix), ∀ p, dot (fun i => b.matrix.get i p) g = 0 := fun g hg p => by
    have : g ∈ rowSpan (nullSpace (transposeRows id b.matrix)) := subset_rowSpan hg
    rw [rowSpan_nullSpace] at this
    exact this _ (List.mem_map.2 ⟨p, List.mem_finRange p, rfl⟩)
  refine ⟨⟨hP.1, fun x hx z hz => ?_, fun z hz x hx => ?_, hP.2⟩, ?_⟩
  · obtain ⟨k, l, rfl⟩ := (mem_hgpZ id _ _ _).1 hz
    show dot _ _ = 0
    rcases List.mem_append.1 hx with hx | hx <;> obtain ⟨y, hy, rfl⟩ := List.mem_map.1 hx <;>
      obtain ⟨u, hu, v, hv, rfl⟩ := mem_kron.1 hy
    · rw [dot_hgpRowZ, kb v hv _ (List.get_mem _ _), mul_zero, neg_zero]
    · rw [hgpRowZ, dot_append, dot_zero_right, zero_add, dot_kronRow]
      have := kaT u hu k
      simp only [id]
      rw [this, zero_mul]
  · obtain ⟨i, j, rfl⟩ := (mem_hgpX id _ _ _).1 hx
    show dot _ _ = 0
    rcases List.mem_append.1 hz with hz | hz <;> obtain ⟨y, hy, rfl⟩ := List.mem_map.1 hz <;>
      obtain ⟨u, hu, v, hv, rfl⟩ := mem_kron.1 hy
    · rw [hgpRowX, dot_append, dot_zero_right, add_zero, dot_kronRow, ka u hu _ (List.get_mem _ _), zero_mul]
    · rw [hgpRowX, dot_append, dot_zero_right, zero_add, dot_kronRow]
      have := kbT v hv j
      simp only [id]
      rw [this, mul_zero]
  · have la : (rowReduce a.generator).length = codeDim a.matrix := by
      rw [codeDim_eq, ← ha, finrank_rowSpan, ea, List.length_map]; rfl
    have lb : (rowReduce b.generator).length = codeDim b.matrix := by
      rw [codeDim_eq, ← hb, finrank_rowSpan, eb, List.length_map]; rfl
    have laT : ∀ {k : ℕ} (M : Rows F k), (nullSpace M).length = codeDim M := fun M => by
      have := length_nullSpace M
      have := codeDim_add_rank M
      omega
    unfold hgpLogicals blockDiag2
    simp only [List.length_append, List.length_map, kron, length_flatMap_map]
    rw [pa.1, pbT.1, la, lb, laT, laT]

theorem hgp_count {ka kb kat kbt ra rb rx rz n m ma mb : ℕ} (d1 : ka + ra = n) (d2 : kb + rb = m) (d3 : kat + ra = ma)
    (d4 : kbt + rb = mb) (r1 : rx + kat * kb = ma * m) (r2 : rz + ka * kbt = n * mb) :
    ka * kb + kat * kbt + rx + rz = n * m + ma * mb := by
  subst d1 d2 d3 d4
  zify at r1 r2 ⊢
  linear_combination r1 + r2

/-- **C46**: the canonical logical operators of a hypergraph product satisfy the checks of the opposite type and are
paired by the identity; their number is `k_A k_B + k_Aᵀ k_Bᵀ = n - rank_x - rank_z` (the latter in the form
`k + n = (n - rank_x) + (n - rank_z)`), which is what `dimension` returns without known logical operators. -/
theorem C46_logicals (A : Rows F n) (B : Rows F m) :
    let hx := hgpX id A B
    let hz := hgpZ id A B
    let L := hgpLogicals (CCode.ofMatrix A) (CCode.ofMatrix B)
    IsCssLogicalBasis hx hz L.1 L.2 ∧
      L.1.length = codeDim A * codeDim B + codeDim (transposeRows id A) * codeDim (transposeRows id B) ∧
      L.1.length + (n * m + A.length * B.length) = codeDim hx + codeDim hz ∧ L.1.length = cssDimension hx hz false := by
  intro hx hz L
  obtain ⟨h1, h2⟩ := hgp_logicals (CCode.ofMatrix A) (CCode.ofMatrix B) (rowSpan_nullSpace A) (rowSpan_nullSpace B)
    (linearIndependent_nullSpace A) (linearIndependent_nullSpace B)
  have d1 := codeDim_add_rank A
  have d2 := codeDim_add_rank B
  have d3 := codeDim_add_rank (transposeRows id A)
  have d4 := codeDim_add_rank (transposeRows id B)
  have d5 := codeDim_add_rank hx
  have d6 := codeDim_add_rank hz
  have r1 := rank_hgpX A B
  have r2 := rank_hgpZ A B
  rw [rank_transposeRows] at d3 d4
  have h2' : L.1.length = codeDim A * codeDim B + codeDim (transposeRows id A) * codeDim (transposeRows id B) := h2
  have key : L.1.length + rank hx + rank hz = n * m + A.length * B.length := by
    rw [h2']
    have r1' : rank hx + codeDim (transposeRows id A) * codeDim B = A.length * m := by
      have e1 : A.length - rank A = codeDim (transposeRows id A) := by omega
      have e2 : m - rank B = codeDim B := by omega
      rw [← r1, e1, e2]
    have r2' : rank hz + codeDim A * codeDim (transposeRows id B) = n * B.length := by
      have e1 : B.length - rank B = codeDim (transposeRows id B) := by omega
      have e2 : n - rank A = codeDim A := by omega
      rw [← r2, e1, e2]
    exact hgp_count d1 d2 d3 d4 r1' r2'
  refine ⟨h1, h2, by omega, ?_⟩
  simp only [cssDimension, length_dropZero_rowReduce, Bool.false_eq_true, if_false]
  omega

theorem complete_of_basis {N : ℕ} {hx hz LX LZ : Rows F N} (hc : ∀ x ∈ hx, ∀ z ∈ hz, ∑ q, x q * z q = 0)
    (h2 : IsCssLogicalBasis hx hz LX LZ) (hdim : LX.length + N = codeDim hx + codeDim hz) :
    (∀ v, IsWord hz v ↔ IsCombination (hx ++ LX) v) ∧ (∀ v, IsWord hx v ↔ IsCombination (hz ++ LZ) v) := by
  have hp : ∀ (i j : ℕ) (hi : i < LX.length) (hj : j < LZ.length),
      dot LX[i] LZ[j] = if i = j then 1 else 0 := h2.pair
  have fx := finrank_kernel hx
  have fz := finrank_kernel hz
  have gx := codeDim_add_rank hx
  have gz := codeDim_add_rank hz
  refine ⟨fun v => ?_, fun v => ?_⟩
  · rw [isCombination_append, isWord_iff, css_complete h2.len (K := kernel hz)]
    · rw [rowSpan_le]; intro x hx' z hz'; rw [dot_comm]; exact hc x hx' z hz'
    · exact h2.commX
    · intro s hs z hz'; exact dot_eq_zero_of_mem_rowSpan hs (h2.commZ z hz')
    · exact hp
    · rw [finrank_rowSpan]; omega
  · rw [isCombination_append, isWord_iff, css_complete h2.len.symm (K := kernel hx)]
    · rw [rowSpan_le]; intro z hz' x hx'; exact hc x hx' z hz'
    · exact h2.commZ
    · intro s hs z hz'; exact dot_eq_zero_of_mem_rowSpan hs (h2.commX z hz')
    · intro i j hi hj; rw [dot_comm, hp j i hj hi]; simp [eq_comm]
    · have := h2.len
      rw [finrank_rowSpan]; omega

/-- **C46**: the canonical logical operators are complete: an X-type operator satisfies all Z checks iff it is a
product of X checks and logical X operators; likewise for Z. -/
theorem C46_complete (A : Rows F n) (B : Rows F m) :
    let hx := hgpX id A B
    let hz := hgpZ id A B
    let L : Rows F (n * m + A.length * B.length) × Rows F (n * m + A.length * B.length) :=
      hgpLogicals (CCode.ofMatrix A) (CCode.ofMatrix B)
    (∀ v, IsWord hz v ↔ IsCombination (hx ++ L.1) v) ∧ (∀ v, IsWord hx v ↔ IsCombination (hz ++ L.2) v) := by
  obtain ⟨h2, -, hdim, -⟩ := C46_logicals A B
  exact complete_of_basis (C46_checks_commute A B) h2 hdim

/-- the logical operators of a small hypergraph product over three symbols -/
example : (hgpLogicals (CCode.ofMatrix ([![1, 2, 0], ![0, 1, 2]] : Rows (ZMod 3) 3))
    (CCode.ofMatrix [![1, 2], ![2, 1]])).1.length = 1 := by decide +kernel

/-- C46, disagreement: a code on which the user has set a generator matrix with redundant rows (which `set_generator`
accepts) yields logical operators that are not paired: there are more than the dimension of the code. -/
theorem C46_redundant_generator_disagreement : ∃ c : CCode (ZMod 2) 2,
    CCode.setGenerator (CCode.ofMatrix [![1, 1]]) [![1, 1], ![1, 1]] = .ok c ∧
      (hgpLogicals c c).1.length = 4 ∧ cssDimension (hgpX id c.matrix c.matrix) (hgpZ id c.matrix c.matrix) false = 1 ∧
      ¬ IsCssLogicalBasis (hgpX id c.matrix c.matrix) (hgpZ id c.matrix c.matrix) (hgpLogicals c c).1
        (hgpLogicals c c).2 := by
  refine ⟨{ matrix := [![1, 1]], gen? := some [![1, 1], ![1, 1]] },
    by unfold CCode.setGenerator; rw [if_neg (by decide +kernel), if_neg (by decide +kernel)]; rfl, by decide +kernel, by decide +kernel, fun h => ?_⟩
  have := h.pair 0 1 (by decide +kernel) (by decide +kernel)
  revert this
  decide +kernel

/-! ### C48 -/

theorem rowSpan_eyeRows : rowSpan (eyeRows F n) = ⊤ := by
  rw [eq_top_iff]
  intro v _
  have : v = ∑ i, v i • unitRow F i := by
    funext j; simp [unitRow]
  rw [this]
  exact Submodule.sum_mem _ fun i _ => Submodule.smul_mem _ _ (subset_rowSpan (List.mem_map.2 ⟨i, List.mem_finRange i, rfl⟩))

theorem rank_eyeRows : rank (eyeRows F n) = n := by
  rw [← finrank_rowSpan, rowSpan_eyeRows]; simp

theorem mem_rowSpan_shpX (A : Rows F n) (B : Rows F m) (w) :
    w ∈ rowSpan (shpX A B) ↔ ∀ j, (fun i => w (flat i j)) ∈ rowSpan A := by
  rw [shpX, mem_rowSpan_kron, rowSpan_eyeRows]; simp

theorem mem_rowSpan_shpZ (A : Rows F n) (B : Rows F m) (w) :
    w ∈ rowSpan (shpZ A B) ↔ ∀ i, (fun j => w (flat i j)) ∈ rowSpan B := by
  rw [shpZ, mem_rowSpan_kron, rowSpan_eyeRows]; simp

theorem mem_kernel_shpX (A : Rows F n) (B : Rows F m) (w) :
    w ∈ kernel (shpX A B) ↔ ∀ j, (fun i => w (flat i j)) ∈ kernel A := by
  have key : ∀ a : Fin n → F, ∀ j : Fin m, dot (kronRow a (unitRow F j)) w = dot a fun i => w (flat i j) := by
    intro a j
    unfold dot
    rw [sum_flat]
    refine Finset.sum_congr rfl fun i _ => ?_
    simp only [kronRow_flat, unitRow]
    rw [Finset.sum_eq_single j] <;> simp +contextual
  constructor
  · intro h j a ha
    rw [← key]
    exact h _ (mem_kron.2 ⟨a, ha, _, List.mem_map.2 ⟨j, List.mem_finRange j, rfl⟩, rfl⟩)
  · intro h r hr
    obtain ⟨a, ha, e, he, rfl⟩ := mem_kron.1 hr
    obtain ⟨j, -, rfl⟩ := List.mem_map.1 he
    exact (key a j).trans (h j a ha)

theorem mem_kernel_shpZ (A : Rows F n) (B : Rows F m) (w) :
    w ∈ kernel (shpZ A B) ↔ ∀ i, (fun j => w (flat i j)) ∈ kernel B := by
  have key : ∀ b : Fin m → F, ∀ i : Fin n, dot (kronRow (unitRow F i) b) w = dot b fun j => w (flat i j) := by
    intro b i
    unfold dot
    rw [sum_flat, Finset.sum_eq_single i]
    · refine Finset.sum_congr rfl fun j _ => ?_
      simp [kronRow_flat, unitRow]
    · intro p _ hp; exact Finset.sum_eq_zero fun j _ => by simp [kronRow_flat, unitRow, hp]
    · simp
  constructor
  · intro h i b hb
    rw [← key]
    exact h _ (mem_kron.2 ⟨_, List.mem_map.2 ⟨i, List.mem_finRange i, rfl⟩, b, hb, rfl⟩)
  · intro h r hr
    obtain ⟨e, he, b, hb, rfl⟩ := mem_kron.1 hr
    obtain ⟨i, -, rfl⟩ := List.mem_map.1 he
    exact (key b i).trans (h i b hb)

theorem rowSpan_negRows (A : Rows F n) : rowSpan (negRows A) = rowSpan A := by
  apply le_antisymm <;> rw [rowSpan_le]
  · intro r hr
    obtain ⟨a, ha, rfl⟩ := List.mem_map.1 hr
    exact Submodule.neg_mem _ (subset_rowSpan ha)
  · intro r hr
    rw [← neg_neg r]
    exact Submodule.neg_mem _ (subset_rowSpan (List.mem_map.2 ⟨r, hr, rfl⟩))

theorem rowSpan_shpStabs (a : CCode F n) (b : CCode F m)
    (ha : rowSpan a.generator = kernel a.matrix) (hb : rowSpan b.generator = kernel b.matrix) :
    rowSpan (shpStabs a b).1 = rowSpan (shpX a.matrix b.matrix) ⊓ kernel (shpZ a.matrix b.matrix) ∧
      rowSpan (shpStabs a b).2 = rowSpan (shpZ a.matrix b.matrix) ⊓ kernel (shpX a.matrix b.matrix) := by
  constructor <;> ext w
  · rw [Submodule.mem_inf, mem_rowSpan_shpX, mem_kernel_shpZ, shpStabs, mem_rowSpan_kron, hb]
  · rw [Submodule.mem_inf, mem_rowSpan_shpZ, mem_kernel_shpX, shpStabs, mem_rowSpan_kron, rowSpan_negRows, ha, and_comm]

/-- **C48**: the stored X-type stabilizers generate exactly the products of X-type gauge generators that commute with
all Z-type gauge generators, and likewise for Z, for any generator matrices that generate the two codes. -/
theorem C48_stabilizers (a : CCode F n) (b : CCode F m)
    (ha : ∀ w, IsCombination a.generator w ↔ IsWord a.matrix w)
    (hb : ∀ w, IsCombination b.generator w ↔ IsWord b.matrix w) :
    (∀ v, IsCombination (shpStabs a b).1 v ↔ IsStabX (shpX a.matrix b.matrix) (shpZ a.matrix b.matrix) v) ∧
      (∀ v, IsCombination (shpStabs a b).2 v ↔ IsStabX (shpZ a.matrix b.matrix) (shpX a.matrix b.matrix) v) := by
  have h := rowSpan_shpStabs a b
    (by ext w; rw [← isCombination_iff, ha, isWord_iff]) (by ext w; rw [← isCombination_iff, hb, isWord_iff])
  constructor <;> intro v <;> rw [isCombination_iff, IsStabX, isCombination_iff, isWord_iff]
  · rw [h.1]; rfl
  · rw [h.2]; rfl

/-- C48: the generator matrix of a code given by its parity checks satisfies the hypotheses of `C48_stabilizers`. -/
theorem C48_generator (A : Rows F n) (w : Fin n → F) :
    IsCombination (CCode.ofMatrix A).generator w ↔ IsWord (CCode.ofMatrix A).matrix w := by
  rw [isCombination_iff, isWord_iff]
  show w ∈ rowSpan (nullSpace A) ↔ w ∈ kernel A
  rw [rowSpan_nullSpace]

/-- **C48**: the canonical logical operators commute with all gauge generators of the other type and are paired by the
identity matrix; there are `k_A k_B` of them, and that is the dimension of the subsystem code. -/
theorem C48_logicals (A : Rows F n) (B : Rows F m) :
    let L := shpLogicals (CCode.ofMatrix A) (CCode.ofMatrix B)
    IsCssLogicalBasis (shpX A B) (shpZ A B) L.1 L.2 ∧ L.1.length = codeDim A * codeDim B ∧
      cssDimension (shpX A B) (shpZ A B) true = codeDim A * codeDim B := by
  intro L
  have ea : rowReduce (nullSpace A) = _ := rowReduce_eq_rref (linearIndependent_nullSpace A)
  have eb : rowReduce (nullSpace B) = _ := rowReduce_eq_rref (linearIndependent_nullSpace B)
  have pa := paired_pivotRows (rrefPairs_isRREF (nullSpace A))
  have pb := paired_pivotRows (rrefPairs_isRREF (nullSpace B))
  rw [← ea] at pa
  rw [← eb] at pb
  have hP : Paired L.1 L.2 := pa.kron pb.symm
  have ka : ∀ g ∈ rowReduce (nullSpace A), ∀ r ∈ A, dot r g = 0 := fun g hg => by
    have : g ∈ rowSpan (rowReduce (nullSpace A)) := subset_rowSpan hg
    rw [rowSpan_rowReduce, rowSpan_nullSpace] at this; exact this
  have kb : ∀ g ∈ rowReduce (nullSpace B), ∀ r ∈ B, dot r g = 0 := fun g hg => by
    have : g ∈ rowSpan (rowReduce (nullSpace B)) := subset_rowSpan hg
    rw [rowSpan_rowReduce, rowSpan_nullSpace] at this; exact this
  have ln : ∀ {k : ℕ} (M : Rows F k), (rowReduce (nullSpace M)).length = codeDim M := fun M => by
    have := length_nullSpace M
    have := codeDim_add_rank M
    rw [length_rowReduce]
    omega
  refine ⟨⟨hP.1, fun x hx z hz => ?_, fun z hz x hx => ?_, hP.2⟩, ?_, ?_⟩
  · obtain ⟨u, hu, v, hv, rfl⟩ := mem_kron.1 hx
    obtain ⟨e, he, b, hb, rfl⟩ := mem_kron.1 hz
    show dot _ _ = 0
    rw [dot_kronRow, kb v hv b hb, mul_zero]
  · obtain ⟨u, hu, v, hv, rfl⟩ := mem_kron.1 hz
    obtain ⟨a, ha, e, he, rfl⟩ := mem_kron.1 hx
    show dot _ _ = 0
    rw [dot_kronRow, ka u hu a ha, zero_mul]
  · show (kron (pivotRows (rowReduce (nullSpace A))) (rowReduce (nullSpace B))).length = _
    rw [kron, length_flatMap_map, pa.1]
    exact congrArg₂ _ (ln A) (ln B)
  · have rx : rank (shpX A B) = rank A * m := by rw [shpX, rank_kron, rank_eyeRows]
    have rz : rank (shpZ A B) = n * rank B := by rw [shpZ, rank_kron, rank_eyeRows]
    have hs := rowSpan_shpStabs (CCode.ofMatrix A) (CCode.ofMatrix B) (rowSpan_nullSpace A) (rowSpan_nullSpace B)
    have hn : ∀ {k : ℕ} (M : Rows F k), rank (nullSpace M) = codeDim M := by
      intro k M
      rw [← finrank_rowSpan, rowSpan_nullSpace, codeDim_eq]
    have sx : (cssStabs (shpX A B) (shpZ A B)).length = rank A * codeDim B := by
      rw [length_cssStabs, ← finrank_rowSpan, rowSpan_cssStabs]
      have h1 := hs.1
      simp only [CCode.ofMatrix] at h1
      rw [← h1, finrank_rowSpan]
      show rank (kron A (nullSpace B)) = _
      rw [rank_kron, hn]
    have sz : (cssStabs (shpZ A B) (shpX A B)).length = codeDim A * rank B := by
      rw [length_cssStabs, ← finrank_rowSpan, rowSpan_cssStabs]
      have h1 := hs.2
      simp only [CCode.ofMatrix] at h1
      rw [← h1, finrank_rowSpan]
      show rank (kron (negRows (nullSpace A)) B) = _
      rw [rank_kron, rank_eq_of_rowSpan_eq (rowSpan_negRows _), hn]
    simp only [cssDimension, length_dropZero_rowReduce, if_true, rx, rz, sx, sz]
    have d1 := codeDim_add_rank A
    have d2 := codeDim_add_rank B
    generalize codeDim A = x at *
    generalize codeDim B = y at *
    generalize rank A = ra at *
    generalize rank B = rb at *
    subst d1 d2
    have : ra * (y + rb) + (x + ra) * rb + (ra * y + x * rb) = 2 * (ra * y + x * rb + ra * rb) := by ring
    rw [this, Nat.mul_div_cancel_left _ (by norm_num)]
    have : (x + ra) * (y + rb) = x * y + (ra * y + x * rb + ra * rb) := by ring
    omega

/-- C48: the entries of the gauge generators `H1 ⊗ I` and `I ⊗ H2`. -/
theorem C48_matrices (A : Rows F n) (B : Rows F m) : (shpX A B).length = A.length * m ∧ (shpZ A B).length = n * B.length ∧
    (∀ i j p q, i < A.length → j < m → p < n → q < m →
      matEntry (shpX A B) (i * m + j) (p * m + q) = if j = q then matEntry A i p else 0) ∧
    (∀ k l p q, k < n → l < B.length → p < n → q < m →
      matEntry (shpZ A B) (k * B.length + l) (p * m + q) = if k = p then matEntry B l q else 0) := by
  refine ⟨by rw [shpX, kron, length_flatMap_map]; simp [eyeRows], by rw [shpZ, kron, length_flatMap_map]; simp [eyeRows],
    fun i j p q hi hj hp hq => ?_, fun k l p q hk hl hp hq => ?_⟩
  · have hrow : (shpX A B)[i * m + j]? = some (kronRow A[i] (unitRow F ⟨j, hj⟩)) := by
      have := getElem?_flatMap_map (fun a b => kronRow a b) A (eyeRows F m) i j (by simpa [eyeRows] using hj)
      have he : (eyeRows F m).length = m := by simp [eyeRows]
      simp only [he] at this
      rw [shpX, kron, this]
      simp [hi, eyeRows_eq]
    have e := matEntry_of_getElem? hrow (flat ⟨p, hp⟩ ⟨q, hq⟩)
    rw [flat_val] at e
    rw [e, kronRow_flat, matEntry_fin i hi ⟨p, hp⟩]
    simp only [unitRow, Fin.mk.injEq, eq_comm (a := q)]
    split_ifs <;> simp
  · have hrow : (shpZ A B)[k * B.length + l]? = some (kronRow (unitRow F ⟨k, hk⟩) B[l]) := by
      have := getElem?_flatMap_map (fun a b => kronRow a b) (eyeRows F n) B k l hl
      rw [shpZ, kron, this]
      simp [hk, eyeRows_eq]
    have e := matEntry_of_getElem? hrow (flat ⟨p, hp⟩ ⟨q, hq⟩)
    rw [flat_val] at e
    rw [e, kronRow_flat, matEntry_fin l hl ⟨q, hq⟩]
    simp only [unitRow, Fin.mk.injEq, eq_comm (a := p)]
    split_ifs <;> simp

example : (shpLogicals (CCode.ofMatrix ([![1, 2, 0]] : Rows (ZMod 3) 3)) (CCode.ofMatrix [![1, 1, 1]])).1.length = 4 := by
  decide +kernel

/-! ### C49 -/

section C49

variable {G : Type} [Group G] [DecidableEq G] [Fintype G] {d : ℕ}

/-- **C49**: for a faithful lift `Λ` (a representation of the group algebra that turns transposes into transposes, such
as the regular one), the lifted X-type and Z-type checks of `LPCode(A, B)` commute iff every entry of `A` commutes with
every transposed entry of `B`; the "if" needs no faithfulness. -/
theorem C49_iff {Λ : GAlg F G → Matrix (Fin d) (Fin d) F} (hadd : ∀ x y, Λ (x + y) = Λ x + Λ y)
    (h0 : Λ 0 = 0) (hmul : ∀ x y, Λ (x * y) = Λ x * Λ y) (ht : ∀ x, Λ x.transpose = (Λ x)ᵀ)
    (A : Rows (GAlg F G) n) (B : Rows (GAlg F G) m) :
    ((∀ a ∈ A, ∀ b ∈ B, ∀ i j, a i * (b j).transpose = (b j).transpose * a i) →
      (lpCode GAlg.transpose Λ A B).1 * (lpCode GAlg.transpose Λ A B).2.transpose = 0) ∧
    (Function.Injective Λ → (lpCode GAlg.transpose Λ A B).1 * (lpCode GAlg.transpose Λ A B).2.transpose = 0 →
      ∀ a ∈ A, ∀ b ∈ B, ∀ i j, a i * (b j).transpose = (b j).transpose * a i) := by
  have hc := hgp_commute (star := GAlg.transpose) (by rfl) (by ext g; simp) (fun x => rfl) GAlg.transpose_mul
      (fun x => by ext g; simp) A B
  unfold lpCode
  simp only
  rw [← C36_array_transpose ht, ← C36_array_mul hadd h0 hmul, ← hc]
  constructor
  · intro h
    have h2 : asMatrix (hgpX GAlg.transpose A B) * arrayTranspose (asMatrix (hgpZ GAlg.transpose A B)) = 0 := by
      ext1 i j
      exact h _ (List.get_mem _ i) _ (List.get_mem _ j)
    rw [h2]
    ext a b
    simp [liftArray, h0]
  · intro hinj h x hx z hz
    obtain ⟨i, rfl⟩ := List.mem_iff_get.1 hx
    obtain ⟨j, rfl⟩ := List.mem_iff_get.1 hz
    apply hinj
    rw [h0]
    ext s t
    have := congrFun (congrFun h (flat i s)) (flat j t)
    simp only [liftArray, divNat_flat, modNat_flat] at this
    exact this

/-- **C49** (part), for abelian groups with the default lift, the regular representation: the X and Z checks commute.
Missing: nonabelian groups, for which the claim is false (`C49_nonabelian_disagreement`). -/
theorem C49_abelian_partial {members : List G} (hnd : members.Nodup) (hall : ∀ g, g ∈ members)
    (hab : ∀ g h : G, g * h = h * g) (A : Rows (GAlg F G) n) (B : Rows (GAlg F G) m) :
    (lpCode GAlg.transpose (galgLift members) A B).1 * (lpCode GAlg.transpose (galgLift members) A B).2.transpose = 0 := by
  obtain ⟨h1, h2, h3, h4⟩ := C36_array_regular (F := F) hnd hall
  refine (C49_iff h1 h2 h3 h4 A B).1 fun a _ b _ i j => ?_
  ext g
  rw [GAlg.coef_mul, GAlg.coef_mul]
  refine Fintype.sum_equiv ((Equiv.inv G).trans (Equiv.mulLeft g)) _ _ fun k => ?_
  simp only [Equiv.trans_apply, Equiv.inv_apply, Equiv.coe_mulLeft]
  rw [mul_comm, hab k⁻¹ g]
  congr 2
  group

/-- an enumeration of the symmetric group on three points -/
def s3Members : List (Equiv.Perm (Fin 3)) :=
  [1, Equiv.swap 0 1, Equiv.swap 1 2, Equiv.swap 0 2, Equiv.swap 0 1 * Equiv.swap 1 2, Equiv.swap 1 2 * Equiv.swap 0 1]

/-- C49, disagreement: over the group algebra of a nonabelian group `LPCode` accepts arrays whose lifted X and Z checks
do not commute. -/
theorem C49_nonabelian_disagreement : s3Members.Nodup ∧ (∀ g, g ∈ s3Members) ∧
    ∃ a b : GAlg (ZMod 2) (Equiv.Perm (Fin 3)),
      (lpCode GAlg.transpose (galgLift s3Members) [![a]] [![b]]).1 *
        (lpCode GAlg.transpose (galgLift s3Members) [![a]] [![b]]).2.transpose ≠ 0 := by
  have hnd : s3Members.Nodup := by decide +kernel
  have hall : ∀ g, g ∈ s3Members := by decide +kernel
  refine ⟨hnd, hall, GAlg.single (Equiv.swap 0 1), GAlg.single (Equiv.swap 1 2), fun h => ?_⟩
  obtain ⟨h1, h2, h3, h4⟩ := C36_array_regular (F := ZMod 2) hnd hall
  have hinj : Function.Injective (galgLift (F := ZMod 2) s3Members) := by
    intro x y hxy
    ext g
    obtain ⟨i, hi⟩ := List.mem_iff_get.1 (hall g)
    have := congrFun (congrFun hxy i) ⟨0, by decide⟩
    rw [galgLift_apply hnd hall, galgLift_apply hnd hall] at this
    have h0 : s3Members.get ⟨0, by decide⟩ = 1 := rfl
    rw [h0, hi] at this
    simpa using this
  have := (C49_iff h1 h2 h3 h4 _ _).2 hinj h _ (List.mem_singleton.2 rfl) _ (List.mem_singleton.2 rfl) 0 0
  have := congrArg (fun x => x.coef (Equiv.swap 0 1 * Equiv.swap 1 2)) this
  revert this
  decide +kernel

/-- the hypotheses of the abelian case hold for a cyclic group -/
example : ([1, Multiplicative.ofAdd 1, Multiplicative.ofAdd 2] : List (Multiplicative (ZMod 3))).Nodup ∧
    (∀ g : Multiplicative (ZMod 3), g ∈ ([1, Multiplicative.ofAdd 1, Multiplicative.ofAdd 2] : List _)) ∧
    (∀ g h : Multiplicative (ZMod 3), g * h = h * g) := by
  refine ⟨by decide, by decide, fun g h => mul_comm g h⟩

end C49

section Axioms

#print axioms C45_accepted
#print axioms C45_blocks
#print axioms C45_checks_commute
#print axioms C46_matrix_x
#print axioms C46_matrix_z
#print axioms C46_checks_commute
#print axioms C46_logicals
#print axioms C46_complete
#print axioms C46_redundant_generator_disagreement
#print axioms C48_stabilizers
#print axioms C48_generator
#print axioms C48_logicals
#print axioms C48_matrices
#print axioms C49_iff
#print axioms C49_abelian_partial
#print axioms C49_nonabelian_disagreement

end Axioms

/-! ### Instances of the theorems: concrete cases meet the hypotheses -/

private def shiftA : Rows (ZMod 3) 3 := [![0, 1, 0], ![0, 0, 1], ![1, 0, 0]]
private def shiftB : Rows (ZMod 3) 3 := [![1, 0, 2], ![2, 1, 0], ![0, 2, 1]]
example := C45_accepted (A := shiftA) (B := shiftB) rfl rfl
example : True := by
  obtain ⟨⟨x, z⟩, h⟩ := Option.isSome_iff_exists.1 (show (tbCode true shiftA shiftB).isSome = true by decide +kernel)
  have h1 := C45_blocks h
  have h2 := C45_checks_commute h
  trivial
example := C46_checks_commute shiftA shiftB _ (List.getElem_mem (show 1 < _ by decide +kernel)) _ (List.getElem_mem (show 2 < _ by decide +kernel))
example := C49_abelian_partial (F := ZMod 2) (members := ([1, Multiplicative.ofAdd 1, Multiplicative.ofAdd 2] : List (Multiplicative (ZMod 3))))
  (by decide) (by decide) (fun g h => mul_comm g h) [![1]] [![1, 0]]

private theorem generator_words : ∀ w : Fin 3 → ZMod 3, IsCombination (CCode.ofMatrix ([![1, 2, 0]] : Rows (ZMod 3) 3)).generator w ↔
    IsWord (CCode.ofMatrix ([![1, 2, 0]] : Rows (ZMod 3) 3)).matrix w := fun w => by
  rw [isCombination_iff, isWord_iff, CCode.genOk_of_fresh rfl]
example := C48_stabilizers _ _ generator_words generator_words

example := C49_iff (F := ZMod 2) (G := Multiplicative (ZMod 3)) (Λ := galgLift z3) (C36_array_regular (by decide) (by decide)).1
  (C36_array_regular (by decide) (by decide)).2.1 (C36_array_regular (by decide) (by decide)).2.2.1 (C36_array_regular (by decide) (by decide)).2.2.2 [![1]] [![1, 0]]

end QLDPC.Props
