import Verif.Model.StandardForm
import Verif.Lemmas.Symplectic
import Mathlib.Data.List.Sort
import Mathlib.Data.Fintype.EquivFin

/-!
# Lemmas about the standard form
-/

namespace QLDPC

open Spec

set_option linter.unusedSectionVars false

variable {F : Type} [Field F] [DecidableEq F] {n : ℕ}

theorem find?_finRange {n : ℕ} {p : Fin n → Bool} {j : Fin n} (hj : p j = true)
    (hlt : ∀ c, c < j → p c = false) : (List.finRange n).find? p = some j := by
  rw [List.find?_eq_some_iff_getElem]
  refine ⟨hj, j.val, by simp, by simp, ?_⟩
  intro i hi
  have hi' : i < n := lt_trans hi j.isLt
  have := hlt ⟨i, hi'⟩ hi
  simpa using this

theorem firstNonzeroCols_rref {n : ℕ} {d : List (Fin n × (Fin n → F))} (h : IsRREF d) :
    firstNonzeroCols (d.map Prod.snd) = d.map Prod.fst := by
  cases n with
  | zero =>
    cases d with
    | nil => rfl
    | cons q d => exact q.1.elim0
  | succ n =>
    simp only [firstNonzeroCols, List.map_map]
    apply List.map_congr_left
    intro q hq
    simp only [Function.comp_apply]
    rw [find?_finRange (j := q.1)]
    · rfl
    · simp [h.one q hq]
    · intro c hc; simp [h.left q hq c hc]

/-! ### Permutations -/

theorem moveToBack_perm {piv : List (Fin n)} (h : piv.Nodup) :
    (moveToBack piv).Perm (List.finRange n) := by
  unfold moveToBack
  have h1 := List.filter_append_perm (fun c => decide (c ∉ piv)) (List.finRange n)
  refine List.Perm.trans (List.Perm.append_left _ ?_) h1
  apply (List.perm_ext_iff_of_nodup h ((List.nodup_finRange n).filter _)).2
  intro a; simp

theorem getD_of_perm {l : List (Fin n)} (h : l.Perm (List.finRange n)) (j : Fin n) :
    l.getD j.val j = l[j.val]'(by rw [h.length_eq]; simp) := by
  have hlen : l.length = n := by rw [h.length_eq]; simp
  rw [List.getD_eq_getElem?_getD, List.getElem?_eq_getElem (by omega)]
  rfl

theorem getD_injective {l : List (Fin n)} (h : l.Perm (List.finRange n)) :
    Function.Injective fun j : Fin n => l.getD j.val j := by
  intro a b hab
  simp only [getD_of_perm h] at hab
  have hn : l.Nodup := h.nodup_iff.2 (List.nodup_finRange n)
  exact Fin.ext ((List.Nodup.getElem_inj_iff hn).1 hab)

/-- A permutation list as an equivalence. -/
noncomputable def permEquiv {l : List (Fin n)} (h : l.Perm (List.finRange n)) : Fin n ≃ Fin n :=
  Equiv.ofBijective _ (Finite.injective_iff_bijective.1 (getD_injective h))

theorem permEquiv_apply {l : List (Fin n)} (h : l.Perm (List.finRange n)) (j : Fin n) :
    permEquiv h j = l.getD j.val j := rfl

theorem takeAt_eq {α : Type} {l : List (Fin n)} (h : l.Perm (List.finRange n)) (v : Fin n → α) :
    takeAt l v = v ∘ permEquiv h := rfl

theorem argsort_perm (locs : Fin n → Fin n) : (argsort locs).Perm (List.finRange n) :=
  List.perm_insertionSort _ _

theorem argsort_spec {locs : Fin n → Fin n} (h : Function.Injective locs) (q : Fin n) :
    locs ((argsort locs).getD q.val q) = q := by
  have hs : (argsort locs).Pairwise fun a b => locs a ≤ locs b :=
    List.pairwise_insertionSort _ _
  have hp := argsort_perm locs
  have hmap : (argsort locs).map locs = List.finRange n := by
    have hnd : ((argsort locs).map locs).Nodup :=
      (hp.nodup_iff.2 (List.nodup_finRange n)).map h
    have hperm : ((argsort locs).map locs).Perm (List.finRange n) := by
      apply (List.perm_ext_iff_of_nodup hnd (List.nodup_finRange n)).2
      intro a
      obtain ⟨b, rfl⟩ := (Finite.injective_iff_surjective.1 h) a
      simp only [List.mem_finRange, iff_true]
      exact List.mem_map.2 ⟨b, hp.mem_iff.2 (List.mem_finRange b), rfl⟩
    apply hperm.eq_of_pairwise (le := (· ≤ ·))
    · intro a b _ _ hab hba; exact le_antisymm hab hba
    · rw [List.pairwise_map]; exact hs
    · exact (List.pairwise_le_finRange n)
  rw [getD_of_perm hp]
  have := List.getElem_map (l := argsort locs) (f := locs) (i := q.val)
    (h := by rw [List.length_map, hp.length_eq]; simp)
  rw [← this]
  simp [hmap]

/-- Sum over permuted entries. -/
theorem dot_takeAt {l : List (Fin n)} (h : l.Perm (List.finRange n)) (a b : Fin n → F) :
    dot (takeAt l a) (takeAt l b) = dot a b := by
  unfold dot
  rw [takeAt_eq h, takeAt_eq h]
  exact Equiv.sum_comp (permEquiv h) fun i => a i * b i

theorem dot_comp_argsort {locs : Fin n → Fin n} (h : Function.Injective locs) (a b : Fin n → F) :
    dot a (takeAt (argsort locs) b) = dot (a ∘ locs) b := by
  have hp := argsort_perm locs
  have : a = takeAt (argsort locs) (a ∘ locs) := by
    funext q
    simp only [takeAt, Function.comp_apply]
    rw [argsort_spec h]
  conv_lhs => rw [this]
  exact dot_takeAt hp _ _

/-! ### Assignments -/

theorem assign_of_notMem {cols : List (Fin n)} {vals : List F} {v : Fin n → F} {j : Fin n}
    (h : j ∉ cols) : assign cols vals v j = v j := by simp [assign, h]

theorem assign_getElem {cols : List (Fin n)} (hn : cols.Nodup) {vals : List F} {v : Fin n → F}
    {i : ℕ} (h : i < cols.length) : assign cols vals v cols[i] = vals.getD i 0 := by
  simp [assign, hn.idxOf_getElem i h]

/-- Product with an assigned vector: the old product plus the assigned entries. -/
theorem dot_assign {cols : List (Fin n)} (hn : cols.Nodup) (vals : List F) (r v : Fin n → F)
    (hv : ∀ c ∈ cols, v c = 0) :
    dot r (assign cols vals v) =
      dot r v + ∑ i : Fin cols.length, r cols[i] * vals.getD i 0 := by
  have hsplit : dot r (assign cols vals v) =
      dot r v + ∑ j, if j ∈ cols then r j * vals.getD (cols.idxOf j) 0 else 0 := by
    unfold dot
    rw [← Finset.sum_add_distrib]
    apply Finset.sum_congr rfl
    intro j _
    by_cases hj : j ∈ cols
    · simp [assign, hj, hv j hj]
    · simp [assign, hj]
  rw [hsplit]
  congr 1
  rw [← Finset.sum_filter]
  symm
  apply Finset.sum_bij (fun (i : Fin cols.length) _ => cols[i])
  · intro i _; simp
  · intro a _ b _ hab; exact Fin.ext ((List.Nodup.getElem_inj_iff hn).1 hab)
  · intro j hj
    have hj' : j ∈ cols := by simpa using hj
    obtain ⟨i, hi, rfl⟩ := List.mem_iff_getElem.1 hj'
    exact ⟨⟨i, hi⟩, Finset.mem_univ _, rfl⟩
  · intro i _
    simp only [Fin.getElem_fin]
    rw [hn.idxOf_getElem i.val i.isLt]

/-- If `rows[i]` is `δ` on the assigned columns, assigning `f rows[i]` adds `f rows[i]`. -/
theorem dot_assign_eye {α : Type} {cols : List (Fin n)} (hn : cols.Nodup) {rows : List α}
    (hlen : rows.length = cols.length) (row : α → Fin n → F) (f : α → F) (v : Fin n → F)
    (hv : ∀ c ∈ cols, v c = 0)
    (heye : ∀ (i j : ℕ) (hi : i < rows.length) (hj : j < cols.length),
      row rows[i] cols[j] = if i = j then 1 else 0) :
    ∀ r ∈ rows, dot (row r) (assign cols (rows.map f) v) = dot (row r) v + f r := by
  intro r hr
  obtain ⟨i, hi, rfl⟩ := List.mem_iff_getElem.1 hr
  rw [dot_assign hn _ _ _ hv]
  congr 1
  rw [Finset.sum_eq_single ⟨i, hlen ▸ hi⟩]
  · simp only [Fin.getElem_fin]
    rw [heye i i hi (hlen ▸ hi), if_pos rfl, one_mul, List.getD_eq_getElem?_getD,
      List.getElem?_eq_getElem (by simpa using hi)]
    simp
  · intro b _ hb
    simp only [Fin.getElem_fin]
    rw [heye i b.val hi b.isLt, if_neg, zero_mul]
    intro he; exact hb (Fin.ext he.symm)
  · intro h; exact absurd (Finset.mem_univ _) h

theorem eyeRow_getD {k t s : ℕ} (hs : s < k) :
    (eyeRow k t : List F).getD s 0 = if s = t then 1 else 0 := by
  simp [eyeRow, List.getD_eq_getElem?_getD, hs]

/-! ### Logical operators of a standard form without gauge sectors -/

/-- What the construction of logical operators needs from a standard form. -/
structure IsStd (d : StdData F n) (k : ℕ) : Prop where
  gx : d.colsGX = []
  lz : d.colsLZ = d.colsLX
  perm : (d.colsLX ++ d.colsSX ++ d.colsSZ).Perm (List.finRange n)
  lenL : d.colsLX.length = k
  lenX : (pySlice d.matrix d.rowsSX).length = d.colsSX.length
  lenZ : (pySlice d.matrix d.rowsSZ).length = d.colsSZ.length
  eyeX : ∀ (i j : ℕ) (hi : i < (pySlice d.matrix d.rowsSX).length) (hj : j < d.colsSX.length),
    ((pySlice d.matrix d.rowsSX)[i]).1 d.colsSX[j] = if i = j then 1 else 0
  eyeZ : ∀ (i j : ℕ) (hi : i < (pySlice d.matrix d.rowsSZ).length) (hj : j < d.colsSZ.length),
    ((pySlice d.matrix d.rowsSZ)[i]).2 d.colsSZ[j] = if i = j then 1 else 0
  inj : Function.Injective d.locs

section
variable {d : StdData F n} {k : ℕ} (h : IsStd d k)
include h

theorem IsStd.nodup : (d.colsLX ++ d.colsSX ++ d.colsSZ).Nodup :=
  h.perm.nodup_iff.2 (List.nodup_finRange n)

theorem IsStd.nodupL : d.colsLX.Nodup := by
  have := h.nodup; rw [List.append_assoc] at this; exact (List.nodup_append.1 this).1

theorem IsStd.nodupX : d.colsSX.Nodup :=
  (List.nodup_append.1 (List.nodup_append.1 h.nodup).1).2.1

theorem IsStd.nodupZ : d.colsSZ.Nodup := (List.nodup_append.1 h.nodup).2.1

theorem IsStd.L_not_X {c} (hc : c ∈ d.colsLX) : c ∉ d.colsSX := fun hx =>
  (List.nodup_append.1 (List.nodup_append.1 h.nodup).1).2.2 c hc c hx rfl

theorem IsStd.L_not_Z {c} (hc : c ∈ d.colsLX) : c ∉ d.colsSZ := fun hx =>
  (List.nodup_append.1 h.nodup).2.2 c (List.mem_append_left _ hc) c hx rfl

theorem IsStd.X_not_Z {c} (hc : c ∈ d.colsSX) : c ∉ d.colsSZ := fun hx =>
  (List.nodup_append.1 h.nodup).2.2 c (List.mem_append_right _ hc) c hx rfl

theorem IsStd.cover (c : Fin n) : c ∈ d.colsLX ∨ c ∈ d.colsSX ∨ c ∈ d.colsSZ := by
  have := h.perm.mem_iff.2 (List.mem_finRange c)
  simp only [List.mem_append] at this
  tauto

/-- Product of two vectors that agree with rows of the identity on the logical columns and have no
common support elsewhere. -/
theorem IsStd.dot_seed {a b : Fin n → F} {s t : ℕ} (ht : t < k)
    (ha : ∀ i (hi : i < d.colsLX.length), a d.colsLX[i] = if i = s then 1 else 0)
    (hb : ∀ i (hi : i < d.colsLX.length), b d.colsLX[i] = if i = t then 1 else 0)
    (h0 : ∀ c, c ∉ d.colsLX → a c * b c = 0) : dot a b = if s = t then 1 else 0 := by
  unfold dot
  have ht' : t < d.colsLX.length := by rw [h.lenL]; exact ht
  rw [Finset.sum_eq_single d.colsLX[t]]
  · rw [ha t ht', hb t ht', if_pos rfl, mul_one]
    simp only [eq_comm]
  · intro c _ hne
    by_cases hc : c ∈ d.colsLX
    · obtain ⟨i, hi, rfl⟩ := List.mem_iff_getElem.1 hc
      rw [hb i hi, if_neg, mul_zero]
      rintro rfl; exact hne rfl
    · exact h0 c hc
  · intro hh; exact absurd (Finset.mem_univ _) hh

end

/-- The seed in the logical columns. -/
theorem IsStd.seed {d : StdData F n} {k : ℕ} (h : IsStd d k) (t : ℕ) :
    (∀ i (hi : i < d.colsLX.length),
      assign d.colsLX (eyeRow k t : List F) 0 d.colsLX[i] = if i = t then 1 else 0) ∧
    (∀ c, c ∉ d.colsLX → assign d.colsLX (eyeRow k t : List F) 0 c = 0) := by
  constructor
  · intro i hi
    rw [assign_getElem h.nodupL hi, eyeRow_getD (h.lenL ▸ hi)]
  · intro c hc; rw [assign_of_notMem hc]; rfl

/-- X support of a logical X operator, in standard form. -/
def stdU (d : StdData F n) (k t : ℕ) : Fin n → F :=
  assign d.colsSZ ((pySlice d.matrix d.rowsSZ).map fun r => - dot r.2
    (assign d.colsLX (eyeRow k t) 0)) (assign d.colsLX (eyeRow k t) 0)

/-- Z support of a logical Z operator, in standard form. -/
def stdV (d : StdData F n) (k t : ℕ) : Fin n → F :=
  assign d.colsSX ((pySlice d.matrix d.rowsSX).map fun r => - dot r.1
    (assign d.colsLX (eyeRow k t) 0)) (assign d.colsLX (eyeRow k t) 0)

/-- Z support of a logical X operator, in standard form. -/
def stdW (d : StdData F n) (k t : ℕ) : Fin n → F :=
  assign d.colsSX ((pySlice d.matrix d.rowsSX).map fun r => - dot r.1
    (assign d.colsLX (eyeRow k t) 0) + dot r.2 (stdU d k t)) (assign d.colsLX (eyeRow k t) 0)

theorem logicalPair_eq {d : StdData F n} {k : ℕ} (h : IsStd d k) (t : ℕ) :
    logicalPair d k t (assign d.colsLZ (eyeRow k t) 0) (assign d.colsLX (eyeRow k t) 0) =
      (Fin.append (takeAt (argsort d.locs) (stdU d k t)) (takeAt (argsort d.locs) (stdW d k t)),
        Fin.append 0 (takeAt (argsort d.locs) (stdV d k t))) := by
  have hg : ∀ (vals : List F) (v : Fin n → F), assign d.colsGX vals v = v := by
    intro vals v; funext j; simp [assign, h.gx]
  simp only [logicalPair, h.lz, hg]
  rfl

section
variable {d : StdData F n} {k : ℕ} (h : IsStd d k)
include h

theorem IsStd.U_L (t : ℕ) : ∀ i (hi : i < d.colsLX.length),
    stdU d k t d.colsLX[i] = if i = t then 1 else 0 := by
  intro i hi
  rw [stdU, assign_of_notMem (h.L_not_Z (List.getElem_mem hi)), (h.seed t).1 i hi]

theorem IsStd.U_X (t : ℕ) : ∀ c ∈ d.colsSX, stdU d k t c = 0 := by
  intro c hc
  rw [stdU, assign_of_notMem (h.X_not_Z hc), (h.seed t).2 c fun hl => h.L_not_X hl hc]

theorem IsStd.V_L (t : ℕ) : ∀ i (hi : i < d.colsLX.length),
    stdV d k t d.colsLX[i] = if i = t then 1 else 0 := by
  intro i hi
  rw [stdV, assign_of_notMem (h.L_not_X (List.getElem_mem hi)), (h.seed t).1 i hi]

theorem IsStd.V_Z (t : ℕ) : ∀ c ∈ d.colsSZ, stdV d k t c = 0 := by
  intro c hc
  rw [stdV, assign_of_notMem (fun hx => h.X_not_Z hx hc), (h.seed t).2 c fun hl => h.L_not_Z hl hc]

theorem IsStd.W_L (t : ℕ) : ∀ i (hi : i < d.colsLX.length),
    stdW d k t d.colsLX[i] = if i = t then 1 else 0 := by
  intro i hi
  rw [stdW, assign_of_notMem (h.L_not_X (List.getElem_mem hi)), (h.seed t).1 i hi]

theorem IsStd.W_Z (t : ℕ) : ∀ c ∈ d.colsSZ, stdW d k t c = 0 := by
  intro c hc
  rw [stdW, assign_of_notMem (fun hx => h.X_not_Z hx hc), (h.seed t).2 c fun hl => h.L_not_Z hl hc]

theorem IsStd.seed_X (t : ℕ) : ∀ c ∈ d.colsSX, assign d.colsLX (eyeRow k t : List F) 0 c = 0 :=
  fun c hc => (h.seed t).2 c fun hl => h.L_not_X hl hc

theorem IsStd.seed_Z (t : ℕ) : ∀ c ∈ d.colsSZ, assign d.colsLX (eyeRow k t : List F) 0 c = 0 :=
  fun c hc => (h.seed t).2 c fun hl => h.L_not_Z hl hc

/-- Z checks annihilate the X support of logical X operators. -/
theorem IsStd.checkZ_U (t : ℕ) : ∀ r ∈ pySlice d.matrix d.rowsSZ, dot r.2 (stdU d k t) = 0 := by
  intro r hr
  rw [stdU, dot_assign_eye h.nodupZ h.lenZ (fun r => r.2) _ _ (h.seed_Z t) h.eyeZ r hr,
    add_neg_cancel]

/-- X checks annihilate the Z support of logical Z operators. -/
theorem IsStd.checkX_V (t : ℕ) : ∀ r ∈ pySlice d.matrix d.rowsSX, dot r.1 (stdV d k t) = 0 := by
  intro r hr
  rw [stdV, dot_assign_eye h.nodupX h.lenX (fun r => r.1) _ _ (h.seed_X t) h.eyeX r hr,
    add_neg_cancel]

theorem IsStd.checkX_W (t : ℕ) : ∀ r ∈ pySlice d.matrix d.rowsSX,
    dot r.1 (stdW d k t) = dot r.2 (stdU d k t) := by
  intro r hr
  rw [stdW, dot_assign_eye h.nodupX h.lenX (fun r => r.1) _ _ (h.seed_X t) h.eyeX r hr]
  ring

theorem IsStd.U_V {s t : ℕ} (ht : t < k) :
    dot (stdU d k s) (stdV d k t) = if s = t then 1 else 0 := by
  apply h.dot_seed ht (h.U_L s) (h.V_L t)
  intro c hc
  rcases h.cover c with hl | hx | hz
  · exact absurd hl hc
  · rw [h.U_X s c hx, zero_mul]
  · rw [h.V_Z t c hz, mul_zero]

theorem IsStd.U_W {s t : ℕ} (ht : t < k) :
    dot (stdU d k s) (stdW d k t) = if s = t then 1 else 0 := by
  apply h.dot_seed ht (h.U_L s) (h.W_L t)
  intro c hc
  rcases h.cover c with hl | hx | hz
  · exact absurd hl hc
  · rw [h.U_X s c hx, zero_mul]
  · rw [h.W_Z t c hz, mul_zero]

end

end QLDPC
