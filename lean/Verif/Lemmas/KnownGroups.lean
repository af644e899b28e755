import Verif.Model.KnownGroups
import Verif.Lemmas.Text
import Verif.Lemmas.Stack
import Verif.Lemmas.CssSubsystem
import Mathlib.Algebra.Field.ZMod

/-!
# Lemmas about the table of known groups
-/

namespace QLDPC

open QLDPC.Spec

/-! ## The name of a group determines the matrix -/

theorem filter_intercalate {α : Type} (p : α → Bool) (sep : List α) (hs : sep.filter p = [])
    (parts : List (List α)) :
    (sep.intercalate parts).filter p = (parts.map (List.filter p)).flatten := by
  induction parts with
  | nil => rfl
  | cons a l ih =>
    cases l with
    | nil => simp [List.intercalate]
    | cons b l =>
      have : sep.intercalate (a :: b :: l) = a ++ sep ++ sep.intercalate (b :: l) := by
        simp [List.intercalate]
      rw [this, List.filter_append, List.filter_append, hs, ih]
      simp

/-- characters that matter -/
def keepBit (c : Char) : Bool := c = '0' || c = '1' || c = ']'

/-- digit of a bit -/
def bitChar (b : ℕ) : Char := if b = 0 then '0' else '1'

theorem filter_decimal_bit {b : ℕ} (h : b < 2) : (decimal b).filter keepBit = [bitChar b] := by
  have : ∀ b < 2, (decimal b).filter keepBit = [bitChar b] := by decide +kernel
  exact this b h

/-- what is left of the name of the group of a binary code -/
def signature (M : List (List ℕ)) : List Char := (M.map fun l => l.map bitChar ++ [']']).flatten ++ [']']

theorem filter_lineText {l : List ℕ} (h : ∀ b ∈ l, b < 2) :
    (lineText l).filter keepBit = l.map bitChar ++ [']'] := by
  unfold lineText
  rw [List.filter_append, List.filter_append, filter_intercalate _ _ (by decide)]
  have h1 : ((l.map decimal).map (List.filter keepBit)).flatten = l.map bitChar := by
    induction l with
    | nil => rfl
    | cons b l ih =>
      rw [List.map_cons, List.map_cons, List.flatten_cons, List.map_cons,
        ih fun c hc => h c (List.mem_cons_of_mem _ hc), filter_decimal_bit (h b List.mem_cons_self)]
      rfl
  rw [h1]
  rfl

theorem filter_name {M : List (List ℕ)} (h : ∀ l ∈ M, ∀ b ∈ l, b < 2) :
    (automorphismName 2 M).filter keepBit = signature M := by
  unfold automorphismName signature
  simp only [List.filter_append, if_true]
  rw [filter_intercalate _ _ (by decide)]
  have h1 : ((M.map lineText).map (List.filter keepBit)).flatten =
      (M.map fun l => l.map bitChar ++ [']']).flatten := by
    rw [List.map_map]
    congr 1
    exact List.map_congr_left fun l hl => filter_lineText (h l hl)
  rw [h1]
  have e1 : "AutomorphismGroup".toList.filter keepBit = [] := by decide +kernel
  have e2 : "CheckMatCode(".toList.filter keepBit = [] := by decide +kernel
  have e3 : ", GF(".toList.filter keepBit = [] := by decide +kernel
  have e4 : "))".toList.filter keepBit = [] := by decide +kernel
  have e5 : (decimal 2).filter keepBit = [] := by decide +kernel
  rw [e1, e2, e3, e4, e5]
  simp [keepBit]

theorem split_unique {α : Type} {x : α} {u v X Y : List α} (hu : x ∉ u) (hv : x ∉ v)
    (h : u ++ x :: X = v ++ x :: Y) : u = v ∧ X = Y := by
  induction u generalizing v with
  | nil =>
    cases v with
    | nil => simp at h; exact ⟨rfl, h⟩
    | cons b v =>
      simp only [List.nil_append, List.cons_append, List.cons.injEq] at h
      exact absurd (h.1 ▸ List.mem_cons_self) hv
  | cons a u ih =>
    cases v with
    | nil =>
      simp only [List.nil_append, List.cons_append, List.cons.injEq] at h
      exact absurd (h.1 ▸ List.mem_cons_self) hu
    | cons b v =>
      simp only [List.cons_append, List.cons.injEq] at h
      obtain ⟨h1, h2⟩ := ih (fun hh => hu (List.mem_cons_of_mem _ hh))
        (fun hh => hv (List.mem_cons_of_mem _ hh)) h.2
      exact ⟨by rw [h.1, h1], h2⟩

theorem bitChar_ne (b : ℕ) : bitChar b ≠ ']' := by unfold bitChar; split <;> decide

theorem map_bitChar_inj {a b : List ℕ} (ha : ∀ x ∈ a, x < 2) (hb : ∀ x ∈ b, x < 2)
    (h : a.map bitChar = b.map bitChar) : a = b := by
  induction a generalizing b with
  | nil => cases b with
    | nil => rfl
    | cons y b => simp at h
  | cons x a ih =>
    cases b with
    | nil => simp at h
    | cons y b =>
      simp only [List.map_cons, List.cons.injEq] at h
      have hx := ha x List.mem_cons_self
      have hy := hb y List.mem_cons_self
      have key : ∀ x < 2, ∀ y < 2, bitChar x = bitChar y → x = y := by decide
      rw [key x hx y hy h.1, ih (fun z hz => ha z (List.mem_cons_of_mem _ hz))
        (fun z hz => hb z (List.mem_cons_of_mem _ hz)) h.2]

theorem signature_inj {A B : List (List ℕ)} (hA : ∀ l ∈ A, ∀ b ∈ l, b < 2) (hB : ∀ l ∈ B, ∀ b ∈ l, b < 2)
    (h : signature A = signature B) : A = B := by
  have hno : ∀ l : List ℕ, ']' ∉ l.map bitChar := by
    intro l hl
    obtain ⟨b, -, hb⟩ := List.mem_map.1 hl
    exact bitChar_ne b hb
  have hcons : ∀ (a : List ℕ) (l : List (List ℕ)),
      signature (a :: l) = a.map bitChar ++ ']' :: signature l := by
    intro a l; simp [signature]
  have hnil : signature [] = [']'] := rfl
  have hpos : ∀ l, 0 < (signature l).length := by intro l; simp [signature]
  induction A generalizing B with
  | nil =>
    cases B with
    | nil => rfl
    | cons b B =>
      rw [hnil, hcons] at h
      have h1 := congrArg List.length h
      have := hpos B
      simp only [List.length_append, List.length_cons, List.length_nil] at h1
      omega
  | cons a A ih =>
    cases B with
    | nil =>
      rw [hnil, hcons] at h
      have h1 := congrArg List.length h
      have := hpos A
      simp only [List.length_append, List.length_cons, List.length_nil] at h1
      omega
    | cons b B =>
      rw [hcons, hcons] at h
      obtain ⟨h1, h2⟩ := split_unique (hno a) (hno b) h
      rw [map_bitChar_inj (hA a List.mem_cons_self) (hB b List.mem_cons_self) h1,
        ih (fun l hl => hA l (List.mem_cons_of_mem _ hl)) (fun l hl => hB l (List.mem_cons_of_mem _ hl)) h2]

theorem filter_keep_space (l : List Char) : (l.filter (· ≠ ' ')).filter keepBit = l.filter keepBit := by
  rw [List.filter_filter]
  refine List.filter_congr fun c _ => ?_
  by_cases h : c = ' '
  · subst h; decide
  · simp [h]

/-! ## Checking an entry of the table -/

/-- a list of lists as a matrix -/
def listRows (n : ℕ) (M : List (List ℕ)) : Rows (ZMod 2) n := M.map fun l i => ((l.getD i 0 : ℕ) : ZMod 2)

/-- all combinations of binary rows -/
def allSums {n : ℕ} : Rows (ZMod 2) n → List (Fin n → ZMod 2)
  | [] => [0]
  | r :: l => allSums l ++ (allSums l).map (r + ·)

theorem allSums_mem {n : ℕ} (M : Rows (ZMod 2) n) : ∀ v ∈ allSums M, v ∈ rowSpan M := by
  induction M with
  | nil => intro v hv; rw [List.mem_singleton.1 hv]; exact Submodule.zero_mem _
  | cons r l ih =>
    have hle : rowSpan l ≤ rowSpan (r :: l) :=
      rowSpan_le.2 fun a ha => subset_rowSpan (List.mem_cons_of_mem _ ha)
    intro v hv
    rcases List.mem_append.1 hv with hv | hv
    · exact hle (ih v hv)
    · obtain ⟨u, hu, rfl⟩ := List.mem_map.1 hv
      exact Submodule.add_mem _ (subset_rowSpan List.mem_cons_self) (hle (ih u hu))

/-- the cycles reversed -/
def cyclesInv (g : List (List ℕ)) : List (List ℕ) := (g.map List.reverse).reverse

/-- row `l` with its entries moved along `f` is a combination of the rows of `M` -/
def movedOk (n : ℕ) (M : List (List ℕ)) (f : ℕ → ℕ) : Bool :=
  M.all fun l => (allSums (listRows n M)).any fun v =>
    (List.finRange n).all fun i => decide (v i = ((l.getD (f i) 0 : ℕ) : ZMod 2))

/-- the check of one generator -/
def generatorOk (n : ℕ) (M : List (List ℕ)) (g : List (List ℕ)) : Bool :=
  ((List.range n).all fun i => cyclesImage g i < n && cyclesImage (cyclesInv g) i < n &&
    cyclesImage (cyclesInv g) (cyclesImage g i) == i && cyclesImage g (cyclesImage (cyclesInv g) i) == i) &&
  movedOk n M (cyclesImage g) && movedOk n M (cyclesImage (cyclesInv g))

theorem movedOk_spec {n : ℕ} {M : List (List ℕ)} {f : ℕ → ℕ} (h : movedOk n M f = true)
    (σ : Fin n → Fin n) (hσ : ∀ i, (σ i).val = f i) {r : Fin n → ZMod 2} (hr : r ∈ listRows n M) :
    (fun i => r (σ i)) ∈ rowSpan (listRows n M) := by
  unfold movedOk at h
  obtain ⟨l, hl, rfl⟩ := List.mem_map.1 hr
  have h1 := List.all_eq_true.1 h l hl
  obtain ⟨v, hv, h2⟩ := List.any_eq_true.1 h1
  have : (fun i => ((l.getD (σ i) 0 : ℕ) : ZMod 2)) = v := by
    funext i
    have := List.all_eq_true.1 h2 i (List.mem_finRange i)
    rw [decide_eq_true_eq] at this
    rw [this, hσ]
  change (fun i => ((l.getD (σ i) 0 : ℕ) : ZMod 2)) ∈ _
  rw [this]
  exact allSums_mem _ v hv

theorem generatorOk_spec {n : ℕ} {M : List (List ℕ)} {g : List (List ℕ)} (h : generatorOk n M g = true) :
    ∃ σ : Equiv.Perm (Fin n), (∀ i, (σ i).val = cyclesImage g i) ∧
      ∀ w, IsWord (listRows n M) (fun i => w (σ i)) ↔ IsWord (listRows n M) w := by
  unfold generatorOk at h
  rw [Bool.and_eq_true, Bool.and_eq_true, List.all_eq_true] at h
  obtain ⟨⟨hp, h1⟩, h2⟩ := h
  have hp' : ∀ i < n, cyclesImage g i < n ∧ cyclesImage (cyclesInv g) i < n ∧
      cyclesImage (cyclesInv g) (cyclesImage g i) = i ∧ cyclesImage g (cyclesImage (cyclesInv g) i) = i := by
    intro i hi
    have := hp i (List.mem_range.2 hi)
    simp only [Bool.and_eq_true, decide_eq_true_eq, beq_iff_eq] at this
    exact ⟨this.1.1.1, this.1.1.2, this.1.2, this.2⟩
  let σ : Equiv.Perm (Fin n) :=
    { toFun := fun i => ⟨cyclesImage g i, (hp' i i.isLt).1⟩
      invFun := fun i => ⟨cyclesImage (cyclesInv g) i, (hp' i i.isLt).2.1⟩
      left_inv := fun i => Fin.ext (hp' i i.isLt).2.2.1
      right_inv := fun i => Fin.ext (hp' i i.isLt).2.2.2 }
  refine ⟨σ, fun i => rfl, fun w => ?_⟩
  have key : ∀ (τ : Equiv.Perm (Fin n)), (∀ r ∈ listRows n M, (fun i => r (τ.symm i)) ∈ rowSpan (listRows n M)) →
      ∀ w, IsWord (listRows n M) w → IsWord (listRows n M) (fun i => w (τ i)) := by
    intro τ hτ w hw r hr
    have := dot_eq_zero_of_mem_rowSpan (hτ r hr) ((isWord_iff _ _).1 hw)
    rw [← this]
    unfold dot
    rw [← Equiv.sum_comp τ fun i => r (τ.symm i) * w i]
    simp
  constructor
  · intro hw
    have := key σ.symm (fun r hr => movedOk_spec h1 σ (fun _ => rfl) hr) _ hw
    simpa using this
  · exact key σ (fun r hr => movedOk_spec h2 σ.symm (fun _ => rfl) hr) w

/-- The canonical matrix of a binary code determines its words. -/
theorem isWord_of_matrixInts {n m : ℕ} {H : Rows (ZMod 2) n} {M : List (List ℕ)}
    (h : matrixInts (dropZero (rowReduce H)) = M) (hne : M ≠ []) (hm : ∀ l ∈ M, l.length = m) :
    n = m ∧ ∀ w, IsWord H w ↔ IsWord (listRows n M) w := by
  have hrows : dropZero (rowReduce H) = listRows n M := by
    subst h
    unfold matrixInts listRows
    rw [List.map_map]
    conv_lhs => rw [← List.map_id (dropZero (rowReduce H))]
    refine List.map_congr_left fun r _ => funext fun i => ?_
    simp [ZMod.natCast_zmod_val]
  constructor
  · obtain ⟨l, hl⟩ := List.exists_mem_of_ne_nil _ hne
    rw [← hm l hl]
    rw [← h] at hl
    obtain ⟨r, -, rfl⟩ := List.mem_map.1 hl
    simp
  · intro w
    rw [isWord_iff, isWord_iff, ← hrows]
    have : kernel (dropZero (rowReduce H)) = kernel H :=
      (rowSpan_eq_iff_kernel_eq _ _).1 (rowSpan_dropZero_rowReduce H)
    rw [this]

end QLDPC
