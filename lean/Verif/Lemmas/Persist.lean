import Verif.Model.Persist
import Verif.Lemmas.Strings
import Mathlib.Data.List.TakeWhile

/-!
# Lemmas on saving and loading
-/

namespace QLDPC

variable {t : CharTable}

theorem splitOnP_unlines (ls : List (List Char)) (h : ∀ l ∈ ls, ∀ c ∈ l, isLineBreak c = false) :
    (unlines ls).splitOnP isLineBreak = ls ++ [[]] := by
  induction ls with
  | nil => simp [unlines]
  | cons l ls ih =>
    have e : unlines (l :: ls) = l ++ '\n' :: unlines ls := by simp [unlines]
    rw [e, List.splitOnP_append_cons _ _ (by decide), List.splitOnP_eq_singleton (h l (by simp)),
      ih fun l' hl' => h l' (by simp [hl'])]
    simp

theorem splitLines_unlines (ls : List (List Char)) (h : ∀ l ∈ ls, ∀ c ∈ l, isLineBreak c = false) :
    splitLines (unlines ls) = ls := by
  unfold splitLines
  rw [splitOnP_unlines ls h]
  simp

/-- Lines that `splitlines` gives contain no break. -/
theorem splitOnP_no_break (p : Char → Bool) (l : List Char) : ∀ w ∈ l.splitOnP p, ∀ c ∈ w, p c = false := by
  induction l with
  | nil => simp
  | cons a l ih =>
    rw [List.splitOnP_cons]
    split_ifs with ha
    · simpa using ih
    · intro w hw c hc
      cases hs : l.splitOnP p with
      | nil => exact absurd hs (List.splitOnP_ne_nil _ _)
      | cons x xs =>
        rw [hs] at hw ih
        simp only [List.modifyHead_cons, List.mem_cons] at hw
        rcases hw with rfl | hw
        · rcases List.mem_cons.1 hc with rfl | hc
          · simpa using ha
          · exact ih x (by simp) c hc
        · exact ih w (by simp [hw]) c hc

theorem splitLines_no_break (l : List Char) : ∀ w ∈ splitLines l, ∀ c ∈ w, isLineBreak c = false := by
  intro w hw
  unfold splitLines at hw
  simp only at hw
  split_ifs at hw
  · exact splitOnP_no_break _ _ w (List.dropLast_subset _ hw)
  · exact splitOnP_no_break _ _ w hw

theorem isLineBreak_digit {c : Char} (h : c.isDigit = true) : isLineBreak c = false := by
  unfold Char.isDigit at h
  simp only [Bool.and_eq_true, decide_eq_true_eq] at h
  have h1 : 48 ≤ c.toNat := h.1
  have h2 : c.toNat ≤ 57 := h.2
  unfold isLineBreak
  simp only [List.mem_cons, List.not_mem_nil, or_false, decide_eq_false_iff_not]
  omega

theorem digit_ne {c d : Char} (h : c.isDigit = true) (hd : d.isDigit = false) : c ≠ d := by
  rintro rfl
  rw [h] at hd
  cases hd

theorem afterColon_append (p s : List Char) (h : ':' ∉ s) : afterColon (p ++ ':' :: s) = s := by
  unfold afterColon
  change ((p ++ ':' :: s).splitOnP (· == ':')).getLastD [] = s
  rw [List.splitOnP_append_cons _ _ (by decide), List.splitOnP_eq_singleton (xs := s)]
  · simp
  · intro c hc
    rw [beq_eq_false_iff_ne]
    rintro rfl
    exact h hc

theorem literalEval_decimal (ht : t.Ok) (n : ℕ) : literalEval t (' ' :: decimal n) = .ok (.int n) := by
  have hd : (' ' :: decimal n).dropWhile (fun c => decide (c = ' ' ∨ c = '\t')) = decimal n := by
    rw [List.dropWhile_cons, if_pos (by decide)]
    apply dropWhile_none
    intro c hc
    have := isDigit_decimal hc
    rw [decide_eq_false_iff_not, not_or]
    exact ⟨digit_ne this (by decide), digit_ne this (by decide)⟩
  unfold literalEval
  simp only [hd]
  have hne : ∀ w : List Char, (∃ c ∈ w, c.isDigit = false) → decimal n ≠ w := by
    rintro w ⟨c, hc, h⟩ he
    rw [← he] at hc
    rw [isDigit_decimal hc] at h
    cases h
  rw [if_neg (hne _ ⟨'T', by decide, by decide⟩), if_neg (hne _ ⟨'F', by decide, by decide⟩), digitsValue_decimal ht]

theorem literalEval_bool (b : Bool) : literalEval t (' ' :: boolText b) = .ok (.bool b) := by
  cases b <;> rfl

theorem mem_intercalate : ∀ (ws : List (List Char)) (c : Char), c ∈ [' '].intercalate ws → c = ' ' ∨ ∃ w ∈ ws, c ∈ w
  | [], c, h => by simp [List.intercalate] at h
  | [w], c, h => by
    have he : [' '].intercalate [w] = w := by simp [List.intercalate, List.intersperse]
    rw [he] at h
    exact Or.inr ⟨w, by simp, h⟩
  | w :: v :: ws, c, h => by
    have he : [' '].intercalate (w :: v :: ws) = w ++ ' ' :: [' '].intercalate (v :: ws) := by
      simp [List.intercalate, List.intersperse]
    rw [he, List.mem_append, List.mem_cons] at h
    rcases h with h | h | h
    · exact Or.inr ⟨w, by simp, h⟩
    · exact Or.inl h
    · rcases mem_intercalate (v :: ws) c h with h | ⟨u, hu, h⟩
      · exact Or.inl h
      · exact Or.inr ⟨u, by simp only [List.mem_cons] at hu ⊢; tauto, h⟩

/-- The characters of a row. -/
theorem row_chars (r : List ℤ) (hr : ∀ v ∈ r, 0 ≤ v) (c : Char) (hc : c ∈ [' '].intercalate (r.map intText)) :
    c = ' ' ∨ c.isDigit = true := by
  rcases mem_intercalate _ c hc with h | ⟨w, hw, h⟩
  · exact Or.inl h
  · obtain ⟨v, hv, rfl⟩ := List.mem_map.1 hw
    rw [intText_nonneg (hr v hv)] at h
    exact Or.inr (isDigit_decimal h)

/-- One row, written and read. -/
theorem row_tokens (ht : t.Ok) (r : List ℤ) (hr : ∀ v ∈ r, 0 ≤ v) :
    pySplit t (([' '].intercalate (r.map intText)).takeWhile fun c => c ≠ '#') = r.map intText := by
  have hdig : ∀ w ∈ r.map intText, w ≠ [] ∧ ∀ c ∈ w, c.isDigit = true := by
    intro w hw
    obtain ⟨v, hv, rfl⟩ := List.mem_map.1 hw
    rw [intText_nonneg (hr v hv)]
    exact ⟨decimal_ne_nil _, fun c hc => isDigit_decimal hc⟩
  have htw : ([' '].intercalate (r.map intText)).takeWhile (fun c => decide (c ≠ '#')) = [' '].intercalate (r.map intText) := by
    rw [List.takeWhile_eq_self_iff]
    intro c hc
    rw [decide_eq_true_eq]
    rcases row_chars r hr c hc with rfl | h
    · decide
    · exact digit_ne h (by decide)
  rw [htw]
  exact tokens_iff.1 (tokens_join ht _ fun w hw => ⟨(hdig w hw).1, fun c hc => not_space_numeric ht
    (ht.numeric_digit c ((hdig w hw).2 c hc))⟩)

theorem mapM_pyInt (ht : t.Ok) (r : List ℤ) (hr : ∀ v ∈ r, 0 ≤ v) : (r.map intText).mapM (pyInt t) = some r := by
  rw [mapM_some_iff, List.forall₂_map_left_iff]
  refine List.forall₂_same.2 fun v hv => ?_
  have h := hr v hv
  rw [intText_nonneg h, pyInt_decimal ht]
  congr 1
  omega

/-- A rectangular array of nonnegative numbers with at least one column, written and read. -/
theorem genfromtxt_savetxt (ht : t.Ok) (a : List (List ℤ)) (s : ℕ) (hs : 0 < s) (hlen : ∀ r ∈ a, r.length = s)
    (hnn : ∀ r ∈ a, ∀ v ∈ r, 0 ≤ v) : genfromtxt t (savetxt a) = .ok a := by
  have htok : ((savetxt a).map fun l => pySplit t (l.takeWhile fun c => c ≠ '#')) = a.map fun r => r.map intText := by
    unfold savetxt
    rw [List.map_map]
    exact List.map_congr_left fun r hr => row_tokens ht r (hnn r hr)
  have hfil : (a.map fun r => r.map intText).filter (fun r => decide (r ≠ [])) = a.map fun r => r.map intText := by
    rw [List.filter_eq_self]
    intro w hw
    obtain ⟨r, hr, rfl⟩ := List.mem_map.1 hw
    have := hlen r hr
    rw [decide_eq_true_eq]
    intro hc
    rw [List.map_eq_nil_iff] at hc
    rw [hc] at this
    simp at this
    omega
  unfold genfromtxt
  simp only
  rw [htok, hfil]
  rw [if_pos]
  · have : (a.map fun r => r.map intText).mapM (fun r => r.mapM (pyInt t)) = some a := by
      rw [mapM_some_iff, List.forall₂_map_left_iff]
      exact List.forall₂_same.2 fun r hr => mapM_pyInt ht r (hnn r hr)
    rw [this]
  · rw [List.all_eq_true]
    intro w hw
    obtain ⟨r, hr, rfl⟩ := List.mem_map.1 hw
    cases a with
    | nil => simp at hr
    | cons r0 a =>
      simp only [List.map_cons, List.headD_cons, List.length_map, decide_eq_true_eq]
      rw [hlen r hr, hlen r0 (by simp)]

/-! ### The loop over the lines -/

/-- Lines that are not comments do not change the state. -/
theorem foldlM_rows (lines rows : List (List Char)) (k : ℕ) (st : List (List (List ℤ)) × ℕ)
    (h : ∀ r ∈ rows, r.head? ≠ some '#') :
    (rows.zipIdx k).foldlM (loadStep t lines) st = .ok st := by
  induction rows generalizing k with
  | nil => rfl
  | cons r rows ih =>
    rw [List.zipIdx_cons, List.foldlM_cons]
    have : loadStep t lines st (r, k) = .ok st := by
      unfold loadStep
      rw [if_neg (h r (by simp))]
    rw [this]
    exact ih (k + 1) fun r hr => h r (by simp [hr])

/-- Comments without rows between them only move the index. -/
theorem foldlM_comments (lines cs : List (List Char)) (k : ℕ) (arrays : List (List (List ℤ))) (last : ℕ)
    (h : ∀ r ∈ cs, r.head? = some '#') (hk : k ≤ last + 1) :
    (cs.zipIdx k).foldlM (loadStep t lines) (arrays, last) = .ok (arrays, if cs = [] then last else k + cs.length - 1) := by
  induction cs generalizing k last with
  | nil => rfl
  | cons r cs ih =>
    rw [List.zipIdx_cons, List.foldlM_cons]
    have : loadStep t lines (arrays, last) (r, k) = .ok (arrays, k) := by
      unfold loadStep
      rw [if_pos (h r (by simp)), if_neg (not_lt.2 hk)]
    rw [this]
    change (cs.zipIdx (k + 1)).foldlM (loadStep t lines) (arrays, k) = _
    rw [ih (k + 1) k (fun r hr => h r (by simp [hr])) le_rfl, if_neg (List.cons_ne_nil _ _)]
    congr 2
    split_ifs with hc
    · simp [hc]
    · rw [List.length_cons]; omega

/-- A block of rows followed by a comment. -/
theorem foldlM_block (pre rows rest : List (List Char)) (cm : List Char) (a : List (List ℤ)) (arrays : List (List (List ℤ)))
    (hr : ∀ r ∈ rows, r.head? ≠ some '#') (hne : rows ≠ []) (hc : cm.head? = some '#') (hpre : pre ≠ [])
    (ha : genfromtxt t rows = .ok a) :
    ((rows ++ cm :: rest).zipIdx pre.length).foldlM (loadStep t (pre ++ (rows ++ cm :: rest))) (arrays, pre.length - 1) =
      (rest.zipIdx (pre ++ rows ++ [cm]).length).foldlM (loadStep t (pre ++ (rows ++ cm :: rest)))
        (arrays ++ [a], (pre ++ rows ++ [cm]).length - 1) := by
  have hp : 0 < pre.length := List.length_pos_of_ne_nil hpre
  have hrl : 0 < rows.length := List.length_pos_of_ne_nil hne
  rw [List.zipIdx_append, List.foldlM_append, foldlM_rows _ _ _ _ hr]
  change ((cm :: rest).zipIdx (pre.length + rows.length)).foldlM (loadStep t (pre ++ (rows ++ cm :: rest))) (arrays, pre.length - 1) = _
  rw [List.zipIdx_cons, List.foldlM_cons]
  have : loadStep t (pre ++ (rows ++ cm :: rest)) (arrays, pre.length - 1) (cm, pre.length + rows.length) =
      .ok (arrays ++ [a], pre.length + rows.length) := by
    unfold loadStep
    rw [if_pos hc, if_pos (by simp only [gt_iff_lt]; omega)]
    have he : (pre ++ (rows ++ cm :: rest)).extract (pre.length - 1 + 1) (pre.length + rows.length) = rows := by
      rw [List.extract_eq_take_drop, Nat.sub_add_cancel hp, List.drop_left, Nat.add_sub_cancel_left, List.take_left]
    simp only [he, ha]
  rw [this]
  simp only [List.length_append, List.length_singleton, Nat.add_sub_cancel]
  rfl

end QLDPC
