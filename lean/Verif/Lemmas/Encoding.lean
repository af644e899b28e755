import Verif.Model.Encoding
import Verif.Spec.Encoding
import Verif.Lemmas.Combine
import Mathlib.Algebra.CharP.Two

/-! # Lemmas about encoding tableaus -/

namespace QLDPC

open Spec

variable {n : ℕ}

theorem sform_comm2 (p q : Fin (n + n) → ZMod 2) : sform p q = sform q p := by
  rw [sform_comm, CharTwo.neg_eq]

theorem sform_self2 (p : Fin (n + n) → ZMod 2) : sform p p = 0 := by
  unfold sform
  exact Finset.sum_eq_zero fun i _ => by ring

theorem sform_sub_right2 (r p q : Fin (n + n) → ZMod 2) : sform r (p - q) = sform r p - sform r q := by
  have h : p - q = p + q := by funext i; exact CharTwo.sub_eq_add _ _
  rw [h, sform_add_right, CharTwo.sub_eq_add]

theorem dot_conj_right (d q : Fin (n + n) → ZMod 2) : dot d (symplecticConjugate q) = sform q d := by
  rw [dot_comm, dot_symplecticConjugate]

theorem sform_smul_right2 (a : ZMod 2) (p q : Fin (n + n) → ZMod 2) : sform p (a • q) = a * sform p q := by
  rw [sform_comm2, sform_smul_left, sform_comm2]

theorem sform_subtract (duals L : Rows (ZMod 2) (n + n)) (d r : Fin (n + n) → ZMod 2) :
    sform r (subtractComponents duals L d) =
      sform r d - ∑ i : Fin L.length, sform (duals.getD i 0) d * sform r L[i] := by
  unfold subtractComponents
  rw [sform_sub_right2, sform_sum_right]
  congr 1
  refine Finset.sum_congr rfl fun i _ => ?_
  rw [sform_smul_right2, dot_conj_right]

theorem sform_subtract_comm {duals L : Rows (ZMod 2) (n + n)} {d r : Fin (n + n) → ZMod 2} (h : ∀ l ∈ L, sform r l = 0) :
    sform r (subtractComponents duals L d) = sform r d := by
  rw [sform_subtract, Finset.sum_eq_zero fun i _ => by rw [h L[i] (List.getElem_mem i.isLt), mul_zero], sub_zero]

theorem sform_subtract_one {duals L : Rows (ZMod 2) (n + n)} {d r : Fin (n + n) → ZMod 2} (j : ℕ) (hj : j < L.length)
    (h : ∀ (i : ℕ) (hi : i < L.length), sform r L[i] = if i = j then 1 else 0) (hr : duals.getD j 0 = r) :
    sform r (subtractComponents duals L d) = 0 := by
  rw [sform_subtract, Finset.sum_eq_single (⟨j, hj⟩ : Fin L.length)]
  · simp only [Fin.getElem_fin]
    rw [h j hj, if_pos rfl, mul_one, hr, sub_self]
  · intro i _ hij
    have : i.val ≠ j := fun e => hij (Fin.ext e)
    simp only [Fin.getElem_fin]
    rw [h i i.isLt, if_neg this, mul_zero]
  · intro h; exact absurd (Finset.mem_univ _) h

/-- operators in pairs: removing the components -/
theorem sform_subtract_dual {LX LZ : Rows (ZMod 2) (n + n)} (hlen : LX.length = LZ.length)
    (pair : ∀ (i j : ℕ) (hi : i < LX.length) (hj : j < LZ.length), sform LX[i] LZ[j] = if i = j then 1 else 0)
    (xx : ∀ p ∈ LX, ∀ q ∈ LX, sform p q = 0) (zz : ∀ p ∈ LZ, ∀ q ∈ LZ, sform p q = 0)
    (d : Fin (n + n) → ZMod 2) :
    ∀ l ∈ LX ++ LZ, sform l (subtractComponents (dualOps (LX ++ LZ)) (LX ++ LZ) d) = 0 := by
  have hdual : dualOps (LX ++ LZ) = LZ ++ LX := by
    unfold dualOps
    have : (LX ++ LZ).length / 2 = LX.length := by rw [List.length_append]; omega
    rw [this, List.drop_left, List.take_left]
  rw [hdual]
  intro l hl
  rcases List.mem_append.1 hl with hl | hl
  · obtain ⟨a, ha, rfl⟩ := List.getElem_of_mem hl
    refine sform_subtract_one (LX.length + a) (by rw [List.length_append]; omega) (fun i hi => ?_) ?_
    · by_cases h1 : i < LX.length
      · rw [List.getElem_append_left h1, if_neg (by omega)]
        exact xx _ hl _ (List.getElem_mem h1)
      · have h2 : LX.length ≤ i := by omega
        rw [List.getElem_append_right h2, pair a (i - LX.length) ha (by rw [List.length_append] at hi; omega)]
        exact if_congr (by omega) rfl rfl
    · rw [List.getD_append_right _ _ _ _ (by omega), hlen, Nat.add_sub_cancel_left,
        List.getD_eq_getElem _ _ (by omega)]
  · obtain ⟨a, ha, rfl⟩ := List.getElem_of_mem hl
    refine sform_subtract_one a (by rw [List.length_append]; omega) (fun i hi => ?_) ?_
    · by_cases h1 : i < LX.length
      · rw [List.getElem_append_left h1, sform_comm2, pair i a h1 ha]
      · have h2 : LX.length ≤ i := by omega
        rw [List.getElem_append_right h2, if_neg (by omega)]
        exact zz _ hl _ (List.getElem_mem _)
    · rw [List.getD_append _ _ _ _ (by omega), List.getD_eq_getElem _ _ (by omega)]

/-- the candidates are dual to the stabilizers -/
theorem sform_candidate {p : Fin (n + n)} (r : Fin (n + n) → ZMod 2) :
    sform r (fun i => if i.val = (p.val + n) % (2 * n) then 1 else 0) = r p := by
  have hp := p.isLt
  unfold sform xPart zPart
  by_cases h : p.val < n
  · have e : (p.val + n) % (2 * n) = p.val + n := Nat.mod_eq_of_lt (by omega)
    rw [e, Finset.sum_eq_single (⟨p.val, h⟩ : Fin n)]
    · have h1 : (Fin.natAdd n (⟨p.val, h⟩ : Fin n)).val = p.val + n := by simp [Nat.add_comm]
      have h2 : (Fin.castAdd n (⟨p.val, h⟩ : Fin n)).val ≠ p.val + n := by simp; omega
      beta_reduce
      rw [if_pos h1, if_neg h2, mul_one, mul_zero, sub_zero]
      rfl
    · intro b _ hb
      have hb' : b.val ≠ p.val := fun e => hb (Fin.ext e)
      have h1 : (Fin.natAdd n b).val ≠ p.val + n := by simp; omega
      have h2 : (Fin.castAdd n b).val ≠ p.val + n := by simp; omega
      beta_reduce
      rw [if_neg h1, if_neg h2, mul_zero, mul_zero, sub_zero]
    · intro h; exact absurd (Finset.mem_univ _) h
  · have e : (p.val + n) % (2 * n) = p.val - n := by
      have : p.val + n = (p.val - n) + 2 * n := by omega
      rw [this, Nat.add_mod_right, Nat.mod_eq_of_lt (by omega)]
    rw [e, Finset.sum_eq_single (⟨p.val - n, by omega⟩ : Fin n)]
    · have h1 : (Fin.natAdd n (⟨p.val - n, by omega⟩ : Fin n)).val ≠ p.val - n := by simp; omega
      have h2 : (Fin.castAdd n (⟨p.val - n, by omega⟩ : Fin n)).val = p.val - n := by simp
      beta_reduce
      rw [if_neg h1, if_pos h2, mul_one, mul_zero, zero_sub, CharTwo.neg_eq]
      congr 1
      apply Fin.ext
      simp
      omega
    · intro b _ hb
      have hb' : b.val ≠ p.val - n := fun e => hb (Fin.ext e)
      have h1 : (Fin.natAdd n b).val ≠ p.val - n := by simp; omega
      have h2 : (Fin.castAdd n b).val ≠ p.val - n := by simpa using hb'
      beta_reduce
      rw [if_neg h1, if_neg h2, mul_zero, mul_zero, sub_zero]
    · intro h; exact absurd (Finset.mem_univ _) h

theorem firstNonzeroCols_getElem {F : Type} [Field F] [DecidableEq F] {m : ℕ} {S : Rows F m} (j : ℕ) (hj : j < S.length)
    {c : Fin m} (h0 : ∀ c' < c, S[j] c' = 0) (h1 : S[j] c ≠ 0) :
    (firstNonzeroCols S)[j]? = some c := by
  cases m with
  | zero => exact c.elim0
  | succ m =>
    unfold firstNonzeroCols
    rw [List.getElem?_map, List.getElem?_eq_getElem hj, Option.map_some]
    congr 1
    have : (List.finRange (m + 1)).find? (fun x => decide (S[j] x ≠ 0)) = some c := by
      rw [List.find?_eq_some_iff_getElem]
      refine ⟨by simpa using h1, c.val, by have := c.isLt; simp only [List.length_finRange]; exact this, by simp, fun i hi => ?_⟩
      have := h0 ⟨i, by omega⟩ (Fin.lt_def.2 hi)
      simpa using this
    simp only [ne_eq] at this ⊢
    rw [this]
    rfl

theorem length_firstNonzeroCols {F : Type} [Field F] [DecidableEq F] {m : ℕ} (S : Rows F m) (hm : 0 < m) :
    (firstNonzeroCols S).length = S.length := by
  cases m with
  | zero => omega
  | succ m => simp [firstNonzeroCols]

/-- the loop -/
theorem commuteLoop_spec (S : Rows (ZMod 2) (n + n)) (hS : AllCommute S) (C : Rows (ZMod 2) (n + n))
    (hC : ∀ c ∈ C, ∀ s ∈ S, sform c s = 0) :
    ∀ (rest done : Rows (ZMod 2) (n + n)), done.length + rest.length ≤ S.length →
      (∀ (i j : ℕ) (hi : i < (done ++ rest).length) (hj : j < S.length), sform (done ++ rest)[i] S[j] = if i = j then 1 else 0) →
      (∀ c ∈ C, ∀ d ∈ done ++ rest, sform c d = 0) → AllCommute done →
      (commuteLoop S done rest).length = done.length + rest.length ∧
      (∀ (i j : ℕ) (hi : i < (commuteLoop S done rest).length) (hj : j < S.length),
        sform (commuteLoop S done rest)[i] S[j] = if i = j then 1 else 0) ∧
      (∀ c ∈ C, ∀ d ∈ commuteLoop S done rest, sform c d = 0) ∧ AllCommute (commuteLoop S done rest) := by
  intro rest
  induction rest with
  | nil =>
    intro done hlen hdual hcomm hall
    simp only [commuteLoop]
    simp only [List.append_nil] at hdual hcomm
    exact ⟨rfl, hdual, hcomm, hall⟩
  | cons d rest ih =>
    intro done hlen hdual hcomm hall
    simp only [List.length_cons] at hlen
    have hstab : ∀ s ∈ S, sform s (subtractComponents done (S.take done.length) d) = sform s d := fun s hs =>
      sform_subtract_comm fun l hl => hS s hs l (List.mem_of_mem_take hl)
    have hC' : ∀ c ∈ C, sform c (subtractComponents done (S.take done.length) d) = sform c d := fun c hc =>
      sform_subtract_comm fun l hl => hC c hc l (List.mem_of_mem_take hl)
    have hdone : ∀ x ∈ done, sform x (subtractComponents done (S.take done.length) d) = 0 := by
      intro x hx
      obtain ⟨a, ha, rfl⟩ := List.getElem_of_mem hx
      refine sform_subtract_one a (by rw [List.length_take]; omega) (fun i hi => ?_) (List.getD_eq_getElem _ _ ha)
      rw [List.length_take] at hi
      rw [List.getElem_take]
      have := hdual a i (by rw [List.length_append]; omega) (by omega)
      rw [List.getElem_append_left ha] at this
      rw [this]
      exact if_congr eq_comm rfl rfl
    have step := ih (done ++ [subtractComponents done (S.take done.length) d]) (by simp; omega) ?_ ?_ ?_
    · simp only [commuteLoop]
      refine ⟨by rw [step.1]; simp; omega, step.2⟩
    · intro i j hi hj
      have hh := hdual i j (by simp at hi ⊢; omega) hj
      by_cases h1 : i < done.length
      · rw [List.getElem_append_left (by simp; omega), List.getElem_append_left h1]
        rwa [List.getElem_append_left h1] at hh
      · by_cases h2 : i = done.length
        · subst h2
          simp only [List.append_assoc, List.cons_append, List.nil_append, List.getElem_append_right (le_refl _), Nat.sub_self,
            List.getElem_cons_zero] at hh ⊢
          rw [sform_comm2, hstab _ (List.getElem_mem hj), sform_comm2]
          exact hh
        · have h3 : done.length + 1 ≤ i := by omega
          rw [List.getElem_append_right (by simpa using h3)]
          rw [List.getElem_append_right (by omega)] at hh
          have e : i - done.length = (i - (done ++ [subtractComponents done (S.take done.length) d]).length) + 1 := by
            simp; omega
          simp only [e, List.getElem_cons_succ] at hh
          exact hh
    · intro c hc x hx
      simp only [List.append_assoc, List.cons_append, List.nil_append, List.mem_append, List.mem_cons] at hx hcomm
      rcases hx with hx | rfl | hx
      · exact hcomm c hc x (.inl hx)
      · rw [hC' c hc]; exact hcomm c hc d (.inr (.inl rfl))
      · exact hcomm c hc x (.inr (.inr hx))
    · intro p hp q hq
      simp only [List.mem_append, List.mem_cons, List.not_mem_nil, or_false] at hp hq
      rcases hp with hp | rfl <;> rcases hq with hq | rfl
      · exact hall p hp q hq
      · exact hdone p hp
      · rw [sform_comm2]; exact hdone q hq
      · exact sform_self2 _

/-- operators in pairs -/
structure InPairs (LX LZ : Rows (ZMod 2) (n + n)) : Prop where
  len : LX.length = LZ.length
  pair : ∀ (i j : ℕ) (hi : i < LX.length) (hj : j < LZ.length), sform LX[i] LZ[j] = if i = j then 1 else 0
  xx : ∀ p ∈ LX, ∀ q ∈ LX, sform p q = 0
  zz : ∀ p ∈ LZ, ∀ q ∈ LZ, sform p q = 0

theorem candidate_spec {S : Rows (ZMod 2) (n + n)} (hS : IsReduced S) :
    (candidateDestabs S).length = S.length ∧
      ∀ (i j : ℕ) (hi : i < (candidateDestabs S).length) (hj : j < S.length),
        sform S[j] (candidateDestabs S)[i] = if i = j then 1 else 0 := by
  have hlen : (candidateDestabs S).length = S.length := by
    unfold candidateDestabs
    rw [List.length_map]
    rcases Nat.eq_zero_or_pos (n + n) with h | h
    · have : S = [] := by
        rcases S with _ | ⟨r, S⟩
        · rfl
        · obtain ⟨c, -⟩ := hS 0 (by simp)
          exact absurd c.isLt (by omega)
      subst this
      rcases n with _ | n
      · rfl
      · omega
    · exact length_firstNonzeroCols S h
  refine ⟨hlen, fun i j hi hj => ?_⟩
  obtain ⟨c, h0, h1⟩ := hS i (by omega)
  have hc : (candidateDestabs S)[i] = fun x : Fin (n + n) => if x.val = (c.val + n) % (2 * n) then (1 : ZMod 2) else 0 := by
    have := firstNonzeroCols_getElem i (by omega) h0 (by rw [h1 i (by omega), if_pos rfl]; exact one_ne_zero)
    have e : (candidateDestabs S)[i]? = some fun x : Fin (n + n) => if x.val = (c.val + n) % (2 * n) then (1 : ZMod 2) else 0 := by
      unfold candidateDestabs
      rw [List.getElem?_map, this]
      rfl
    rw [List.getElem?_eq_getElem hi] at e
    exact Option.some.inj e
  rw [hc, sform_candidate, h1 j hj]
  exact if_congr eq_comm rfl rfl

theorem sform_start {S LX LZ GX GZ : Rows (ZMod 2) (n + n)}
    (hSL : ∀ s ∈ S, ∀ l ∈ LX ++ LZ, sform s l = 0) (hSG : ∀ s ∈ S, ∀ l ∈ GX ++ GZ, sform s l = 0)
    (d s : Fin (n + n) → ZMod 2) (hs : s ∈ S) :
    sform s (subtractComponents (dualOps (GX ++ GZ)) (GX ++ GZ) (subtractComponents (dualOps (LX ++ LZ)) (LX ++ LZ) d)) =
      sform s d := by
  rw [sform_subtract_comm (hSG s hs), sform_subtract_comm (hSL s hs)]

theorem destab_spec {S LX LZ GX GZ : Rows (ZMod 2) (n + n)} (hS : IsReduced S) (hSS : AllCommute S)
    (hL : InPairs LX LZ) (hG : InPairs GX GZ) (hSL : ∀ s ∈ S, ∀ l ∈ LX ++ LZ, sform s l = 0)
    (hSG : ∀ s ∈ S, ∀ l ∈ GX ++ GZ, sform s l = 0) (hLG : ∀ l ∈ LX ++ LZ, ∀ g ∈ GX ++ GZ, sform l g = 0) :
    (destabOps S (LX ++ LZ) (GX ++ GZ)).length = S.length ∧
      (∀ (i j : ℕ) (hi : i < (destabOps S (LX ++ LZ) (GX ++ GZ)).length) (hj : j < S.length),
        sform (destabOps S (LX ++ LZ) (GX ++ GZ))[i] S[j] = if i = j then 1 else 0) ∧
      (∀ c ∈ (LX ++ LZ) ++ (GX ++ GZ), ∀ d ∈ destabOps S (LX ++ LZ) (GX ++ GZ), sform c d = 0) ∧
      AllCommute (destabOps S (LX ++ LZ) (GX ++ GZ)) := by
  obtain ⟨c1, c2⟩ := candidate_spec hS
  have := commuteLoop_spec S hSS ((LX ++ LZ) ++ (GX ++ GZ)) (fun c hc s hs => by
      rw [sform_comm2]
      rcases List.mem_append.1 hc with hc | hc
      · exact hSL s hs c hc
      · exact hSG s hs c hc)
    (((candidateDestabs S).map (subtractComponents (dualOps (LX ++ LZ)) (LX ++ LZ))).map
      (subtractComponents (dualOps (GX ++ GZ)) (GX ++ GZ))) [] (by simp [c1]) ?_ ?_ (by intro p hp; simp at hp)
  · refine ⟨?_, this.2⟩
    have h1 := this.1
    simp only [List.length_nil, zero_add, List.length_map, c1] at h1
    exact h1
  · intro i j hi hj
    simp only [List.nil_append, List.getElem_map]
    simp only [List.nil_append, List.length_map] at hi
    rw [sform_comm2, sform_start hSL hSG _ _ (List.getElem_mem hj), c2 i j hi hj]
  · intro c hc d hd
    rw [List.nil_append, List.mem_map] at hd
    obtain ⟨d, hd, rfl⟩ := hd
    obtain ⟨e, -, rfl⟩ := List.mem_map.1 hd
    rcases List.mem_append.1 hc with hc | hc
    · rw [sform_subtract_comm (hLG c hc)]
      exact sform_subtract_dual hL.len hL.pair hL.xx hL.zz e c hc
    · exact sform_subtract_dual hG.len hG.pair hG.xx hG.zz _ c hc

theorem pair_append {A A' B B' : Rows (ZMod 2) (n + n)} (hl : A.length = A'.length)
    (h : ∀ (i j : ℕ) (hi : i < A.length) (hj : j < A'.length), sform A[i] A'[j] = if i = j then 1 else 0)
    (h' : ∀ (i j : ℕ) (hi : i < B.length) (hj : j < B'.length), sform B[i] B'[j] = if i = j then 1 else 0)
    (hAB : ∀ a ∈ A, ∀ b ∈ B', sform a b = 0) (hBA : ∀ b ∈ B, ∀ a ∈ A', sform b a = 0) :
    ∀ (i j : ℕ) (hi : i < (A ++ B).length) (hj : j < (A' ++ B').length),
      sform (A ++ B)[i] (A' ++ B')[j] = if i = j then 1 else 0 := by
  intro i j hi hj
  rw [List.length_append] at hi hj
  by_cases h1 : i < A.length <;> by_cases h2 : j < A'.length
  · rw [List.getElem_append_left h1, List.getElem_append_left h2, h i j h1 h2]
  · rw [List.getElem_append_left h1, List.getElem_append_right (by omega), if_neg (by omega)]
    exact hAB _ (List.getElem_mem _) _ (List.getElem_mem _)
  · rw [List.getElem_append_right (by omega), List.getElem_append_left h2, if_neg (by omega)]
    exact hBA _ (List.getElem_mem _) _ (List.getElem_mem _)
  · rw [List.getElem_append_right (by omega), List.getElem_append_right (by omega), h' _ _ (by omega) (by omega)]
    exact if_congr (by omega) rfl rfl

theorem tableau_spec {S LX LZ GX GZ : Rows (ZMod 2) (n + n)} (hS : IsReduced S) (hSS : AllCommute S)
    (hL : InPairs LX LZ) (hG : InPairs GX GZ) (hSL : ∀ s ∈ S, ∀ l ∈ LX ++ LZ, sform s l = 0)
    (hSG : ∀ s ∈ S, ∀ l ∈ GX ++ GZ, sform s l = 0) (hLG : ∀ l ∈ LX ++ LZ, ∀ g ∈ GX ++ GZ, sform l g = 0)
    (hn : LX.length + GX.length + S.length = n) :
    ∃ D : Rows (ZMod 2) (n + n), encodingTableau S (LX ++ LZ) (GX ++ GZ) LX.length GX.length = (LX ++ GX ++ D, LZ ++ GZ ++ S) ∧
      IsTableau (LX ++ GX ++ D) (LZ ++ GZ ++ S) := by
  obtain ⟨d1, d2, d3, d4⟩ := destab_spec hS hSS hL hG hSL hSG hLG
  refine ⟨destabOps S (LX ++ LZ) (GX ++ GZ), ?_, ?_⟩
  · unfold encodingTableau
    rw [List.take_left, List.take_left, List.drop_left, List.drop_left]
  generalize destabOps S (LX ++ LZ) (GX ++ GZ) = D at d1 d2 d3 d4 ⊢
  simp only [List.mem_append] at d3 hSL hSG hLG
  have sw : ∀ {p q : Fin (n + n) → ZMod 2}, sform p q = 0 → sform q p = 0 := fun {p q} h => by rw [sform_comm2]; exact h
  refine ⟨by simp only [List.length_append]; omega, by have := hL.len; have := hG.len; simp only [List.length_append]; omega, ?_, ?_, ?_⟩
  · intro p hp q hq
    simp only [List.mem_append] at hp hq
    rcases hp with (hp | hp) | hp <;> rcases hq with (hq | hq) | hq
    · exact hL.xx p hp q hq
    · exact hLG p (.inl hp) q (.inl hq)
    · exact d3 p (.inl (.inl hp)) q hq
    · exact sw (hLG q (.inl hq) p (.inl hp))
    · exact hG.xx p hp q hq
    · exact d3 p (.inr (.inl hp)) q hq
    · exact sw (d3 q (.inl (.inl hq)) p hp)
    · exact sw (d3 q (.inr (.inl hq)) p hp)
    · exact d4 p hp q hq
  · intro p hp q hq
    simp only [List.mem_append] at hp hq
    rcases hp with (hp | hp) | hp <;> rcases hq with (hq | hq) | hq
    · exact hL.zz p hp q hq
    · exact hLG p (.inr hp) q (.inr hq)
    · exact sw (hSL q hq p (.inr hp))
    · exact sw (hLG q (.inr hq) p (.inr hp))
    · exact hG.zz p hp q hq
    · exact sw (hSG q hq p (.inr hp))
    · exact hSL p hp q (.inr hq)
    · exact hSG p hp q (.inr hq)
    · exact hSS p hp q hq
  · refine pair_append (by simp only [List.length_append]; rw [hL.len, hG.len]) (pair_append hL.len hL.pair hG.pair ?_ ?_) d2 ?_ ?_
    · intro a ha b hb; exact hLG a (.inl ha) b (.inr hb)
    · intro b hb a ha; exact sw (hLG a (.inr ha) b (.inl hb))
    · intro a ha s hs
      rcases List.mem_append.1 ha with ha | ha
      · exact sw (hSL s hs a (.inl ha))
      · exact sw (hSG s hs a (.inl ha))
    · intro d hd b hb
      rcases List.mem_append.1 hb with hb | hb
      · exact sw (d3 b (.inl (.inr hb)) d hd)
      · exact sw (d3 b (.inr (.inr hb)) d hd)

end QLDPC
