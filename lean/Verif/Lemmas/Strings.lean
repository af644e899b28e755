import Verif.Lemmas.Text

/-! # Lemmas on strings of checks and permutations -/

namespace QLDPC

open Spec

variable {t : CharTable} {F : Type} [Zero F] [One F]

/-! ### Splitting at white space -/

theorem pySplit_nil : pySplit t [] = [] := by simp [pySplit]

theorem pySplit_cons_space {c : Char} {l : List Char} (h : t.space c = true) :
    pySplit t (c :: l) = pySplit t l := by
  unfold pySplit
  rw [List.splitOnP_cons]
  simp [h]

theorem pySplit_word {w : List Char} (h0 : w ≠ []) (h : ∀ c ∈ w, t.space c = false) :
    pySplit t w = [w] := by
  unfold pySplit
  rw [List.splitOnP_eq_singleton h]
  simp [h0]

theorem pySplit_word_cons {w : List Char} {c : Char} {l : List Char} (h0 : w ≠ [])
    (h : ∀ c ∈ w, t.space c = false) (hc : t.space c = true) :
    pySplit t (w ++ c :: l) = w :: pySplit t l := by
  unfold pySplit
  rw [List.splitOnP_append_cons _ _ hc, List.splitOnP_eq_singleton h]
  simp [h0]

theorem tokens_pySplit : ∀ (k : ℕ) (l : List Char), l.length ≤ k → Tokens t l (pySplit t l) := by
  intro k
  induction k with
  | zero =>
    intro l h
    have : l = [] := List.length_eq_zero_iff.1 (by omega)
    subst this
    rw [pySplit_nil]
    exact .nil
  | succ k ih =>
    intro l h
    match l with
    | [] => rw [pySplit_nil]; exact .nil
    | c :: l =>
      cases hc : t.space c with
      | true =>
        rw [pySplit_cons_space hc]
        exact .skip hc (ih l (by simp at h; omega))
      | false =>
        obtain ⟨w, r, hwr, hw, hr⟩ : ∃ w r : List Char, l = w ++ r ∧ (∀ c ∈ w, t.space c = false) ∧
            (r = [] ∨ ∃ d r', r = d :: r' ∧ t.space d = true) := by
          refine ⟨l.takeWhile fun c => !t.space c, l.dropWhile fun c => !t.space c, by simp, ?_, ?_⟩
          · intro c hc
            have := List.all_takeWhile (p := fun c => !t.space c) (l := l)
            simpa using List.all_eq_true.1 this c hc
          · cases hd : l.dropWhile fun c => !t.space c with
            | nil => exact .inl rfl
            | cons d r' =>
              refine .inr ⟨d, r', rfl, ?_⟩
              have hne : l.dropWhile (fun c => !t.space c) ≠ [] := by simp [hd]
              have := List.head_dropWhile_not (fun c => !t.space c) hne
              simpa [hd] using this
        have hw' : ∀ d ∈ c :: w, t.space d = false := by
          intro d hd
          rcases List.mem_cons.1 hd with rfl | hd
          · exact hc
          · exact hw d hd
        rcases hr with rfl | ⟨d, r', rfl, hd⟩
        · subst hwr
          rw [List.append_nil, pySplit_word (by simp) hw']
          exact .last (by simp) hw'
        · subst hwr
          rw [← List.cons_append, pySplit_word_cons (by simp) hw' hd]
          exact .cons (by simp) hw' hd (ih r' (by simp at h; omega))

theorem tokens_iff {l : List Char} {ts : List (List Char)} : Tokens t l ts ↔ pySplit t l = ts := by
  constructor
  · intro h
    induction h with
    | nil => exact pySplit_nil
    | skip hc _ ih => rw [pySplit_cons_space hc, ih]
    | last h0 h => exact pySplit_word h0 h
    | cons h0 h hc _ ih => rw [pySplit_word_cons h0 h hc, ih]
  · rintro rfl
    exact tokens_pySplit _ _ le_rfl

theorem tokens_join (ht : t.Ok) : ∀ ts : List (List Char), (∀ w ∈ ts, w ≠ [] ∧ ∀ c ∈ w, t.space c = false) →
    Tokens t ([' '].intercalate ts) ts
  | [], _ => by simpa using Tokens.nil
  | [w], h => by
    have := h w (by simp)
    have he : [' '].intercalate [w] = w := by simp [List.intercalate, List.intersperse]
    rw [he]
    exact .last this.1 this.2
  | w :: v :: ts, h => by
    have hw := h w (by simp)
    have he : [' '].intercalate (w :: v :: ts) = w ++ ' ' :: [' '].intercalate (v :: ts) := by
      simp [List.intercalate, List.intersperse]
    rw [he]
    exact .cons hw.1 hw.2 ht.space (tokens_join ht (v :: ts) fun u hu => h u (by simp [hu]))

/-! ### Operators -/

theorem IsFactor.no_space (ht : t.Ok) {s : List Char} {p : Char} {k : ℕ} (h : IsFactor t s p k) :
    s ≠ [] ∧ ∀ c ∈ s, t.space c = false := by
  obtain ⟨hp, v, hv, rfl⟩ := h
  refine ⟨by simp, fun c hc => ?_⟩
  simp only [List.cons_append, List.nil_append, List.mem_cons, List.mem_append, List.not_mem_nil,
    or_false] at hc
  rcases hc with rfl | rfl | h | rfl
  · rcases hp with rfl | rfl | rfl <;> exact ht.not_space _ (by simp)
  · exact ht.not_space _ (by simp)
  · exact not_space_numeric ht (IsNumeral.numeric ht hv _ h)
  · exact ht.not_space _ (by simp)

theorem IsQuditText.no_space (ht : t.Ok) {s : List Char} {e : ℤ × ℤ} (h : IsQuditText t s e) :
    s ≠ [] ∧ ∀ c ∈ s, t.space c = false := by
  cases h with
  | one => exact ⟨by simp, fun c hc => ht.not_space c (by simp at hc; simp [hc])⟩
  | single h => exact IsFactor.no_space ht h
  | double h h' =>
    refine ⟨by simp, fun c hc => ?_⟩
    rcases List.mem_append.1 hc with hc | hc
    · exact (IsFactor.no_space ht h).2 c hc
    · rcases List.mem_cons.1 hc with rfl | hc
      · exact ht.not_space _ (by simp)
      · exact (IsFactor.no_space ht h').2 c hc

theorem OpText.no_space (ht : t.Ok) {fi : FieldInts F} {s : List Char} {x z : F} (h : OpText t fi s x z) :
    s ≠ [] ∧ ∀ c ∈ s, t.space c = false := by
  unfold OpText at h
  split at h
  · rcases h with ⟨rfl, -⟩ | ⟨rfl, -⟩ | ⟨rfl, -⟩ | ⟨rfl, -⟩ <;>
      exact ⟨by simp, fun c hc => ht.not_space c (by simp at hc; simp [hc])⟩
  · exact IsQuditText.no_space ht h

theorem toInt_inj {fi : FieldInts F} (hf : Spec.FieldInts.Ok fi) {x y : F} (h : fi.toInt x = fi.toInt y) : x = y := by
  have := hf.ofInt_toInt x
  rw [h, hf.ofInt_toInt y] at this
  exact (Option.some.inj this).symm

theorem opText_spec (ht : t.Ok) {fi : FieldInts F} (hf : Spec.FieldInts.Ok fi) (x z : F) :
    ∃ s, opText fi x z = some s ∧ OpText t fi s x z := by
  unfold opText OpText
  by_cases h2 : fi.order = 2
  · simp only [if_pos h2]
    have h0 : ∀ x, fi.toInt x = 0 → x = 0 := fun x h => toInt_inj hf (by rw [h, hf.zero])
    have h1 : ∀ x, fi.toInt x = 1 → x = 1 := fun x h => toInt_inj hf (by rw [h, hf.one])
    rcases hf.two h2 x with hx | hx <;> rcases hf.two h2 z with hz | hz
    · exact ⟨['I'], by simp [pauliToString, hx, hz], .inl ⟨rfl, h0 x hx, h0 z hz⟩⟩
    · exact ⟨['Z'], by simp [pauliToString, hx, hz], .inr (.inr (.inr ⟨rfl, h0 x hx, h1 z hz⟩))⟩
    · exact ⟨['X'], by simp [pauliToString, hx, hz], .inr (.inl ⟨rfl, h1 x hx, h0 z hz⟩)⟩
    · exact ⟨['Y'], by simp [pauliToString, hx, hz], .inr (.inr (.inl ⟨rfl, h1 x hx, h1 z hz⟩))⟩
  · simp only [if_neg h2]
    exact ⟨_, rfl, (quditFromString_iff ht).1 (quditFromString_toString ht (hf.nonneg x) (hf.nonneg z))⟩

/-- The field elements of one token. -/
def tokenEls (t : CharTable) (fi : FieldInts F) (s : List Char) : Option (F × F) :=
  match tokenValue t fi.order s with
  | .error _ => none
  | .ok v => (fi.ofInt v.1).bind fun x => (fi.ofInt v.2).map fun z => (x, z)

theorem tokenEls_iff (ht : t.Ok) {fi : FieldInts F} (hf : Spec.FieldInts.Ok fi) {s : List Char} {x z : F} :
    tokenEls t fi s = some (x, z) ↔ OpText t fi s x z := by
  have key : ∀ v : ℤ × ℤ, ((fi.ofInt v.1).bind fun x => (fi.ofInt v.2).map fun z => (x, z)) = some (x, z) ↔
      v = (fi.toInt x, fi.toInt z) := by
    rintro ⟨a, b⟩
    constructor
    · intro h
      cases ha : fi.ofInt a with
      | none => simp [ha] at h
      | some a' =>
        cases hb : fi.ofInt b with
        | none => simp [ha, hb] at h
        | some b' =>
          simp only [ha, hb, Option.bind_some, Option.map_some, Option.some.injEq, Prod.mk.injEq] at h
          rw [← h.1, ← h.2, hf.toInt_ofInt _ _ ha, hf.toInt_ofInt _ _ hb]
    · intro h
      cases h
      simp [hf.ofInt_toInt]
  have h0 : ∀ x, (0 : ℤ) = fi.toInt x ↔ x = 0 := fun x =>
    ⟨fun h => toInt_inj hf (by rw [← h, hf.zero]), fun h => by rw [h, hf.zero]⟩
  have h1 : ∀ x, (1 : ℤ) = fi.toInt x ↔ x = 1 := fun x =>
    ⟨fun h => toInt_inj hf (by rw [← h, hf.one]), fun h => by rw [h, hf.one]⟩
  have key' : ∀ a b : ℤ, ((fi.ofInt a).bind fun x => (fi.ofInt b).map fun z => (x, z)) = some (x, z) ↔
      a = fi.toInt x ∧ b = fi.toInt z := fun a b => by
    have := key (a, b)
    rwa [Prod.mk.injEq] at this
  unfold tokenEls tokenValue OpText
  by_cases h2 : fi.order = 2
  · simp only [if_pos h2]
    unfold pauliFromString
    by_cases a : s = ['I']
    · subst a
      simp only [if_true]
      rw [key', h0, h0]
      simp
    · by_cases b : s = ['Z']
      · subst b
        simp only [if_true, if_neg a]
        rw [key', h0, h1]
        simp
      · by_cases c : s = ['X']
        · subst c
          simp only [if_true, if_neg a, if_neg b]
          rw [key', h0, h1]
          simp
        · by_cases d : s = ['Y']
          · subst d
            simp only [if_true, if_neg a, if_neg b, if_neg c]
            rw [key', h1, h1]
            simp
          · simp [a, b, c, d]
  · simp only [if_neg h2]
    cases hq : quditFromString t s with
    | error e =>
      simp only [reduceCtorEq, false_iff]
      intro h
      rw [(quditFromString_iff ht).2 h] at hq
      cases hq
    | ok v =>
      simp only [key]
      rw [← quditFromString_iff ht, hq, Except.ok.injEq]

theorem mapM_tokens {fi : FieldInts F} (tokens : List (List Char)) (els : List (F × F)) :
    (∃ vals, tokens.mapM (tokenValue t fi.order) = .ok vals ∧
      (vals.mapM fun v => (fi.ofInt v.1).bind fun x => (fi.ofInt v.2).map fun z => (x, z)) = some els) ↔
      tokens.mapM (tokenEls t fi) = some els := by
  induction tokens generalizing els with
  | nil =>
    simp only [List.mapM_nil, pure, Except.pure, Except.ok.injEq]
    constructor
    · rintro ⟨vals, rfl, h⟩
      simpa using h
    · intro h
      exact ⟨[], rfl, by simpa using h⟩
  | cons s tokens ih =>
    rw [List.mapM_cons, List.mapM_cons]
    cases hs : tokenValue t fi.order s with
    | error e => simp [tokenEls, hs, bind, Except.bind]
    | ok v =>
      simp only [tokenEls, hs]
      constructor
      · rintro ⟨vals, h1, h2⟩
        cases hr : tokens.mapM (tokenValue t fi.order) with
        | error e => rw [hr] at h1; cases h1
        | ok vs =>
          rw [hr] at h1
          have h1 : v :: vs = vals := by simpa [bind, Except.bind, pure, Except.pure] using h1
          subst h1
          rw [List.mapM_cons] at h2
          cases hv : ((fi.ofInt v.1).bind fun x => (fi.ofInt v.2).map fun z => (x, z)) with
          | none => rw [hv] at h2; cases h2
          | some p =>
            rw [hv] at h2
            cases hw : vs.mapM (fun v : ℤ × ℤ => (fi.ofInt v.1).bind fun x => (fi.ofInt v.2).map fun z => (x, z)) with
            | none => rw [hw] at h2; cases h2
            | some q =>
              rw [hw] at h2
              have := (ih q).1 ⟨vs, hr, hw⟩
              rw [← h2, this]
      · intro h
        cases hv : ((fi.ofInt v.1).bind fun x => (fi.ofInt v.2).map fun z => (x, z)) with
        | none => rw [hv] at h; cases h
        | some p =>
          rw [hv] at h
          cases hw : tokens.mapM (tokenEls t fi) with
          | none => rw [hw] at h; cases h
          | some q =>
            rw [hw] at h
            obtain ⟨vs, h1, h2⟩ := (ih q).2 hw
            refine ⟨v :: vs, by rw [h1]; rfl, ?_⟩
            rw [List.mapM_cons, hv, h2]
            exact h

theorem rowOfTokens_iff (ht : t.Ok) {fi : FieldInts F} (hf : Spec.FieldInts.Ok fi) {n : ℕ}
    {tokens : List (List Char)} {r : Fin (n + n) → F} :
    rowOfTokens t fi n tokens = .ok r ↔ ∃ h : tokens.length = n,
      ∀ i : Fin n, OpText t fi (tokens.get (i.cast h.symm)) (xPart r i) (zPart r i) := by
  have main : rowOfTokens t fi n tokens = .ok r ↔ tokens.length = n ∧ ∃ els : List (F × F),
      tokens.mapM (tokenEls t fi) = some els ∧ ∃ h' : els.length = n,
        r = Fin.append (fun i => (els.get (i.cast h'.symm)).1) fun i => (els.get (i.cast h'.symm)).2 := by
    constructor
    · intro h
      unfold rowOfTokens at h
      split at h
      · rename_i hl
        refine ⟨hl, ?_⟩
        split at h
        · cases h
        · rename_i vals hvals
          split at h
          · cases h
          · rename_i els hels
            split at h
            · rename_i h'
              exact ⟨els, (mapM_tokens _ _).1 ⟨vals, hvals, hels⟩, h', by simpa using h.symm⟩
            · cases h
      · cases h
    · rintro ⟨hl, els, h1, h', rfl⟩
      obtain ⟨vals, hv, he⟩ := (mapM_tokens _ _).2 h1
      unfold rowOfTokens
      rw [dif_pos hl, hv]
      simp only [he, dif_pos h']
  rw [main]
  constructor
  · rintro ⟨hl, els, h1, h', rfl⟩
    refine ⟨hl, fun i => ?_⟩
    have hF := mapM_some_iff.1 h1
    have hi := List.forall₂_iff_get.1 hF
    have := hi.2 i.val (by omega) (by omega)
    rw [← tokenEls_iff ht hf]
    simp only [xPart, zPart, Fin.append_left, Fin.append_right]
    simpa using this
  · rintro ⟨hl, h⟩
    refine ⟨hl, List.ofFn fun i => (xPart r i, zPart r i), ?_, by simp, ?_⟩
    · refine mapM_some_iff.2 (List.forall₂_iff_get.2 ⟨by simp [hl], fun i h1 h2 => ?_⟩)
      have := (tokenEls_iff ht hf).2 (h ⟨i, by omega⟩)
      simpa using this
    · funext j
      refine Fin.addCases (fun i => ?_) (fun i => ?_) j
      · simp [xPart, Fin.append_left]
        rfl
      · simp [zPart, Fin.append_right, -Fin.natAdd_eq_addNat]
        rfl

theorem except_mapM_ok {ε α β : Type} {f : α → Except ε β} {l : List α} {r : List β} :
    l.mapM f = .ok r ↔ List.Forall₂ (fun a b => f a = .ok b) l r := by
  induction l generalizing r with
  | nil => simp [pure, Except.pure, eq_comm]
  | cons a l ih =>
    rw [List.mapM_cons]
    constructor
    · intro h
      cases ha : f a with
      | error e => rw [ha] at h; cases h
      | ok b =>
        rw [ha] at h
        cases hl : l.mapM f with
        | error e => rw [hl] at h; cases h
        | ok bs =>
          rw [hl] at h
          have h : b :: bs = r := by simpa [bind, Except.bind, pure, Except.pure] using h
          subst h
          exact .cons ha (ih.1 hl)
    · intro h
      cases h with
      | cons h1 h2 => rw [h1, ih.2 h2]; rfl

/-- `from_strings` accepts exactly the texts of a matrix, and returns that matrix. -/
theorem fromStrings_iff (ht : t.Ok) {fi : FieldInts F} (hf : Spec.FieldInts.Ok fi) {checks : List (List Char)}
    {n : ℕ} {M : Rows F (n + n)} :
    fromStrings t fi checks = .ok ⟨n, M⟩ ↔
      checks ≠ [] ∧ List.Forall₂ (fun s r => RowText t fi s r) checks M := by
  have hrow : ∀ (s : List Char) (r : Fin (n + n) → F),
      RowText t fi s r ↔ rowOfTokens t fi n (pySplit t s) = .ok r := by
    intro s r
    rw [rowOfTokens_iff ht hf, RowText]
    constructor
    · rintro ⟨ts, h, h'⟩
      rw [tokens_iff] at h
      subst h
      exact h'
    · intro h
      exact ⟨_, tokens_iff.2 rfl, h⟩
  simp only [hrow]
  cases checks with
  | nil => simp [fromStrings]
  | cons s checks =>
    simp only [fromStrings, List.map_cons, ne_eq, reduceCtorEq, not_false_eq_true, true_and]
    rw [except_map_ok]
    have hmap : pySplit t s :: checks.map (pySplit t) = (s :: checks).map (pySplit t) := rfl
    constructor
    · rintro ⟨M', h1, h2⟩
      have hn : (pySplit t s).length = n := congrArg Sigma.fst h2
      subst hn
      have : M' = M := by simpa using h2
      subst this
      rw [except_mapM_ok, hmap, List.forall₂_map_left_iff] at h1
      exact h1
    · intro h
      have hn : (pySplit t s).length = n := by
        cases h with
        | cons h1 h2 => exact ((rowOfTokens_iff ht hf).1 h1).1
      subst hn
      refine ⟨M, ?_, rfl⟩
      rw [except_mapM_ok, hmap, List.forall₂_map_left_iff]
      exact h

theorem getStrings_spec (ht : t.Ok) {fi : FieldInts F} (hf : Spec.FieldInts.Ok fi) {n : ℕ} (M : Rows F (n + n)) :
    ∃ ss, getStrings fi M = some ss ∧ List.Forall₂ (fun s r => RowText t fi s r) ss M := by
  have hrow : ∀ r : Fin (n + n) → F, ∃ s, (((List.finRange n).mapM fun i =>
      opText fi (xPart r i) (zPart r i)).map fun ops => [' '].intercalate ops) = some s ∧
      RowText t fi s r := by
    intro r
    choose f hf1 hf2 using fun i : Fin n => opText_spec ht hf (xPart r i) (zPart r i)
    have h1 : ((List.finRange n).mapM fun i => opText fi (xPart r i) (zPart r i)) =
        some ((List.finRange n).map f) := by
      rw [mapM_some_iff, List.forall₂_map_right_iff]
      exact List.forall₂_same.2 fun i _ => hf1 i
    refine ⟨_, by rw [h1]; rfl, (List.finRange n).map f, tokens_join ht _ ?_, by simp, fun i => ?_⟩
    · intro w hw
      obtain ⟨i, -, rfl⟩ := List.mem_map.1 hw
      exact OpText.no_space ht (hf2 i)
    · have : ((List.finRange n).map f).get (i.cast (by simp)) = f i := by simp
      rw [this]
      exact hf2 i
  choose g hg1 hg2 using hrow
  refine ⟨M.map g, ?_, ?_⟩
  · unfold getStrings
    rw [mapM_some_iff, List.forall₂_map_right_iff]
    exact List.forall₂_same.2 fun r _ => hg1 r
  · rw [List.forall₂_map_left_iff]
    exact List.forall₂_same.2 fun r _ => hg2 r

/-! ### Permutations -/

theorem splitParens_ne_nil : ∀ l : List Char, splitParens l ≠ []
  | [] => by simp [splitParens]
  | [_] => by simp [splitParens]
  | a :: b :: l => by
    rw [splitParens]
    split
    · simp
    · split <;> simp

theorem splitParens_cons {a : Char} {l : List Char} (h : a ≠ ')') :
    splitParens (a :: l) = (splitParens l).modifyHead (a :: ·) := by
  cases l with
  | nil => simp [splitParens]
  | cons b l =>
    rw [splitParens, if_neg (by simp [h])]
    cases hs : splitParens (b :: l) with
    | nil => exact absurd hs (splitParens_ne_nil _)
    | cons w ws => rfl

theorem splitParens_word {w : List Char} (h : ')' ∉ w) (l : List Char) :
    splitParens (w ++ l) = (splitParens l).modifyHead (w ++ ·) := by
  induction w with
  | nil => cases hs : splitParens l <;> simp [hs]
  | cons a w ih =>
    simp only [List.mem_cons, not_or] at h
    rw [List.cons_append, splitParens_cons (Ne.symm h.1), ih h.2]
    cases hs : splitParens l <;> simp

theorem splitParens_join : ∀ ws : List (List Char), ws ≠ [] → (∀ w ∈ ws, ')' ∉ w) →
    splitParens ([')', '('].intercalate ws) = ws
  | [], h, _ => absurd rfl h
  | [w], _, h => by
    have he : [')', '('].intercalate [w] = w ++ [] := by simp [List.intercalate, List.intersperse]
    rw [he, splitParens_word (h w (by simp))]
    simp [splitParens]
  | w :: v :: ws, _, h => by
    have he : [')', '('].intercalate (w :: v :: ws) = w ++ (')' :: '(' :: [')', '('].intercalate (v :: ws)) := by
      simp [List.intercalate, List.intersperse]
    rw [he, splitParens_word (h w (by simp)), splitParens, if_pos ⟨rfl, rfl⟩,
      splitParens_join (v :: ws) (by simp) fun u hu => h u (by simp [hu])]
    simp

theorem flatten_parens : ∀ ws : List (List Char), ws ≠ [] →
    (ws.map fun w => ['('] ++ w ++ [')']).flatten = ['('] ++ [')', '('].intercalate ws ++ [')']
  | [], h => absurd rfl h
  | [w], _ => by simp [List.intercalate, List.intersperse]
  | w :: v :: ws, _ => by
    have ih := flatten_parens (v :: ws) (by simp)
    rw [List.map_cons, List.flatten_cons, ih]
    simp [List.intercalate, List.intersperse]

theorem parseGapLine_gapText (ht : t.Ok) (cycles : List (List ℕ)) (h : ∀ c ∈ cycles, c ≠ []) :
    parseGapLine t (gapText cycles) = some (cycles.map fun c => c.map fun i : ℕ => (i : ℤ) - 1) := by
  by_cases h0 : cycles = []
  · subst h0
    simp [parseGapLine, gapText, splitParens]
  unfold gapText
  rw [if_neg h0]
  have hm : (cycles.map fun c => ['('] ++ [','].intercalate (c.map (Nat.toDigits 10)) ++ [')']) =
      (cycles.map fun c => [','].intercalate (c.map (Nat.toDigits 10))).map fun w => ['('] ++ w ++ [')'] := by
    simp
  rw [hm, flatten_parens _ (by simpa using h0)]
  unfold parseGapLine
  have hcut : ∀ l : List Char, ((['('] ++ l ++ [')']).drop 1).dropLast = l := by simp
  have hword : ∀ c : List ℕ, ∀ x ∈ [','].intercalate (c.map (Nat.toDigits 10)), x = ',' ∨ x.isDigit = true := by
    intro c
    induction c with
    | nil => simp
    | cons a c ih =>
      cases c with
      | nil =>
        intro x hx
        simp only [List.intercalate, List.map_cons, List.map_nil, List.intersperse, List.flatten_cons,
          List.flatten_nil, List.append_nil] at hx
        exact .inr (Nat.isDigit_of_mem_toDigits (by omega) (by omega) hx)
      | cons b c =>
        intro x hx
        have he : [','].intercalate ((a :: b :: c).map (Nat.toDigits 10)) =
            Nat.toDigits 10 a ++ ',' :: [','].intercalate ((b :: c).map (Nat.toDigits 10)) := by
          simp [List.intercalate, List.intersperse]
        rw [he] at hx
        rcases List.mem_append.1 hx with hx | hx
        · exact .inr (Nat.isDigit_of_mem_toDigits (by omega) (by omega) hx)
        · rcases List.mem_cons.1 hx with rfl | hx
          · exact .inl rfl
          · exact ih x hx
  have hne : ∀ c : List ℕ, c ≠ [] → [','].intercalate (c.map (Nat.toDigits 10)) ≠ [] := by
    intro c hc
    cases c with
    | nil => exact absurd rfl hc
    | cons a c =>
      have := Nat.toDigits_ne_nil (n := a) (b := 10)
      cases c <;> simp [List.intercalate, List.intersperse, this]
  rw [hcut, splitParens_join _ (by simpa using h0)]
  · have hfil : (cycles.map fun c => [','].intercalate (c.map (Nat.toDigits 10))).filter (fun c => c ≠ []) =
        cycles.map fun c => [','].intercalate (c.map (Nat.toDigits 10)) := by
      refine List.filter_eq_self.2 fun w hw => ?_
      obtain ⟨c, hc, rfl⟩ := List.mem_map.1 hw
      simpa using hne c (h c hc)
    rw [hfil]
    have hmap : ((cycles.map fun c => [','].intercalate (c.map (Nat.toDigits 10))).mapM fun (c : List Char) =>
        (c.splitOn ',').mapM (pyInt t)) = some (cycles.map fun c => c.map fun i : ℕ => (i : ℤ)) := by
      rw [mapM_some_iff, List.forall₂_map_left_iff, List.forall₂_map_right_iff]
      refine List.forall₂_same.2 fun c hc => ?_
      rw [List.splitOn_intercalate, mapM_some_iff, List.forall₂_map_left_iff, List.forall₂_map_right_iff]
      · exact List.forall₂_same.2 fun i _ => pyInt_decimal ht i
      · intro l hl hm
        obtain ⟨i, -, rfl⟩ := List.mem_map.1 hl
        exact absurd (Nat.isDigit_of_mem_toDigits (by omega) (by omega) hm) (by decide)
      · simpa using h c hc
    rw [hmap]
    simp
  · intro w hw hx
    obtain ⟨c, -, rfl⟩ := List.mem_map.1 hw
    rcases hword c _ hx with h | h
    · exact absurd h (by decide)
    · exact absurd h (by decide)

theorem toGapCycles_eq (cycles : List (List ℕ)) :
    toGapCycles cycles = gapText (cycles.map fun c => c.map (· + 1)) := by
  unfold toGapCycles gapText
  by_cases h : cycles = []
  · subst h; rfl
  · rw [if_neg h, if_neg (by simpa using h)]
    simp [decimal, Function.comp_def]

end QLDPC
