import Verif.Model.RandomCode
import Verif.Props.Classical

/-!
# C95: random codes and words
-/

namespace QLDPC.Props

open QLDPC QLDPC.Spec

variable {S A : Type} {F : Type} [Field F] [DecidableEq F]

/-! ## Seeds -/

/-- **C95**: scrambling a seed leaves the global random state of numpy as it was, whatever it was
and whatever the seed, also if the seed is refused. -/
theorem C95_state_seed (np : NumpyRandom S) (seed : ℤ) (st : S) :
    (getScrambledSeed np seed st).2 = st := by
  unfold getScrambledSeed
  cases np.seedState seed <;> rfl

/-- **C95**: the scrambled seed does not depend on the global random state. -/
theorem C95_seed (np : NumpyRandom S) (seed : ℤ) (st st' : S) :
    (getScrambledSeed np seed st).1 = (getScrambledSeed np seed st').1 := by
  unfold getScrambledSeed
  cases np.seedState seed <;> rfl

/-- **C95**: neither do random arrays and codes change the global random state. -/
theorem C95_state (np : NumpyRandom S) (seeded : ℤ → A) (fresh : ℕ → A) (satisfy : A → Bool)
    (fuel : ℕ) (seed : Option ℤ) (st : S) :
    (getRandomArray np seeded fresh satisfy fuel seed st).2 = st := by
  unfold getRandomArray
  cases seed with
  | none => rfl
  | some s =>
    have h := C95_state_seed np s st
    rcases hg : getScrambledSeed np s st with ⟨r, st'⟩
    rw [hg] at h
    simp only [hg]
    cases r <;> exact h

theorem C95_state_code {checks bits : ℕ} (np : NumpyRandom S)
    (seeded : ℤ → Fin checks → Fin bits → F) (fresh : ℕ → Fin checks → Fin bits → F) (fuel : ℕ)
    (seed : Option ℤ) (st : S) : (randomCode np seeded fresh fuel seed st).2 = st :=
  C95_state np seeded fresh nontrivialArray fuel seed st

theorem resample_some_congr (seeded : ℤ → A) (fresh fresh' : ℕ → A) (satisfy : A → Bool) (fuel : ℕ) :
    ∀ (s : ℤ) (k k' : ℕ), resample seeded fresh satisfy fuel (some s) k =
      resample seeded fresh' satisfy fuel (some s) k' := by
  induction fuel with
  | zero => intros; rfl
  | succ fuel ih =>
    intro s k k'
    simp only [resample, fieldRandom, Option.map_some]
    rw [ih (s + 1) (k + 1) (k' + 1)]
    rfl

/-- **C95**: with a seed the result is determined by the seed: it depends neither on the global
random state nor on what happened before (`fresh`). -/
theorem C95_deterministic (np : NumpyRandom S) (seeded : ℤ → A) (fresh fresh' : ℕ → A)
    (satisfy : A → Bool) (fuel : ℕ) (s : ℤ) (st st' : S) :
    (getRandomArray np seeded fresh satisfy fuel (some s) st).1 =
      (getRandomArray np seeded fresh' satisfy fuel (some s) st').1 := by
  unfold getRandomArray
  have h := C95_seed np s st st'
  rcases hg : getScrambledSeed np s st with ⟨r, t⟩
  rcases hg' : getScrambledSeed np s st' with ⟨r', t'⟩
  rw [hg, hg'] at h
  subst h
  simp only [hg, hg']
  cases r with
  | error e => rfl
  | ok v =>
    show Except.ok _ = Except.ok _
    rw [resample_some_congr seeded fresh fresh' satisfy fuel v 0 0]

theorem C95_deterministic_code {checks bits : ℕ} (np : NumpyRandom S)
    (seeded : ℤ → Fin checks → Fin bits → F) (fresh fresh' : ℕ → Fin checks → Fin bits → F)
    (fuel : ℕ) (s : ℤ) (st st' : S) :
    (randomCode np seeded fresh fuel (some s) st).1 =
      (randomCode np seeded fresh' fuel (some s) st').1 := by
  unfold randomCode
  exact congrArg (fun r => Except.map _ r)
    (C95_deterministic np seeded fresh fresh' nontrivialArray fuel s st st')

/-! ## The first draw that satisfies the condition -/

/-- The sequence of arrays that the loop looks at. -/
def drawAt (seeded : ℤ → A) (fresh : ℕ → A) (seed : Option ℤ) (k i : ℕ) : A :=
  match seed with
  | some s => seeded (s + i)
  | none => fresh (k + i)

/-- The loop returns the first array of its sequence that satisfies the condition, and nothing if
there is none within the given number of rounds. -/
theorem resample_eq_some_iff (seeded : ℤ → A) (fresh : ℕ → A) (satisfy : A → Bool) (fuel : ℕ) :
    ∀ (seed : Option ℤ) (k : ℕ) (a : A), resample seeded fresh satisfy fuel seed k = some a ↔
      ∃ i < fuel, a = drawAt seeded fresh seed k i ∧ satisfy a = true ∧
        ∀ j < i, satisfy (drawAt seeded fresh seed k j) = false := by
  induction fuel with
  | zero => intro seed k a; simp [resample]
  | succ fuel ih =>
    intro seed k a
    have h0 : fieldRandom seeded fresh seed k =
        drawAt seeded fresh seed k 0 := by
      cases seed <;> simp [drawAt, fieldRandom]
    have hs : ∀ i, drawAt seeded fresh (seed.map (· + 1)) (k + 1) i =
        drawAt seeded fresh seed k (i + 1) := by
      intro i
      cases seed with
      | none => simp only [drawAt, Option.map_none]; congr 1; omega
      | some s => simp only [drawAt, Option.map_some]; congr 1; push_cast; ring
    simp only [resample]
    rw [h0]
    by_cases hc : satisfy (drawAt seeded fresh seed k 0) = true
    · rw [if_pos hc]
      constructor
      · intro h
        cases h
        exact ⟨0, by omega, rfl, hc, by intro j hj; omega⟩
      · rintro ⟨i, hi, ha, hsat, hj⟩
        cases i with
        | zero => rw [ha]
        | succ i =>
          have := hj 0 (by omega)
          rw [hc] at this; cases this
    · rw [if_neg hc, ih]
      constructor
      · rintro ⟨i, hi, ha, hsat, hj⟩
        refine ⟨i + 1, by omega, by rw [ha, hs], hsat, ?_⟩
        intro j hj'
        cases j with
        | zero => simpa using hc
        | succ j => rw [← hs]; exact hj j (by omega)
      · rintro ⟨i, hi, ha, hsat, hj⟩
        cases i with
        | zero => rw [ha] at hsat; exact absurd hsat hc
        | succ i =>
          refine ⟨i, by omega, by rw [ha, hs], hsat, ?_⟩
          intro j hj'
          rw [hs]; exact hj (j + 1) (by omega)

/-- **C95**: `get_random_array` without a seed returns the first draw that satisfies the condition;
it returns if and only if there is such a draw. -/
theorem C95_array (np : NumpyRandom S) (seeded : ℤ → A) (fresh : ℕ → A) (satisfy : A → Bool)
    (st : S) (a : A) :
    (∃ fuel, (getRandomArray np seeded fresh satisfy fuel none st).1 = .ok (some a)) ↔
      ∃ i, a = fresh i ∧ satisfy a = true ∧ ∀ j < i, satisfy (fresh j) = false := by
  constructor
  · rintro ⟨fuel, h⟩
    have h' : resample seeded fresh satisfy fuel none 0 = some a := by
      unfold getRandomArray at h
      simpa using h
    obtain ⟨i, _, ha, hs, hj⟩ := (resample_eq_some_iff seeded fresh satisfy fuel none 0 a).1 h'
    simp only [drawAt, zero_add] at ha hj
    exact ⟨i, ha, hs, hj⟩
  · rintro ⟨i, ha, hs, hj⟩
    refine ⟨i + 1, ?_⟩
    unfold getRandomArray
    refine congrArg Except.ok ((resample_eq_some_iff seeded fresh satisfy (i + 1) none 0 a).2 ?_)
    refine ⟨i, by omega, ?_, hs, ?_⟩ <;> simpa only [drawAt, zero_add]

/-- **C95**: with a seed that numpy accepts, the draws are those for the scrambled seed and its
successors. -/
theorem C95_array_seed (np : NumpyRandom S) (seeded : ℤ → A) (fresh : ℕ → A) (satisfy : A → Bool)
    (s : ℤ) (st st1 : S) (hseed : np.seedState s = .ok st1) (a : A) :
    (∃ fuel, (getRandomArray np seeded fresh satisfy fuel (some s) st).1 = .ok (some a)) ↔
      ∃ i : ℕ, a = seeded ((np.randint st1).1 + i) ∧ satisfy a = true ∧
        ∀ j < i, satisfy (seeded ((np.randint st1).1 + j)) = false := by
  have hg : ∀ fuel, (getRandomArray np seeded fresh satisfy fuel (some s) st).1 =
      .ok (resample seeded fresh satisfy fuel (some (np.randint st1).1) 0) := by
    intro fuel
    simp only [getRandomArray, getScrambledSeed, hseed]
  constructor
  · rintro ⟨fuel, h⟩
    rw [hg] at h
    have h' : resample seeded fresh satisfy fuel (some (np.randint st1).1) 0 = some a := by
      simpa using h
    obtain ⟨i, _, ha, hs, hj⟩ := (resample_eq_some_iff seeded fresh satisfy fuel _ 0 a).1 h'
    exact ⟨i, ha, hs, hj⟩
  · rintro ⟨i, ha, hs, hj⟩
    refine ⟨i + 1, ?_⟩
    rw [hg]
    exact congrArg Except.ok ((resample_eq_some_iff seeded fresh satisfy (i + 1) _ 0 a).2
      ⟨i, by omega, ha, hs, hj⟩)

/-! ## Random codes -/

theorem nontrivialArray_iff {checks bits : ℕ} (M : Fin checks → Fin bits → F) :
    nontrivialArray M = true ↔ (∀ i, ∃ j, M i j ≠ 0) ∧ ∀ j, ∃ i, M i j ≠ 0 := by
  unfold nontrivialArray
  simp [List.all_eq_true, List.any_eq_true]

theorem getRandomArray_satisfies (np : NumpyRandom S) (seeded : ℤ → A) (fresh : ℕ → A)
    (satisfy : A → Bool) (fuel : ℕ) (seed : Option ℤ) (st : S) (a : A)
    (h : (getRandomArray np seeded fresh satisfy fuel seed st).1 = .ok (some a)) :
    satisfy a = true := by
  have key : ∀ seed', resample seeded fresh satisfy fuel seed' 0 = some a → satisfy a = true := by
    intro seed' h'
    obtain ⟨_, _, _, hs, _⟩ := (resample_eq_some_iff seeded fresh satisfy fuel seed' 0 a).1 h'
    exact hs
  unfold getRandomArray at h
  cases seed with
  | none => exact key none (by simpa using h)
  | some s =>
    rcases hg : getScrambledSeed np s st with ⟨r, t⟩
    simp only [hg] at h
    cases r with
    | error e => cases h
    | ok v => exact key (some v) (by simpa using h)

/-- **C95**: a random code has the requested number of checks on the requested number of bits (this
is its type), no check is trivial, every bit is checked, and therefore no word of the code has
weight one. -/
theorem C95_code {checks bits : ℕ} (np : NumpyRandom S) (seeded : ℤ → Fin checks → Fin bits → F)
    (fresh : ℕ → Fin checks → Fin bits → F) (fuel : ℕ) (seed : Option ℤ) (st : S)
    (c : CCode F bits) (h : (randomCode np seeded fresh fuel seed st).1 = .ok (some c)) :
    c.matrix.length = checks ∧ (∀ r ∈ c.matrix, r ≠ 0) ∧ (∀ j, ∃ r ∈ c.matrix, r j ≠ 0) ∧
      ∀ w, IsWord c.matrix w → w ≠ 0 → 2 ≤ (Finset.univ.filter fun j => w j ≠ 0).card := by
  unfold randomCode at h
  simp only at h
  rcases hr : (getRandomArray np seeded fresh nontrivialArray fuel seed st).1 with e | M?
  · rw [hr] at h; cases h
  rw [hr] at h
  cases M? with
  | none => cases h
  | some M =>
    have hM := (nontrivialArray_iff M).1 (getRandomArray_satisfies np seeded fresh _ fuel seed st M hr)
    have hc : CCode.ofMatrix (List.ofFn M) = c := by
      simpa [Except.map] using h
    subst hc
    have hcol : ∀ j, ∃ r ∈ (CCode.ofMatrix (List.ofFn M)).matrix, r j ≠ 0 := by
      intro j
      obtain ⟨i, hi⟩ := hM.2 j
      exact ⟨M i, List.mem_ofFn.2 ⟨i, rfl⟩, hi⟩
    refine ⟨List.length_ofFn, ?_, hcol, ?_⟩
    · intro r hr' h0
      obtain ⟨i, rfl⟩ := List.mem_ofFn.1 hr'
      obtain ⟨j, hj⟩ := hM.1 i
      exact hj (congrFun h0 j)
    · intro w hw hne
      by_contra hlt
      obtain ⟨j, hj⟩ : ∃ j, w j ≠ 0 := by
        by_contra hall
        push Not at hall
        exact hne (funext hall)
      have hone : ∀ j', w j' ≠ 0 → j' = j := by
        intro j' hj'
        have hcard : (Finset.univ.filter fun j => w j ≠ 0).card ≤ 1 := by omega
        exact Finset.card_le_one.1 hcard j' (by simpa using hj') j (by simpa using hj)
      obtain ⟨r, hr', hrj⟩ := hcol j
      have h0 := hw r hr'
      rw [Finset.sum_eq_single j] at h0
      · exact (mul_ne_zero hrj hj) h0
      · intro j' _ hne'
        by_contra hmul
        exact hne' (hone j' (right_ne_zero_of_mul hmul))
      · intro hn; exact absurd (Finset.mem_univ j) hn

/-- **C95**: there is something to find if and only if the numbers of bits and checks are both zero
or both positive. -/
theorem C95_possible (checks bits : ℕ) :
    (∃ M : Fin checks → Fin bits → F, nontrivialArray M = true) ↔ (checks = 0 ↔ bits = 0) := by
  constructor
  · rintro ⟨M, hM⟩
    obtain ⟨h1, h2⟩ := (nontrivialArray_iff M).1 hM
    constructor
    · rintro rfl
      by_contra hb
      obtain ⟨i, _⟩ := h2 ⟨0, Nat.pos_of_ne_zero hb⟩
      exact i.elim0
    · rintro rfl
      by_contra hb
      obtain ⟨i, _⟩ := h1 ⟨0, Nat.pos_of_ne_zero hb⟩
      exact i.elim0
  · intro h
    refine ⟨fun _ _ => 1, (nontrivialArray_iff _).2 ⟨fun i => ?_, fun j => ?_⟩⟩
    · have : bits ≠ 0 := fun hb => by have := h.2 hb; exact absurd i.isLt (by omega)
      exact ⟨⟨0, Nat.pos_of_ne_zero this⟩, one_ne_zero⟩
    · have : checks ≠ 0 := fun hb => by have := h.1 hb; exact absurd j.isLt (by omega)
      exact ⟨⟨0, Nat.pos_of_ne_zero this⟩, one_ne_zero⟩

/-- **C95**, disagreement: `ClassicalCode.random` never returns if one of the numbers of bits and
checks is zero and the other is not, e.g. for `ClassicalCode.random(3, 0)`; no error is raised. -/
theorem C95_disagreement (checks bits : ℕ) (h : ¬ (checks = 0 ↔ bits = 0)) (np : NumpyRandom S)
    (seeded : ℤ → Fin checks → Fin bits → F) (fresh : ℕ → Fin checks → Fin bits → F) (st : S)
    (fuel : ℕ) (seed : Option ℤ) (c : CCode F bits) :
    (randomCode np seeded fresh fuel seed st).1 ≠ .ok (some c) := by
  intro hc
  unfold randomCode at hc
  simp only at hc
  rcases hr : (getRandomArray np seeded fresh nontrivialArray fuel seed st).1 with e | M?
  · rw [hr] at hc; cases hc
  rw [hr] at hc
  cases M? with
  | none => cases hc
  | some M =>
    exact h ((C95_possible (F := F) checks bits).1
      ⟨M, getRandomArray_satisfies np seeded fresh _ fuel seed st M hr⟩)

example : ¬ ((0 : ℕ) = 0 ↔ (3 : ℕ) = 0) := by decide

/-- Draws for the examples: the array of zeros first, then the array of ones. -/
def exampleDraws (k : ℕ) : Fin 1 → Fin 2 → ZMod 2 := fun _ _ => if k = 0 then 0 else 1

/-- A generator for the examples that refuses negative seeds. -/
def exampleRandom : NumpyRandom ℤ where
  seedState s := if s < 0 then .error "Seed must be between 0 and 2**32 - 1" else .ok (2 * s)
  randint st := (st + 1, st + 5)

example : (randomCode exampleRandom (fun s => exampleDraws s.toNat) exampleDraws 2 none 7).1 =
    .ok (some (CCode.ofMatrix [![1, 1]])) := by
  rw [show (randomCode exampleRandom (fun s => exampleDraws s.toNat) exampleDraws 2 none 7).1 =
    .ok (some (CCode.ofMatrix (List.ofFn (exampleDraws 1)))) from rfl]
  congr 3
  decide +kernel

example : (getScrambledSeed exampleRandom 3 7).1 = .ok 7 := rfl

/-! ## Random words -/

/-- **C95**: a random word is a word of the code, and every word of the code comes from exactly one
array of coefficients; if all arrays of coefficients are equally likely, then so are all words. -/
theorem C95_word {n : ℕ} (c : CCode F n) (hc : GenBasis c) :
    (∀ coefficients, IsWord c.matrix (randomWord c coefficients)) ∧
      ∀ w, IsWord c.matrix w → ∃! coefficients, randomWord c coefficients = w := by
  obtain ⟨hind, hspan⟩ := hc
  constructor
  · intro co
    rw [hspan, isCombination_iff, mem_rowSpan_iff_vecMat]
    exact ⟨List.ofFn co, List.length_ofFn, rfl⟩
  · intro w hw
    rw [hspan, isCombination_iff, mem_rowSpan_iff_vecMat] at hw
    obtain ⟨v, hv, rfl⟩ := hw
    refine ⟨fun i => v.get (i.cast hv.symm), ?_, ?_⟩
    · unfold randomWord
      congr 1
      apply List.ext_getElem
      · simp [hv]
      · intro i h1 h2; simp
    · intro co hco
      have := vecMat_injective hind List.length_ofFn hv hco
      subst this
      funext i
      simp

/-- **C95**: the hypothesis holds for every code whose generator was not replaced by the user. -/
theorem C95_word_fresh {n : ℕ} (c : CCode F n) (h : c.gen? = none) :
    (∀ coefficients, IsWord c.matrix (randomWord c coefficients)) ∧
      ∀ w, IsWord c.matrix w → ∃! coefficients, randomWord c coefficients = w :=
  C95_word c (genBasis_of_fresh h)

example : (CCode.ofMatrix (rows [![1, 1, 0]])).generator.length = 2 := by decide +kernel

#print axioms C95_state_seed
#print axioms C95_seed
#print axioms C95_state
#print axioms C95_state_code
#print axioms C95_deterministic
#print axioms C95_deterministic_code
#print axioms C95_array
#print axioms C95_array_seed
#print axioms C95_code
#print axioms C95_possible
#print axioms C95_disagreement
#print axioms C95_word
#print axioms C95_word_fresh

/-! ### Instances of the theorems: concrete cases meet the hypotheses -/

example := C95_word (CCode.ofMatrix ([![1, 2, 0]] : Rows (ZMod 3) 3)) (genBasis_of_fresh rfl)
example := C95_word_fresh (CCode.ofMatrix ([![1, 2, 0]] : Rows (ZMod 3) 3)) rfl

example : True := by
  have h := C95_code exampleRandom (fun s => exampleDraws s.toNat) exampleDraws 2 none 7 (CCode.ofMatrix (List.ofFn (exampleDraws 1))) rfl
  trivial
example := C95_array_seed exampleRandom (fun s => exampleDraws s.toNat) exampleDraws (fun _ => true) 3 7 6 rfl

end QLDPC.Props
