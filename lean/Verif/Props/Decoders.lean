import Verif.Lemmas.Lookup
import Verif.Lemmas.GUFSetup
import Verif.Lemmas.LogicalBasis
import Verif.Lemmas.Binary
import Verif.Props.Text
import Mathlib.Algebra.Field.ZMod
import Verif.Spec.CSS

/-!
# C57, C58, C60: lookup, union-find, block and direct decoders
-/

namespace QLDPC.Props

open QLDPC QLDPC.Spec

set_option linter.unusedSectionVars false

variable {F : Type} [Field F] [DecidableEq F] {n : ℕ} {els : List F}

theorem matVec_eq_syndromeOf (H : Rows F n) (e : Fin n → F) : matVec H e = syndromeOf H e := rfl

theorem matVec_eq_pauliSyndrome (M : Rows F (n + n)) (e : Fin (n + n) → F) :
    matVec (M.map symplecticConjugate) e = pauliSyndrome M e := by
  unfold matVec pauliSyndrome
  rw [List.map_map]
  exact List.map_congr_left fun r _ => dot_symplecticConjugate r e

theorem syndromeOf_sub (H : Rows F n) (a b : Fin n → F) (h : syndromeOf H a = syndromeOf H b) :
    IsWord H (a - b) := by
  intro r hr
  have := List.map_inj_left.1 h r hr
  simp only [Pi.sub_apply, mul_sub, Finset.sum_sub_distrib, this, sub_self]

/-! ### C57 -/

/-- **C57**, as far as it holds: among the nonzero errors of weight at most `max_weight`, if one has the
given syndrome, the decoder returns one of least weight with this syndrome; otherwise it returns zero.  What
is missing: for syndrome zero the least error is zero, but see `C57_disagreement`. -/
theorem C57_least_partial (hnd : (0 :: els).Nodup) (hall : ∀ x : F, x ∈ 0 :: els) (H : Rows F n) (maxWeight : ℕ)
    (s : List F) :
    ((∃ e, e ≠ 0 ∧ hammingNorm e ≤ maxWeight ∧ syndromeOf H e = s) →
      syndromeOf H (lookupDecode (0 :: els) H maxWeight s) = s ∧ lookupDecode (0 :: els) H maxWeight s ≠ 0 ∧
      hammingNorm (lookupDecode (0 :: els) H maxWeight s) ≤ maxWeight ∧
      ∀ e, e ≠ 0 → hammingNorm e ≤ maxWeight → syndromeOf H e = s →
        hammingNorm (lookupDecode (0 :: els) H maxWeight s) ≤ hammingNorm e) ∧
    ((¬ ∃ e, e ≠ 0 ∧ hammingNorm e ≤ maxWeight ∧ syndromeOf H e = s) →
      lookupDecode (0 :: els) H maxWeight s = 0) := by
  have hpos : ∀ e : Fin n → F, e ≠ 0 ↔ 1 ≤ hammingNorm e := fun e => by
    rw [Nat.one_le_iff_ne_zero, Ne, Ne, hammingNorm_eq_zero]
  obtain ⟨h1, h2⟩ := lookupDecode_spec hnd hall H maxWeight s
  simp only [hpos]
  refine ⟨fun h => ?_, h2⟩
  obtain ⟨r, hr, a, b, c, d⟩ := h1 h
  rw [hr]
  exact ⟨a, b, c, d⟩

/-- C57: for every syndrome other than zero, the decoder returns an error of least weight with this syndrome
among those of weight at most `max_weight`, if there is one. -/
theorem C57_nonzero (hnd : (0 :: els).Nodup) (hall : ∀ x : F, x ∈ 0 :: els) (H : Rows F n) (maxWeight : ℕ)
    (s : List F) (hs : ∃ x ∈ s, x ≠ 0) (h : ∃ e, hammingNorm e ≤ maxWeight ∧ syndromeOf H e = s) :
    syndromeOf H (lookupDecode (0 :: els) H maxWeight s) = s ∧
      ∀ e, syndromeOf H e = s → hammingNorm (lookupDecode (0 :: els) H maxWeight s) ≤ hammingNorm e := by
  have hne : ∀ e, syndromeOf H e = s → e ≠ 0 := by
    rintro e he rfl
    obtain ⟨x, hx, hx0⟩ := hs
    rw [← he] at hx
    obtain ⟨r, -, rfl⟩ := List.mem_map.1 hx
    simp at hx0
  obtain ⟨e, he, hes⟩ := h
  obtain ⟨a, -, c, d⟩ := (C57_least_partial hnd hall H maxWeight s).1 ⟨e, hne e hes, he, hes⟩
  refine ⟨a, fun e' he' => ?_⟩
  rcases Nat.lt_or_ge maxWeight (hammingNorm e') with h | h
  · omega
  · exact d e' (hne e' he') h he'

/-- C57: if twice `max_weight` is below the weight of every nonzero word of the code, every error of weight at
most `max_weight` is found exactly. -/
theorem C57_unique (hnd : (0 :: els).Nodup) (hall : ∀ x : F, x ∈ 0 :: els) (H : Rows F n) (maxWeight : ℕ)
    (hd : ∀ w, IsWord H w → w ≠ 0 → 2 * maxWeight < hammingNorm w) (e : Fin n → F)
    (he : hammingNorm e ≤ maxWeight) : lookupDecode (0 :: els) H maxWeight (syndromeOf H e) = e := by
  have huniq : ∀ a b : Fin n → F, hammingNorm a ≤ maxWeight → hammingNorm b ≤ maxWeight →
      syndromeOf H a = syndromeOf H b → a = b := by
    intro a b ha hb h
    by_contra hne
    have h1 := hd _ (syndromeOf_sub H a b h) (sub_ne_zero.2 hne)
    have h2 : hammingNorm (a - b) ≤ hammingNorm a + hammingNorm b := by
      have := hammingDist_triangle b 0 a
      rw [hammingDist_eq_hammingNorm, hammingDist_zero_right, hammingDist_zero_left, neg_add_eq_sub] at this
      omega
    omega
  by_cases h0 : ∃ e', e' ≠ 0 ∧ hammingNorm e' ≤ maxWeight ∧ syndromeOf H e' = syndromeOf H e
  · obtain ⟨a, -, c, -⟩ := (C57_least_partial hnd hall H maxWeight _).1 h0
    exact huniq _ _ c he a
  · rw [(C57_least_partial hnd hall H maxWeight _).2 h0]
    by_contra hne
    exact h0 ⟨e, Ne.symm hne, he, rfl⟩

/-- C57: the default of `max_weight` from the exact distance `d`, or from `nan` if the code has no nonzero
word. -/
theorem C57_default (hnd : (0 :: els).Nodup) (hall : ∀ x : F, x ∈ 0 :: els) (H : Rows F n) (d : Option ℕ)
    (hd : match d with | some d => IsMinDistance H d | none => ∀ w, IsWord H w → w = 0) (e : Fin n → F)
    (he : hammingNorm e ≤ defaultMaxWeight d) :
    lookupDecode (0 :: els) H (defaultMaxWeight d) (syndromeOf H e) = e := by
  refine C57_unique hnd hall H _ (fun w hw hne => ?_) e he
  cases d with
  | none => exact absurd (hd w hw) hne
  | some d =>
    have h1 : d ≤ hammingNorm w := hd.2 ⟨w, hw, hne, rfl⟩
    have h2 : hammingNorm w ≠ 0 := fun h => hne (hammingNorm_eq_zero.1 h)
    simp only [defaultMaxWeight]
    omega

/-- C57, disagreement: the repetition code of three bits with `max_weight = 3`: the zero syndrome is decoded
to the error `111`. -/
theorem C57_disagreement :
    lookupDecode [0, 1] ([![1, 1, 0], ![0, 1, 1]] : Rows (ZMod 2) 3) 3 [0, 0] = ![1, 1, 1] ∧
      syndromeOf ([![1, 1, 0], ![0, 1, 1]] : Rows (ZMod 2) 3) 0 = [0, 0] := by
  decide +kernel

theorem sweight_eq_zero {e : Fin (n + n) → F} : sweight e = 0 ↔ e = 0 := by
  unfold sweight
  rw [Finset.card_eq_zero, Finset.filter_eq_empty_iff]
  constructor
  · intro h
    funext j
    refine Fin.addCases (fun j => ?_) (fun j => ?_) j
    · have := h (Finset.mem_univ j)
      push Not at this
      exact this.1
    · have := h (Finset.mem_univ j)
      push Not at this
      exact this.2
  · rintro rfl i -
    simp [xPart, zPart]

theorem sweight_sub_le (a b : Fin (n + n) → F) : sweight (a - b) ≤ sweight a + sweight b := by
  unfold sweight
  refine le_trans (Finset.card_le_card ?_) (Finset.card_union_le _ _)
  intro i hi
  rw [Finset.mem_union, Finset.mem_filter, Finset.mem_filter]
  have hi := (Finset.mem_filter.1 hi).2
  by_contra hno
  push Not at hno
  obtain ⟨h1, h2⟩ := hno
  obtain ⟨a1, a2⟩ := h1 (Finset.mem_univ i)
  obtain ⟨b1, b2⟩ := h2 (Finset.mem_univ i)
  have e1 : xPart (a - b) i = xPart a i - xPart b i := rfl
  have e2 : zPart (a - b) i = zPart a i - zPart b i := rfl
  rw [e1, e2, a1, a2, b1, b2, sub_zero] at hi
  simp at hi

/-- C57 with `symplectic=True`: the same for Pauli errors and the number of qudits they act on. -/
theorem C57_pauli_partial (hnd : (0 :: els).Nodup) (hall : ∀ x : F, x ∈ 0 :: els) (M : Rows F (n + n))
    (maxWeight : ℕ) (s : List F) :
    ((∃ e, e ≠ 0 ∧ sweight e ≤ maxWeight ∧ pauliSyndrome M e = s) →
      pauliSyndrome M (lookupDecodeQ (0 :: els) M maxWeight s) = s ∧ lookupDecodeQ (0 :: els) M maxWeight s ≠ 0 ∧
      sweight (lookupDecodeQ (0 :: els) M maxWeight s) ≤ maxWeight ∧
      ∀ e, e ≠ 0 → sweight e ≤ maxWeight → pauliSyndrome M e = s →
        sweight (lookupDecodeQ (0 :: els) M maxWeight s) ≤ sweight e) ∧
    ((¬ ∃ e, e ≠ 0 ∧ sweight e ≤ maxWeight ∧ pauliSyndrome M e = s) →
      lookupDecodeQ (0 :: els) M maxWeight s = 0) := by
  have hpos : ∀ e : Fin (n + n) → F, e ≠ 0 ↔ 1 ≤ sweight e := fun e => by
    rw [Nat.one_le_iff_ne_zero, Ne, Ne, sweight_eq_zero]
  obtain ⟨h1, h2⟩ := lookupDecodeQ_spec hnd hall M maxWeight s
  simp only [matVec_eq_pauliSyndrome] at h1 h2
  simp only [hpos]
  refine ⟨fun h => ?_, h2⟩
  obtain ⟨r, hr, a, b, c, d⟩ := h1 h
  rw [hr]
  exact ⟨a, b, c, d⟩

/-- C57 with `symplectic=True`: if twice `max_weight` is below the distance of a stabilizer code, every Pauli
error on at most `max_weight` qudits is corrected, up to a product of stabilizers. -/
theorem C57_corrects (hnd : (0 :: els).Nodup) (hall : ∀ x : F, x ∈ 0 :: els) (M : Rows F (n + n))
    (maxWeight : ℕ) (hd : ∀ p, IsNontrivialLogical M p → 2 * maxWeight < sweight p) (e : Fin (n + n) → F)
    (he : sweight e ≤ maxWeight) :
    IsCombination M (lookupDecodeQ (0 :: els) M maxWeight (pauliSyndrome M e) - e) := by
  have hkey : ∀ a, sweight a ≤ maxWeight → pauliSyndrome M a = pauliSyndrome M e → IsCombination M (a - e) := by
    intro a ha h
    by_contra hno
    have hcomm : ∀ r ∈ M, sform r (a - e) = 0 := by
      intro r hr
      have h1 := List.map_inj_left.1 h r hr
      have h2 := sform_add_right r (a - e) e
      rw [sub_add_cancel] at h2
      have h3 : sform r (a - e) = sform r a - sform r e := by rw [h2, add_sub_cancel_right]
      rw [h3, h1, sub_self]
    have hnon : IsNontrivialLogical M (a - e) := by
      refine ⟨fun s hs _ => ?_, hno⟩
      exact sform_span_left (M := M) hcomm ((isCombination_iff _ _).1 hs)
    have h1 := hd _ hnon
    have h2 := sweight_sub_le a e
    omega
  by_cases h0 : ∃ e', e' ≠ 0 ∧ sweight e' ≤ maxWeight ∧ pauliSyndrome M e' = pauliSyndrome M e
  · obtain ⟨a, -, c, -⟩ := (C57_pauli_partial hnd hall M maxWeight _).1 h0
    exact hkey _ c a
  · rw [(C57_pauli_partial hnd hall M maxWeight _).2 h0]
    have : e = 0 := by
      by_contra hne
      exact h0 ⟨e, hne, he, rfl⟩
    exact hkey 0 (by rw [sweight_eq_zero.2 rfl]; omega) (by rw [this])

/-- The distance three code of seven bits corrects every single error. -/
example : lookupDecode [0, 1] ([![0, 0, 0, 1, 1, 1, 1], ![0, 1, 1, 0, 0, 1, 1], ![1, 0, 1, 0, 1, 0, 1]] :
    Rows (ZMod 2) 7) 1 [1, 0, 1] = ![0, 0, 0, 0, 1, 0, 0] := by decide +kernel
example : lookupDecode [0, 1, 2] ([![1, 1, 0], ![0, 1, 2]] : Rows (ZMod 3) 3) 1 [2, 2] = ![0, 2, 0] := by
  decide +kernel
example : lookupDecodeQ (n := 3) [0, 1] ([![0, 0, 0, 1, 1, 0], ![0, 0, 0, 0, 1, 1]] : Rows (ZMod 2) (3 + 3)) 1 [1, 1] =
    ![0, 1, 0, 0, 1, 0] := by decide +kernel

/-! ### C58 -/

/-- What the union-find decoder is to return.  `touches i j`: check `i` acts on bit or qudit `j`; column `c`
belongs to bit or qudit `site c`.  If the syndrome can be explained at all, the answer explains it, with
errors inside the smallest region, grown in steps from the nonzero syndromes, in which this is possible; given
a `max_weight`, the answer has at most this weight, or else the least weight of all solutions inside the
region.  If the syndrome cannot be explained, the answer is zero. -/
def UnionFindAnswer {N : ℕ} (touches : ℕ → ℕ → Prop) (site : ℕ → ℕ) (syn : (Fin N → F) → List F) (s : List F)
    (weight : (Fin N → F) → ℕ) (maxWeight : Option ℕ) (v : Fin N → F) : Prop :=
  ((∃ e, syn e = s) → ∃ k, 1 ≤ k ∧ syn v = s ∧
    (∀ c : Fin N, v c ≠ 0 → Inside touches (Fired s) k (site c)) ∧
    (∀ k', 1 ≤ k' → k' < k → ¬ ∃ e, syn e = s ∧ ∀ c : Fin N, e c ≠ 0 → Inside touches (Fired s) k' (site c)) ∧
    ∀ w, maxWeight = some w → weight v ≤ w ∨
      ∀ e, syn e = s → (∀ c : Fin N, e c ≠ 0 → Inside touches (Fired s) k (site c)) → weight v ≤ weight e) ∧
  ((¬ ∃ e, syn e = s) → v = 0)

theorem start_rep (s : List F) (adj : ℕ → ℕ → Prop) :
    Rep (gufStart s) (Reached adj (Fired s) 0).1 (Reached adj (Fired s) 0).2 := by
  refine ⟨?_, fun x => ?_⟩
  · unfold gufStart
    refine List.Nodup.map (fun a b h => ?_) (List.nodup_range.filter _)
    have : (a : ℤ) = b := congrArg Node.index h
    exact_mod_cast this
  · unfold gufStart
    simp only [List.mem_map, List.mem_filter, List.mem_range, decide_eq_true_eq, Reached, Fired, false_and,
      exists_false, or_false]
    constructor
    · rintro ⟨i, ⟨-, h⟩, rfl⟩
      exact ⟨i, h, rfl⟩
    · rintro ⟨i, h, rfl⟩
      refine ⟨i, ⟨?_, h⟩, rfl⟩
      by_contra hge
      exact h (by simp [List.getD, List.getElem?_eq_none (by omega : s.length ≤ i)])

/-- **C58**, as far as it holds: the decoder terminates with such an answer, for every classical parity check
matrix and every syndrome which is zero on the zero rows of the matrix.  What is missing: syndromes which are
nonzero on a zero row (these cannot be explained) should give zero, but raise; see
`C58_zero_row_disagreement`. -/
theorem C58_classical_partial (hall : ∀ x : F, x ∈ 0 :: els) (order2 : Bool) (h2 : order2 = true → IsBinary F)
    (H : Rows F n) (maxWeight : Option ℕ) (s : List F) (hlen : s.length = H.length)
    (hrows : ∀ i (hi : i < H.length), H[i] = 0 → s.getD i 0 = 0) :
    ∃ v, (∃ fuel₀, ∀ fuel, fuel₀ ≤ fuel → gufDecode (0 :: els) order2 H maxWeight fuel s = some v) ∧
      UnionFindAnswer (Addresses H) (fun c => c) (syndromeOf H) s hammingNorm maxWeight v := by
  have hlive : ∀ i, s.getD i 0 ≠ 0 → ∃ j, Addresses H i j := by
    intro i hne
    have hi : i < H.length := by
      by_contra hge
      exact hne (by simp [List.getD, List.getElem?_eq_none (by omega : s.length ≤ i)])
    by_contra hno
    push Not at hno
    refine hne (hrows i hi ?_)
    funext j
    have := hno j
    simpa [Addresses, matEntry, entryAt, hi] using this
  obtain ⟨v, hv, hres⟩ := gufLoop_spec (setup_classical H) hall h2 (weight := countNonzero) (W := hammingNorm)
    hammingNorm_zero weight_classical maxWeight hlen hlive (H.length + n + 1) (gufStart s) 0 0
    (start_rep s _) (.inl ⟨rfl, rfl⟩) (by omega) (by omega)
  exact ⟨v, ⟨_, hv⟩, hres⟩

/-- **C58** with `symplectic=True`: the same for Pauli errors and their weight. -/
theorem C58_pauli_partial {fi : FieldInts F} (hf : Spec.FieldInts.Ok fi) (hall : ∀ x : F, x ∈ 0 :: els) (order2 : Bool)
    (h2 : order2 = true → IsBinary F) (M : Rows F (n + n)) (maxWeight : Option ℕ) (s : List F)
    (hlen : s.length = M.length) (hrows : ∀ i (hi : i < M.length), M[i] = 0 → s.getD i 0 = 0) :
    ∃ v, (∃ fuel₀, ∀ fuel, fuel₀ ≤ fuel → gufDecodeQ fi (0 :: els) order2 M maxWeight fuel s = some v) ∧
      UnionFindAnswer (ActsOn M) (quditOf n) (pauliSyndrome M) s sweight maxWeight v := by
  have hlive : ∀ i, s.getD i 0 ≠ 0 → ∃ j, ActsOn M i j := by
    intro i hne
    have hi : i < M.length := by
      by_contra hge
      exact hne (by simp [List.getD, List.getElem?_eq_none (by omega : s.length ≤ i)])
    by_contra hno
    push Not at hno
    refine hne (hrows i hi (sweight_eq_zero.1 ?_))
    unfold sweight
    rw [Finset.card_eq_zero, Finset.filter_eq_empty_iff]
    intro j _ hj
    exact hno j ⟨M[i], List.getElem?_eq_getElem hi, j.isLt, hj⟩
  obtain ⟨v, hv, hres⟩ := gufLoop_spec (setup_symplectic hf M) hall h2 (weight := symplecticWeight) (W := sweight)
    (sweight_eq_zero.2 rfl) weight_symplectic maxWeight (by simpa using hlen) hlive (M.length + n + 1) (gufStart s) 0 0
    (start_rep s _) (.inl ⟨rfl, rfl⟩) (by omega) (by simp)
  refine ⟨v, ⟨M.length + n + 1, fun fuel hfu => ?_⟩, ?_⟩
  · unfold gufDecodeQ
    rw [matrixToGraphQ_eq hf, Option.bind_some]
    exact hv fuel hfu
  · unfold GufResult at hres
    simp only [matVec_eq_pauliSyndrome] at hres
    exact hres

/-- C58 for every syndrome that can be explained: no condition on the matrix is needed. -/
theorem C58_solvable (hall : ∀ x : F, x ∈ 0 :: els) (order2 : Bool) (h2 : order2 = true → IsBinary F)
    (H : Rows F n) (maxWeight : Option ℕ) (e : Fin n → F) :
    ∃ v, (∃ fuel₀, ∀ fuel, fuel₀ ≤ fuel →
        gufDecode (0 :: els) order2 H maxWeight fuel (syndromeOf H e) = some v) ∧
      syndromeOf H v = syndromeOf H e ∧
      UnionFindAnswer (Addresses H) (fun c => c) (syndromeOf H) (syndromeOf H e) hammingNorm maxWeight v := by
  obtain ⟨v, hv, hres⟩ := C58_classical_partial hall order2 h2 H maxWeight (syndromeOf H e) (by simp [syndromeOf])
    (fun i hi h0 => by simp [syndromeOf, List.getD_eq_getElem?_getD, hi, h0])
  obtain ⟨k, -, hk, -⟩ := hres.1 ⟨e, rfl⟩
  exact ⟨v, hv, hk, hres⟩

/-- C58 for every syndrome of a Pauli error: no condition on the checks is needed. -/
theorem C58_pauli_solvable {fi : FieldInts F} (hf : Spec.FieldInts.Ok fi) (hall : ∀ x : F, x ∈ 0 :: els)
    (order2 : Bool) (h2 : order2 = true → IsBinary F) (M : Rows F (n + n)) (maxWeight : Option ℕ)
    (e : Fin (n + n) → F) :
    ∃ v, (∃ fuel₀, ∀ fuel, fuel₀ ≤ fuel →
        gufDecodeQ fi (0 :: els) order2 M maxWeight fuel (pauliSyndrome M e) = some v) ∧
      pauliSyndrome M v = pauliSyndrome M e ∧
      UnionFindAnswer (ActsOn M) (quditOf n) (pauliSyndrome M) (pauliSyndrome M e) sweight maxWeight v := by
  obtain ⟨v, hv, hres⟩ := C58_pauli_partial hf hall order2 h2 M maxWeight (pauliSyndrome M e) (by simp [pauliSyndrome])
    (fun i hi h0 => by
      simp only [pauliSyndrome, List.getD_eq_getElem?_getD, List.getElem?_map, List.getElem?_eq_getElem hi, h0,
        Option.map_some, Option.getD_some]
      exact sform_zero_left e)
  obtain ⟨k, -, hk, -⟩ := hres.1 ⟨e, rfl⟩
  exact ⟨v, hv, hk, hres⟩

/-- C58: a nonzero syndrome on a zero row raises, because the graph has no node for this check. -/
theorem C58_zero_row_disagreement (els : List F) (order2 : Bool) (H : Rows F n) (maxWeight : Option ℕ) (fuel : ℕ) (s : List F)
    (hlen : s.length = H.length) (i : ℕ) (hi : i < H.length) (h0 : H[i] = 0) (hs : s.getD i 0 ≠ 0) :
    gufDecode els order2 H maxWeight fuel s = none := by
  unfold gufDecode
  cases fuel with
  | zero => rfl
  | succ fuel =>
    rw [gufLoop]
    have hmem : (⟨i, false⟩ : Node) ∈ gufStart s :=
      ((start_rep s (Addresses H)).check i).2 hs
    have hnone : (matrixToGraph H).neighbors ⟨i, false⟩ = none := by
      unfold TGraph.neighbors
      rw [if_neg]
      rw [nodes_matrixToGraph]
      rintro (⟨i', ⟨j, hj⟩, e⟩ | ⟨j, -, e⟩)
      · have : (i : ℤ) = i' := congrArg Node.index e
        have : i = i' := by exact_mod_cast this
        subst this
        apply hj
        simp [matEntry, hi, h0, entryAt]
      · exact absurd (congrArg Node.isData e) (by simp)
    have : gufGrow (matrixToGraph H).neighbors (gufStart s) = none := by
      unfold gufGrow
      rw [Option.map_eq_none_iff]
      by_contra hne
      obtain ⟨r, hr⟩ := Option.ne_none_iff_exists'.1 hne
      obtain ⟨y, -, hy⟩ := forall₂_left (mapM_some_iff.1 hr) _ hmem
      rw [hnone] at hy
      cases hy
    rw [this]

example : gufDecode [0, 1, 2] false ([![1, 1, 0], ![0, 1, 2]] : Rows (ZMod 3) 3) (some 1) 9 [2, 2] = some ![0, 2, 0] := by
  decide +kernel
example : gufDecodeQ (n := 3) (primeInts 2) [0, 1] true
    ([![0, 0, 0, 1, 1, 0], ![0, 0, 0, 0, 1, 1]] : Rows (ZMod 2) (3 + 3)) (some 1) 9 [1, 1] = some ![0, 1, 0, 0, 0, 0] := by
  decide +kernel

/-! ### C60 -/

theorem take_flatten_block {α : Type} {L : ℕ} (blocks : List (List α)) (h : ∀ b ∈ blocks, b.length = L) (i : ℕ)
    (hi : i < blocks.length) : (blocks.flatten.drop (i * L)).take L = blocks[i] := by
  induction blocks generalizing i with
  | nil => simp at hi
  | cons b blocks ih =>
    have hb := h b (by simp)
    cases i with
    | zero =>
      rw [List.flatten_cons, Nat.zero_mul, List.drop_zero, List.take_append_of_le_length (by omega), ← hb, List.take_length]
      rfl
    | succ i =>
      have hL : (i + 1) * L = b.length + i * L := by rw [hb]; ring
      rw [List.flatten_cons, hL, List.drop_append, List.drop_of_length_le (by omega), List.nil_append,
        Nat.add_sub_cancel_left, ih (fun c hc => h c (by simp [hc])) i (by simpa using hi)]
      rfl

theorem length_flatten_block {α : Type} {L : ℕ} (blocks : List (List α)) (h : ∀ b ∈ blocks, b.length = L) :
    blocks.flatten.length = blocks.length * L := by
  rw [List.length_flatten, List.map_congr_left h, List.map_const', List.sum_replicate, smul_eq_mul]

/-- **C60**: `BlockDecoder` applied to consecutive blocks of the right length gives the consecutive answers
of the base decoder. -/
theorem C60_block {α : Type} (L : ℕ) (hL : L ≠ 0) (decoder : List α → List α) (blocks : List (List α))
    (hne : blocks ≠ []) (h : ∀ b ∈ blocks, b.length = L) :
    blockDecode L decoder blocks.flatten = some (blocks.map decoder).flatten := by
  have hlen := length_flatten_block blocks h
  have hr : reshapeRows L blocks.flatten = some blocks := by
    unfold reshapeRows
    rw [hlen, if_pos ⟨hL, Nat.mul_mod_left _ _⟩, Nat.mul_div_cancel _ (by omega)]
    congr 1
    refine List.ext_getElem (by simp) fun i h1 h2 => ?_
    rw [List.getElem_map, List.getElem_range, take_flatten_block blocks h i h2]
  rw [blockDecode, hr, Option.bind_some, if_neg hne]

/-- C60: every syndrome with the length of at least one block, a multiple of the length of a block, is such a
sequence; on others `BlockDecoder` raises. -/
theorem C60_shape {α : Type} (L : ℕ) (decoder : List α → List α) (s : List α) :
    (blockDecode L decoder s).isSome ↔
      L ≠ 0 ∧ ∃ blocks : List (List α), blocks ≠ [] ∧ (∀ b ∈ blocks, b.length = L) ∧ s = blocks.flatten := by
  constructor
  · intro h
    unfold blockDecode reshapeRows at h
    split at h
    · rename_i hc
      refine ⟨hc.1, (List.range (s.length / L)).map fun b => (s.drop (b * L)).take L, ?_, ?_, ?_⟩
      · intro hnil
        rw [Option.bind_some, if_pos hnil] at h
        cases h
      · intro b hb
        obtain ⟨i, hi, rfl⟩ := List.mem_map.1 hb
        have hi := List.mem_range.1 hi
        rw [List.length_take, List.length_drop]
        have h1 : (i + 1) * L ≤ s.length := by
          calc (i + 1) * L ≤ s.length / L * L := Nat.mul_le_mul_right _ hi
            _ ≤ s.length := Nat.div_mul_le_self _ _
        have h2 : (i + 1) * L = i * L + L := by ring
        omega
      · have key : ∀ k (s : List α), s.length = k * L →
            s = ((List.range k).map fun b => (s.drop (b * L)).take L).flatten := by
          intro k
          induction k with
          | zero => intro s hs; simpa using hs
          | succ k ih =>
            intro s hs
            rw [List.range_succ_eq_map, List.map_cons, List.flatten_cons, Nat.zero_mul, List.drop_zero, List.map_map]
            have h3 := ih (s.drop L) (by rw [List.length_drop, hs]; have : (k + 1) * L = k * L + L := by ring
                                         omega)
            have h4 : ((List.range k).map ((fun b => (s.drop (b * L)).take L) ∘ Nat.succ)) =
                (List.range k).map fun b => ((s.drop L).drop (b * L)).take L := by
              refine List.map_congr_left fun b _ => ?_
              simp only [Function.comp, List.drop_drop]
              congr 2
              rw [Nat.succ_eq_add_one]
              ring
            rw [h4, ← h3, List.take_append_drop]
        exact key _ s (by rw [Nat.div_mul_cancel (Nat.dvd_of_mod_eq_zero hc.2)])
    · cases h
  · rintro ⟨hL, blocks, hne, hb, rfl⟩
    rw [C60_block L hL decoder blocks hne hb]
    rfl

/-- **C60**: if the base decoder solves every block, the answer solves the block diagonal problem: its
consecutive parts have the consecutive syndromes. -/
theorem C60_solves (H : Rows F n) (hH : H ≠ []) (decoder : List F → Fin n → F) (blocks : List (List F))
    (hne : blocks ≠ []) (h : ∀ b ∈ blocks, b.length = H.length)
    (hsolve : ∀ b ∈ blocks, syndromeOf H (decoder b) = b) :
    ∃ answer, blockDecode H.length (fun b => List.ofFn (decoder b)) blocks.flatten = some answer ∧
      answer.length = blocks.length * n ∧
      ∀ i (hi : i < blocks.length), syndromeOf H (fun j => answer.getD (i * n + j) 0) = blocks[i] := by
  refine ⟨_, C60_block H.length (by simpa using hH) _ blocks hne h, ?_, ?_⟩
  · rw [length_flatten_block (L := n)]
    · simp
    · intro b hb
      obtain ⟨a, -, rfl⟩ := List.mem_map.1 hb
      simp
  · intro i hi
    have hl : ∀ b ∈ blocks.map fun b => List.ofFn (decoder b), b.length = n := by
      intro b hb
      obtain ⟨a, -, rfl⟩ := List.mem_map.1 hb
      simp
    have htake := take_flatten_block _ hl i (by simpa using hi)
    have hword : (fun j : Fin n => ((blocks.map fun b => List.ofFn (decoder b)).flatten).getD (i * n + j) 0) =
        decoder blocks[i] := by
      funext j
      have h1 : ((blocks.map fun b => List.ofFn (decoder b)).flatten).getD (i * n + j) 0 =
          (((blocks.map fun b => List.ofFn (decoder b)).flatten.drop (i * n)).take n).getD j 0 := by
        rw [List.getD_eq_getElem?_getD, List.getD_eq_getElem?_getD, List.getElem?_take_of_lt j.isLt, List.getElem?_drop]
      rw [h1, htake]
      simp
    rw [hword]
    exact hsolve _ (List.getElem_mem hi)

/-- **C60**: `DirectDecoder` returns a code word whenever the indirect decoder returns an error with the
syndrome of the received word. -/
theorem C60_direct_word (H : Rows F n) (decoder : List F → Fin n → F) (word : Fin n → F)
    (h : syndromeOf H (decoder (syndromeOf H word)) = syndromeOf H word) :
    IsWord H (directDecode decoder H word) :=
  syndromeOf_sub H _ _ h.symm

/-- C60: the answer is the received word minus the error which the indirect decoder finds; a code word with an
error that the indirect decoder finds is recovered. -/
theorem C60_direct_recovers (H : Rows F n) (decoder : List F → Fin n → F) (word e : Fin n → F) (hw : IsWord H word)
    (h : decoder (syndromeOf H e) = e) : directDecode decoder H (word + e) = word := by
  have : syndromeOf H (word + e) = syndromeOf H e := by
    refine List.map_congr_left fun r hr => ?_
    simp only [Pi.add_apply, mul_add, Finset.sum_add_distrib, hw r hr, zero_add]
  have h' : matVec H (word + e) = syndromeOf H e := this
  unfold directDecode
  rw [h', h, add_sub_cancel_right]

example : blockDecode 2 (fun b => b.reverse) [1, 2, 3, 4, 5, 6] = some [2, 1, 4, 3, 6, 5] := by decide +kernel
example : (blockDecode 2 (fun b => b.reverse) [1, 2, 3]).isSome = false := by decide +kernel
example : directDecode (lookupDecode [0, 1] ([![1, 1, 0], ![0, 1, 1]] : Rows (ZMod 2) 3) 1)
    ([![1, 1, 0], ![0, 1, 1]] : Rows (ZMod 2) 3) ![1, 0, 1] = ![1, 1, 1] := by decide +kernel

/-! ### Instances of the theorems: concrete cases meet the hypotheses -/

private def hamming7 : Rows (ZMod 2) 7 := [![0, 0, 0, 1, 1, 1, 1], ![0, 1, 1, 0, 0, 1, 1], ![1, 0, 1, 0, 1, 0, 1]]
private theorem hamming7_light : ∀ w, IsWord hamming7 w → w ≠ 0 → 2 * 1 < hammingNorm w := by unfold IsWord; decide +kernel
example := C57_least_partial (els := [(1 : ZMod 2)]) (by decide) (by decide) hamming7 1 [1, 0, 1]
example := C57_nonzero (els := [(1 : ZMod 2)]) (by decide) (by decide) hamming7 1 [1, 0, 1] (by decide)
  ⟨![0, 0, 0, 0, 1, 0, 0], by decide +kernel, by decide +kernel⟩
example := C57_unique (els := [(1 : ZMod 2)]) (by decide) (by decide) hamming7 1 hamming7_light ![0, 0, 0, 0, 1, 0, 0] (by decide +kernel)
example := C57_default (els := [(1 : ZMod 2)]) (by decide) (by decide) hamming7 (some 3)
  ⟨⟨![1, 1, 1, 0, 0, 0, 0], by unfold IsWord; decide +kernel, by decide, by decide +kernel⟩,
    by rintro k ⟨w, h1, h2, rfl⟩; exact hamming7_light w h1 h2⟩ ![0, 0, 0, 0, 1, 0, 0] (by decide +kernel)
example := C57_pauli_partial (n := 3) (els := [(1 : ZMod 2)]) (by decide) (by decide) [![0, 0, 0, 1, 1, 0], ![0, 0, 0, 0, 1, 1]] 1 [1, 1]
example := C58_classical_partial (els := [(1 : ZMod 2)]) (by decide) true (fun _ => by unfold IsBinary; decide) hamming7 (some 1) [1, 0, 1] rfl
  (by decide +kernel)
example := C58_pauli_partial (n := 3) (els := [(1 : ZMod 3), 2]) (fi := primeInts 3) (primeInts_ok 3 (by decide)) (by decide) false (by simp)
  [![0, 0, 0, 1, 1, 0], ![0, 0, 0, 0, 1, 1]] none [1, 1] rfl (by decide +kernel)
example := C58_solvable (els := [(1 : ZMod 2)]) (by decide) true (fun _ => by unfold IsBinary; decide) hamming7 (some 1) ![0, 0, 0, 0, 1, 0, 0]
example := C58_pauli_solvable (n := 3) (els := [(1 : ZMod 3), 2]) (fi := primeInts 3) (primeInts_ok 3 (by decide)) (by decide) false (by simp)
  [![0, 0, 0, 1, 1, 0], ![0, 0, 0, 0, 1, 1]] none ![1, 2, 0, 1, 0, 0]
example := C60_block 2 (by decide) (fun b : List ℕ => b.reverse) [[1, 2], [3, 4]] (by simp) (by decide)
example := C60_solves hamming7 (by simp [hamming7]) (lookupDecode [0, 1] hamming7 1) [[1, 0, 1], [0, 1, 1]] (by simp) (by decide +kernel) (by decide +kernel)
example := C60_direct_word hamming7 (lookupDecode [0, 1] hamming7 1) ![1, 1, 1, 1, 0, 0, 1] (by decide +kernel)
example := C60_direct_recovers hamming7 (lookupDecode [0, 1] hamming7 1) ![1, 1, 1, 0, 0, 0, 0] ![0, 0, 0, 0, 1, 0, 0]
  (by unfold IsWord; decide +kernel) (by decide +kernel)

end QLDPC.Props

section AxiomReport
open QLDPC.Props
#print axioms C57_least_partial
#print axioms C57_nonzero
#print axioms C57_unique
#print axioms C57_default
#print axioms C57_disagreement
#print axioms C57_pauli_partial
#print axioms C57_corrects
#print axioms C58_classical_partial
#print axioms C58_pauli_partial
#print axioms C58_zero_row_disagreement
#print axioms C58_solvable
#print axioms C58_pauli_solvable
#print axioms C60_block
#print axioms C60_shape
#print axioms C60_solves
#print axioms C60_direct_word
#print axioms C60_direct_recovers
end AxiomReport
