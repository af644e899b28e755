import Verif.Props.QuasiCyclic
import Verif.Lemmas.CssIsometry

/-!
# Property C106: distances of quasi-cyclic codes

`QCCode` promises that its X- and Z-distances are equal (`/repo/qldpc/codes/quantum.py:242-244`), and the computation of
distances relies on it.
-/

namespace QLDPC.Props

open QLDPC QLDPC.Spec

set_option linter.unusedSectionVars false

variable {F : Type} [Field F] [DecidableEq F] {S : Type} [DecidableEq S] {n : ℕ}

/-- The opposite point of the torus. -/
def negCoords (d : List (S × ℕ)) (I : List ℕ) : List ℕ :=
  List.zipWith (fun (p : S × ℕ) (a : ℕ) => ((-(a : ℤ)) % (p.2 : ℤ)).toNat) d I

theorem toNat_emod (x : ℤ) {n : ℕ} (hn : 0 < n) : ((x % (n : ℤ)).toNat : ℤ) = x % n :=
  Int.toNat_of_nonneg (Int.emod_nonneg _ (by omega))

theorem isExps_negCoords (d : List (S × ℕ)) {I : List ℕ} (hI : IsExps (d.map Prod.snd) I) :
    IsExps (d.map Prod.snd) (negCoords d I) := by
  induction d generalizing I with
  | nil => cases hI; exact .nil
  | cons p d ih =>
    cases hI with
    | cons ha hI =>
      refine .cons ?_ (ih hI)
      have hp : 0 < p.2 := by omega
      have := toNat_emod (-(‹ℕ› : ℤ)) hp
      have h2 := Int.emod_lt_of_pos (-(‹ℕ› : ℤ)) (by exact_mod_cast hp : (0 : ℤ) < p.2)
      change ((-(‹ℕ› : ℤ)) % (p.2 : ℤ)).toNat < p.2
      omega

theorem negCoords_negCoords (d : List (S × ℕ)) {I : List ℕ} (hI : IsExps (d.map Prod.snd) I) :
    negCoords d (negCoords d I) = I := by
  unfold negCoords
  induction d generalizing I with
  | nil => cases hI; rfl
  | cons p d ih =>
    cases hI with
    | cons ha hI =>
      rename_i a I
      have hp : 0 < p.2 := by omega
      rw [List.zipWith_cons_cons, List.zipWith_cons_cons, ih hI, toNat_emod _ hp]
      congr 1
      have : (-(-(a : ℤ) % (p.2 : ℤ))) % (p.2 : ℤ) = a := by
        have h1 : -(a : ℤ) % (p.2 : ℤ) ≡ -(a : ℤ) [ZMOD (p.2 : ℤ)] := Int.mod_modEq _ _
        have h2 := h1.neg
        rw [neg_neg] at h2
        exact h2.eq.trans (Int.emod_eq_of_lt (by omega) (by omega))
      rw [this]
      rfl

theorem movedBy_negCoords (d : List (S × ℕ)) {I : List ℕ} (hI : IsExps (d.map Prod.snd) I) (e : List (S × ℤ)) :
    movedBy (-1) d (negCoords d I) e = negCoords d (movedBy 1 d I e) := by
  unfold movedBy negCoords
  induction d generalizing I with
  | nil => cases hI; rfl
  | cons p d ih =>
    cases hI with
    | cons ha hI =>
      rename_i a I
      have hp : 0 < p.2 := by omega
      simp only [List.zipWith_cons_cons]
      rw [ih hI, toNat_emod _ hp, toNat_emod _ hp]
      congr 2
      apply Int.ModEq.eq
      have h1 : -(a : ℤ) % (p.2 : ℤ) ≡ -(a : ℤ) [ZMOD (p.2 : ℤ)] := Int.mod_modEq _ _
      have h2 : ((a : ℤ) + 1 * exponentOf e p.1) % (p.2 : ℤ) ≡ (a : ℤ) + 1 * exponentOf e p.1 [ZMOD (p.2 : ℤ)] :=
        Int.mod_modEq _ _
      refine (h1.add_right _).trans ?_
      have h3 := h2.neg.symm
      rwa [neg_add, ← neg_mul] at h3

theorem isExps_movedBy (sign : ℤ) (d : List (S × ℕ)) {I : List ℕ} (hI : IsExps (d.map Prod.snd) I) (e : List (S × ℤ)) :
    IsExps (d.map Prod.snd) (movedBy sign d I e) := by
  induction d generalizing I with
  | nil => cases hI; exact .nil
  | cons p d ih =>
    cases hI with
    | cons ha hI =>
      refine .cons ?_ (ih hI)
      rename_i a I
      have hp : 0 < p.2 := by omega
      have := toNat_emod ((a : ℤ) + sign * exponentOf e p.1) hp
      have h2 := Int.emod_lt_of_pos ((a : ℤ) + sign * exponentOf e p.1) (by exact_mod_cast hp : (0 : ℤ) < p.2)
      change (((a : ℤ) + sign * exponentOf e p.1) % (p.2 : ℤ)).toNat < p.2
      omega

/-- Negation on the torus as a permutation of indices. -/
theorem exists_neg (d : List (S × ℕ)) : ∃ τ : Fin (d.map Prod.snd).prod ≃ Fin (d.map Prod.snd).prod,
    (∀ i, τ (τ i) = i) ∧
      ∀ i, torusCoords (d.map Prod.snd) (τ i) = negCoords d (torusCoords (d.map Prod.snd) i) := by
  choose τ hτ using fun i : Fin (d.map Prod.snd).prod => exists_index (isExps_negCoords d (isExps_torusCoords i))
  have hinv : ∀ i, τ (τ i) = i := fun i => torusCoords_inj (by
    rw [hτ, hτ, negCoords_negCoords d (isExps_torusCoords i)])
  exact ⟨⟨τ, τ, hinv, hinv⟩, hinv, hτ⟩

/-- Exchange the two blocks and relabel the qudits within them; negate the second block. -/
def blockSwap {P : ℕ} (τ : Fin P ≃ Fin P) : (Fin (P + P) → F) ≃ₗ[F] (Fin (P + P) → F) :=
  signedPerm (finSumFinEquiv.symm.trans (((Equiv.sumComm _ _).trans (Equiv.sumCongr τ τ)).trans finSumFinEquiv))
    (Fin.append 1 (-1)) (fun q => by induction q using Fin.addCases <;> simp [Fin.append_left, Fin.append_right, -Fin.natAdd_eq_addNat])

theorem blockSwap_left {P : ℕ} (τ : Fin P ≃ Fin P) (v : Fin (P + P) → F) (j : Fin P) :
    blockSwap τ v (Fin.castAdd P j) = v (Fin.natAdd P (τ j)) := by
  simp [blockSwap, signedPerm, -Fin.natAdd_eq_addNat]

theorem blockSwap_right {P : ℕ} (τ : Fin P ≃ Fin P) (v : Fin (P + P) → F) (j : Fin P) :
    blockSwap τ v (Fin.natAdd P j) = - v (Fin.castAdd P (τ j)) := by
  simp [blockSwap, signedPerm, -Fin.natAdd_eq_addNat]

theorem isometry_blockSwap {P : ℕ} (τ : Fin P ≃ Fin P) : IsIsometry (blockSwap (F := F) τ) :=
  isIsometry_signedPerm _ _ _

/-- If the checks are blocks that are related by a relabelling, the relabelling exchanges X and Z checks. -/
theorem mapsSpan_blocks {P : ℕ} (τ : Fin P ≃ Fin P) (hτ : ∀ i, τ (τ i) = i) {mx mz : Rows F (P + P)}
    (hx : mx.length = P) (hz : mz.length = P) (a b : Fin P → Fin P → F)
    (h1 : ∀ i j : Fin P, matEntry mx i j = a i j) (h2 : ∀ i j : Fin P, matEntry mx i (P + j) = b i j)
    (h3 : ∀ i j : Fin P, matEntry mz i j = b (τ i) (τ j)) (h4 : ∀ i j : Fin P, matEntry mz i (P + j) = - a (τ i) (τ j)) :
    MapsSpan (blockSwap τ) mx mz ∧ MapsSpan (blockSwap τ) mz mx := by
  have ex : ∀ (i : Fin P) (q : Fin (P + P)), matEntry mx i q = (mx[i.val]'(by omega)) q := fun i q => matEntry_fin _ _ _
  have ez : ∀ (i : Fin P) (q : Fin (P + P)), matEntry mz i q = (mz[i.val]'(by omega)) q := fun i q => matEntry_fin _ _ _
  have e1 : ∀ i : Fin P, blockSwap τ (mx[i.val]'(by omega)) = mz[(τ i).val]'(by omega) := by
    intro i
    funext q
    induction q using Fin.addCases with
    | left j =>
      rw [blockSwap_left, ← ex, ← ez]
      have e := h3 (τ i) j
      rw [hτ] at e
      exact (h2 i (τ j)).trans e.symm
    | right j =>
      rw [blockSwap_right, ← ex, ← ez]
      have e := h4 (τ i) j
      rw [hτ] at e
      exact (congrArg Neg.neg (h1 i (τ j))).trans e.symm
  have e2 : ∀ i : Fin P, blockSwap τ (mz[i.val]'(by omega)) = - mx[(τ i).val]'(by omega) := by
    intro i
    funext q
    induction q using Fin.addCases with
    | left j =>
      rw [blockSwap_left, Pi.neg_apply, ← ex, ← ez]
      have e := h4 i (τ j)
      rw [hτ] at e
      exact e.trans (congrArg Neg.neg (h1 (τ i) j).symm)
    | right j =>
      rw [blockSwap_right, Pi.neg_apply, ← ex, ← ez]
      have e := h3 i (τ j)
      rw [hτ] at e
      exact congrArg Neg.neg (e.trans (h2 (τ i) j).symm)
  constructor
  · refine MapsSpan.of_rows ?_ ?_
    · intro r hr
      obtain ⟨i, hi, rfl⟩ := List.getElem_of_mem hr
      rw [e1 ⟨i, by omega⟩]
      exact subset_rowSpan (List.getElem_mem _)
    · intro r hr
      obtain ⟨i, hi, rfl⟩ := List.getElem_of_mem hr
      refine ⟨_, List.getElem_mem (by rw [hx]; exact (τ ⟨i, by omega⟩).isLt), Or.inl ?_⟩
      rw [e1]
      simp only [hτ]
  · refine MapsSpan.of_rows ?_ ?_
    · intro r hr
      obtain ⟨i, hi, rfl⟩ := List.getElem_of_mem hr
      rw [e2 ⟨i, by omega⟩]
      exact Submodule.neg_mem _ (subset_rowSpan (List.getElem_mem _))
    · intro r hr
      obtain ⟨i, hi, rfl⟩ := List.getElem_of_mem hr
      refine ⟨_, List.getElem_mem (by rw [hz]; exact (τ ⟨i, by omega⟩).isLt), Or.inr ?_⟩
      rw [e2, neg_neg]
      simp only [hτ]

theorem moved_neg (d : List (S × ℕ)) (τ : Fin (d.map Prod.snd).prod ≃ Fin (d.map Prod.snd).prod)
    (hco : ∀ i, torusCoords (d.map Prod.snd) (τ i) = negCoords d (torusCoords (d.map Prod.snd) i))
    (i j : Fin (d.map Prod.snd).prod) (e : List (S × ℤ)) :
    torusCoords (d.map Prod.snd) (τ j) = movedBy 1 d (torusCoords (d.map Prod.snd) (τ i)) e ↔
      torusCoords (d.map Prod.snd) j = movedBy (-1) d (torusCoords (d.map Prod.snd) i) e := by
  have hI := isExps_torusCoords (orders := d.map Prod.snd) (τ i)
  have e1 := movedBy_negCoords d hI e
  rw [hco i, negCoords_negCoords d (isExps_torusCoords i), ← hco i] at e1
  rw [e1, hco j]
  constructor
  · intro h0
    rw [← h0, negCoords_negCoords d (isExps_torusCoords j)]
  · intro h0
    rw [h0, negCoords_negCoords d (isExps_movedBy 1 d hI e)]

/-- The sum of the coefficients of the monomials that lead from one point to another. -/
def shiftSum (C : ℤ → F) (sign : ℤ) (d : List (S × ℕ)) (poly : List (Term S)) (i j : Fin (d.map Prod.snd).prod) : F :=
  (poly.map fun t => if torusCoords (d.map Prod.snd) j = movedBy sign d (torusCoords (d.map Prod.snd) i) t.exps
    then C t.coeff else 0).sum

theorem shiftSum_neg (C : ℤ → F) (d : List (S × ℕ)) (poly : List (Term S))
    (τ : Fin (d.map Prod.snd).prod ≃ Fin (d.map Prod.snd).prod)
    (hco : ∀ i, torusCoords (d.map Prod.snd) (τ i) = negCoords d (torusCoords (d.map Prod.snd) i))
    (i j : Fin (d.map Prod.snd).prod) : shiftSum C (-1) d poly i j = shiftSum C 1 d poly (τ i) (τ j) :=
  congrArg List.sum (List.map_congr_left fun t _ => if_congr (moved_neg d τ hco i j t.exps).symm rfl rfl)

/-- Quasi-cyclic codes are mapped to themselves, with X and Z exchanged, by a relabelling of the qudits. -/
theorem qc_swap {drop : Bool} {coeffOf : ℤ → Option F} {C : ℤ → F} {d : List (S × ℕ)} {polyA polyB : List (Term S)}
    (hA : QCInput drop coeffOf C d polyA) (hB : QCInput drop coeffOf C d polyB)
    {mx mz : Rows F ((d.map Prod.snd).prod + (d.map Prod.snd).prod)}
    (h : qcMatrices drop coeffOf d polyA polyB = some (mx, mz)) :
    ∃ τ : Fin (d.map Prod.snd).prod ≃ Fin (d.map Prod.snd).prod,
      MapsSpan (blockSwap τ) mx mz ∧ MapsSpan (blockSwap τ) mz mx := by
  obtain ⟨mx', mz', h', hx, hz, -, hent⟩ := C51_code hA hB
  rw [h] at h'
  obtain ⟨rfl, rfl⟩ := Prod.mk.inj (Option.some.inj h')
  obtain ⟨τ, hτ, hco⟩ := exists_neg d
  have h1 : ∀ i j, matEntry mx (i : Fin (d.map Prod.snd).prod) (j : Fin (d.map Prod.snd).prod) =
    shiftSum C 1 d polyA i j := fun i j => (hent i j).1
  have h2 : ∀ i j, matEntry mx (i : Fin (d.map Prod.snd).prod) ((d.map Prod.snd).prod + (j : Fin (d.map Prod.snd).prod)) =
    shiftSum C 1 d polyB i j := fun i j => (hent i j).2.1
  have h3 : ∀ i j, matEntry mz (i : Fin (d.map Prod.snd).prod) (j : Fin (d.map Prod.snd).prod) =
    shiftSum C 1 d polyB (τ i) (τ j) := fun i j => (hent i j).2.2.1.trans (shiftSum_neg C d polyB τ hco i j)
  have h4 : ∀ i j, matEntry mz (i : Fin (d.map Prod.snd).prod) ((d.map Prod.snd).prod + (j : Fin (d.map Prod.snd).prod)) =
    - shiftSum C 1 d polyA (τ i) (τ j) := fun i j => (hent i j).2.2.2.trans
      (congrArg Neg.neg (shiftSum_neg C d polyA τ hco i j))
  exact ⟨τ, mapsSpan_blocks τ hτ hx hz _ _ h1 h2 h3 h4⟩

section

variable {drop : Bool} {coeffOf : ℤ → Option F} {C : ℤ → F} {d : List (S × ℕ)} {polyA polyB : List (Term S)}
  {mx mz : Rows F ((d.map Prod.snd).prod + (d.map Prod.snd).prod)}

/-- **C106**: the X- and Z-distances of a quasi-cyclic code are equal, as its constructor promises: a number is (or, if there
are no logical qudits, `nan` is) the X-distance if and only if it is the Z-distance. -/
theorem C106_equal_distances (hA : QCInput drop coeffOf C d polyA) (hB : QCInput drop coeffOf C d polyB)
    (h : qcMatrices drop coeffOf d polyA polyB = some (mx, mz)) (dist : Option ℕ) :
    XDistanceIs mx mz dist ↔ XDistanceIs mz mx dist := by
  obtain ⟨τ, h1, h2⟩ := qc_swap hA hB h
  exact ((isometry_blockSwap τ).xDistanceIs h1 h2 dist).symm

/-- The object that the constructor makes: a stabilizer code with the promise of equal distances
(`/repo/qldpc/codes/quantum.py:160-168`, `242-244`). -/
def qcObject (m : Rows F n × Rows F n) : CssCode F n := CssCode.ofMatrices m.1 m.2 (some false) true

/-- **C106**: the object made by `QCCode` is consistent, so that all that is proved of consistent CSS codes holds for it. -/
theorem C106_consistent (hA : QCInput drop coeffOf C d polyA) (hB : QCInput drop coeffOf C d polyB)
    (h : qcMatrices drop coeffOf d polyA polyB = some (mx, mz)) : CssOk (qcObject (mx, mz)) := by
  obtain ⟨mx', mz', h', -, -, hc, -⟩ := C51_code hA hB
  rw [h] at h'
  obtain ⟨rfl, rfl⟩ := Prod.mk.inj (Option.some.inj h')
  exact cssOk_ofMatrices _ _ _ _ (fun _ => hc) fun _ => C106_equal_distances hA hB h

/-- **C106**: `get_distance_exact` of a quasi-cyclic code, for X, Z or both, returns the right distance, although it looks at
one of the two types only. -/
theorem C106_exact (els : List F) (hnd : (0 :: els).Nodup) (hall : ∀ x, x ∈ 0 :: els)
    (h64 : (d.map Prod.snd).prod + (d.map Prod.snd).prod < 2 ^ 64)
    (hA : QCInput drop coeffOf C d polyA) (hB : QCInput drop coeffOf C d polyB)
    (h : qcMatrices drop coeffOf d polyA polyB = some (mx, mz)) (p : Option PauliXZ) :
    ∃ dist, ((qcObject (mx, mz)).distExact 64 (0 :: els) p).1 = some dist ∧ ReportIs mx mz p dist := by
  obtain ⟨dist, c', h1, h2, -⟩ := C27_exact els hnd hall h64 _ (C106_consistent hA hB h) p
  exact ⟨dist, by rw [h1], h2⟩

/-- **C106**: the number of logical qudits of a quasi-cyclic code is even: twice the number of qudits in a block minus the
rank of the X checks. -/
theorem C106_dimension (hA : QCInput drop coeffOf C d polyA) (hB : QCInput drop coeffOf C d polyB)
    (h : qcMatrices drop coeffOf d polyA polyB = some (mx, mz)) :
    (qcObject (mx, mz)).dimension = 2 * ((d.map Prod.snd).prod - rank mx) ∧ rank mx ≤ (d.map Prod.snd).prod ∧
      rank mx = rank mz := by
  obtain ⟨τ, h1, -⟩ := qc_swap hA hB h
  have hr := h1.rank_eq
  obtain ⟨mx', mz', h', hlen, -⟩ := C51_code hA hB
  rw [h] at h'
  obtain ⟨rfl, rfl⟩ := Prod.mk.inj (Option.some.inj h')
  have hle : rank mx ≤ (d.map Prod.snd).prod := (rank_le_length mx).trans_eq hlen
  refine ⟨?_, hle, hr⟩
  change cssDimension mx mz false = _
  unfold cssDimension
  rw [length_dropZero_rowReduce, length_dropZero_rowReduce]
  simp only [Bool.false_eq_true, if_false]
  omega

end

/-- A concrete case: the polynomials of the `[[72, 12, 6]]` code. -/
theorem qcInput_72 : QCInput true coeffTwo (fun c => (c : ZMod 2)) [((0 : ℕ), 6), (1, 6)]
      [⟨1, [(0, 3)]⟩, ⟨1, [(1, 1)]⟩, ⟨1, [(1, 2)]⟩] ∧
    QCInput true coeffTwo (fun c => (c : ZMod 2)) [((0 : ℕ), 6), (1, 6)]
      [⟨1, [(1, 3)]⟩, ⟨1, [(0, 1)]⟩, ⟨1, [(0, 2)]⟩] :=
  ⟨⟨Or.inl (by decide +kernel), by decide +kernel, by decide +kernel, by decide +kernel⟩,
    ⟨Or.inl (by decide +kernel), by decide +kernel, by decide +kernel, by decide +kernel⟩⟩

example : ∃ mx mz, qcMatrices true coeffTwo [((0 : ℕ), 6), (1, 6)]
      [⟨1, [(0, 3)]⟩, ⟨1, [(1, 1)]⟩, ⟨1, [(1, 2)]⟩] [⟨1, [(1, 3)]⟩, ⟨1, [(0, 1)]⟩, ⟨1, [(0, 2)]⟩] = some (mx, mz) ∧
    (∀ dist, XDistanceIs mx mz dist ↔ XDistanceIs mz mx dist) ∧
    ∃ dist, ((qcObject (mx, mz)).distExact 64 [0, 1] none).1 = some dist ∧ ReportIs mx mz none dist := by
  obtain ⟨mx, mz, h, -⟩ := C51_code qcInput_72.1 qcInput_72.2
  exact ⟨mx, mz, h, C106_equal_distances qcInput_72.1 qcInput_72.2 h,
    C106_exact [1] (by decide) (by decide) (by decide) qcInput_72.1 qcInput_72.2 h none⟩

/-- A small case, evaluated: `1 + x` twice, with `x` of order three, is a code with two logical qubits and distance two. -/
example : (qcMatrices true coeffTwo [((0 : ℕ), 3)] [⟨1, []⟩, ⟨1, [(0, 1)]⟩] [⟨1, []⟩, ⟨1, [(0, 1)]⟩]).map
    (fun m => ((qcObject m).dimension, ((qcObject m).distExact 64 [0, 1] none).1)) = some (2, some (some 2)) := by
  decide +kernel

#print axioms C106_equal_distances
#print axioms C106_consistent
#print axioms C106_exact
#print axioms C106_dimension

/-! ### Instances of the theorems: concrete cases meet the hypotheses -/

example : True := by
  obtain ⟨mx, mz, h, -⟩ := C51_code qcInput_72.1 qcInput_72.2
  have h1 := C106_consistent qcInput_72.1 qcInput_72.2 h
  have h2 := C106_dimension qcInput_72.1 qcInput_72.2 h
  trivial

end QLDPC.Props
