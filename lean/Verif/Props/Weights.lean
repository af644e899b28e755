import Verif.Model.Weights
import Verif.Lemmas.Weights
import Verif.Props.QuantumEquiv
import Verif.Props.LiftedProduct
import Verif.Props.QuasiCyclic
import Verif.Props.QuasiCyclicDistance
import Verif.Props.QuantumTanner

/-!
# Property C108: sparsity of product codes

Theorems are about the models of `get_weight` (`Verif/Model/Weights.lean`, `Verif/Model/QuantumEquiv.lean`) and of the parity
check matrices of product codes (`Verif/Model/Product.lean`, `Verif/Model/LiftedProduct.lean`).
-/

namespace QLDPC.Props

open QLDPC QLDPC.Spec

variable {F : Type} [Field F] [DecidableEq F] {n m : ℕ}

/-- **C108**: `ClassicalCode.get_weight` is the largest number of bits of a parity check, and raises without checks. -/
theorem C108_classical (c : CCode F n) :
    (∀ w, c.getWeight = some w ↔ IsMaxRowWeight c.matrix w) ∧ (c.getWeight = none ↔ c.matrix = []) := by
  have h : (fun r : Fin n → F => ((List.finRange n).filter fun i => r i ≠ 0).length) = hammingNorm := by
    funext r
    unfold hammingNorm
    rw [Finset.card_filter, Fin.sum_univ_def, ← List.countP_eq_length_filter, countP_eq_sum_ite]
    simp
  unfold CCode.getWeight
  rw [h]
  constructor
  · intro w
    rw [List.max?_eq_some_iff, IsMaxRowWeight, IsGreatest, mem_upperBounds]
    simp only [List.mem_map, Set.mem_setOf_eq]
    refine and_congr ⟨fun ⟨r, h1, h2⟩ => ⟨r, h1, h2.symm⟩, fun ⟨r, h1, h2⟩ => ⟨r, h1, h2.symm⟩⟩ ⟨?_, ?_⟩
    · rintro h x ⟨r, hr, rfl⟩; exact h _ ⟨r, hr, rfl⟩
    · rintro h x ⟨r, hr, rfl⟩; exact h _ ⟨r, hr, rfl⟩
  · rw [List.max?_eq_none_iff, List.map_eq_nil_iff]

/-! ## Hypergraph products -/

/-- **C108**: a check of a hypergraph product belongs to a check of one code and a bit of the other, and its weight is the
number of bits of the former plus the number of checks of the latter. -/
theorem C108_hgp_checks (A : Rows F n) (B : Rows F m) :
    (hgpX id A B).map hammingNorm =
      A.flatMap (fun a => (List.finRange m).map fun j => hammingNorm a + colWeight B j) ∧
    (hgpZ id A B).map hammingNorm =
      (List.finRange n).flatMap fun k => B.map fun b => hammingNorm b + colWeight A k := by
  constructor
  · rw [hgpX_eq, List.map_flatMap]
    conv_rhs => rw [rows_eq_map A, List.flatMap_map]
    simp only [List.map_map, Function.comp_def, norm_hgpRowX]
  · rw [hgpZ_eq, List.map_flatMap]
    refine List.flatMap_congr fun k _ => ?_
    conv_rhs => rw [rows_eq_map B, List.map_map]
    simp only [List.map_map, Function.comp_def, norm_hgpRowZ]

/-- **C108**: a qudit of a hypergraph product belongs to a bit of each code or to a check of each code, and is in as many
X-type (Z-type) checks as the bit of the first (second) code is in, respectively as there are bits in the check of the second
(first) code. -/
theorem C108_hgp_qudits (A : Rows F n) (B : Rows F m) :
    (∀ (p : Fin n) (q : Fin m),
      colWeight (hgpX id A B) (Fin.castAdd _ (flat p q)) = colWeight A p ∧
      colWeight (hgpZ id A B) (Fin.castAdd _ (flat p q)) = colWeight B q) ∧
    ∀ (k : Fin A.length) (l : Fin B.length),
      colWeight (hgpX id A B) (Fin.natAdd _ (flat k l)) = hammingNorm (B.get l) ∧
      colWeight (hgpZ id A B) (Fin.natAdd _ (flat k l)) = hammingNorm (A.get k) := by
  simp only [hgpX_eq, hgpZ_eq, colWeight_flatMap, ← Fin.sum_univ_def]
  refine ⟨fun p q => ⟨?_, ?_⟩, fun k l => ⟨?_, ?_⟩⟩
  · rw [colWeight_eq_sum]
    refine Finset.sum_congr rfl fun i _ => ?_
    rw [← sum_ite_unit q]
    refine Finset.sum_congr rfl fun j _ => ?_
    rw [hgpRowX, Fin.append_left, kronRow_flat]
    simp [unitRow, eq_comm, and_comm]
  · rw [Finset.sum_comm, colWeight_eq_sum]
    refine Finset.sum_congr rfl fun i _ => ?_
    rw [← sum_ite_unit p]
    refine Finset.sum_congr rfl fun j _ => ?_
    rw [hgpRowZ, Fin.append_left, kronRow_flat]
    simp [unitRow, eq_comm, and_comm]
  · rw [Finset.sum_comm, hammingNorm, Finset.card_filter]
    refine Finset.sum_congr rfl fun i _ => ?_
    rw [← sum_ite_unit k]
    refine Finset.sum_congr rfl fun j _ => ?_
    rw [hgpRowX, Fin.append_right, kronRow_flat]
    simp [unitRow, eq_comm, and_comm]
  · rw [hammingNorm, Finset.card_filter]
    refine Finset.sum_congr rfl fun i _ => ?_
    rw [← sum_ite_unit l]
    refine Finset.sum_congr rfl fun j _ => ?_
    rw [hgpRowZ, Fin.append_right, kronRow_flat]
    simp [unitRow, eq_comm, and_comm]

/-- **C108**: `get_weight` of a hypergraph product of two codes. -/
theorem C108_hgp_weight {fi : FieldInts F} (ok : FieldInts.Ok fi) (A : Rows F n) (B : Rows F m) (ra ca rb cb : ℕ)
    (hra : IsMaxRowWeight A ra) (hca : IsMaxColWeight A ca) (hrb : IsMaxRowWeight B rb) (hcb : IsMaxColWeight B cb) :
    (QuantumCode.css (hgpX id A B) (hgpZ id A B) false).weight fi = some (max (ra + cb) (rb + ca)) := by
  rw [C100_weight_css ok]
  change (∃ r ∈ hgpX id A B ++ hgpZ id A B, hammingNorm r = _) ∧ ∀ r ∈ hgpX id A B ++ hgpZ id A B, hammingNorm r ≤ _
  obtain ⟨⟨a, ha, rfl⟩, ha'⟩ := hra
  obtain ⟨⟨b, hb, rfl⟩, hb'⟩ := hrb
  obtain ⟨⟨k, rfl⟩, hk'⟩ := hca
  obtain ⟨⟨j, rfl⟩, hj'⟩ := hcb
  obtain ⟨i, rfl⟩ := List.mem_iff_get.1 ha
  obtain ⟨l, rfl⟩ := List.mem_iff_get.1 hb
  constructor
  · rcases le_total (hammingNorm (B.get l) + colWeight A k) (hammingNorm (A.get i) + colWeight B j) with h | h
    · exact ⟨_, List.mem_append_left _ ((mem_hgpX _ _ _ _).2 ⟨i, j, rfl⟩), by rw [norm_hgpRowX, max_eq_left h]⟩
    · exact ⟨_, List.mem_append_right _ ((mem_hgpZ _ _ _ _).2 ⟨k, l, rfl⟩), by rw [norm_hgpRowZ, max_eq_right h]⟩
  · intro r hr
    rcases List.mem_append.1 hr with hr | hr
    · obtain ⟨i', j', rfl⟩ := (mem_hgpX _ _ _ _).1 hr
      rw [norm_hgpRowX]
      exact le_max_of_le_left (Nat.add_le_add (ha' ⟨_, List.get_mem _ _, rfl⟩) (hj' ⟨_, rfl⟩))
    · obtain ⟨i', j', rfl⟩ := (mem_hgpZ _ _ _ _).1 hr
      rw [norm_hgpRowZ]
      exact le_max_of_le_right (Nat.add_le_add (hb' ⟨_, List.get_mem _ _, rfl⟩) (hk' ⟨_, rfl⟩))

/-- **C108**: gauge generators of a subsystem hypergraph product have the weights of the checks of the two codes; a qudit is in
as many as its bits are. -/
theorem C108_shp (A : Rows F n) (B : Rows F m) :
    (shpX A B).map hammingNorm = A.flatMap (fun a => List.replicate m (hammingNorm a)) ∧
    (shpZ A B).map hammingNorm = (List.replicate n (B.map hammingNorm)).flatten ∧
    ∀ (p : Fin n) (q : Fin m), colWeight (shpX A B) (flat p q) = colWeight A p ∧
      colWeight (shpZ A B) (flat p q) = colWeight B q := by
  refine ⟨?_, ?_, fun p q => ⟨?_, ?_⟩⟩
  · rw [shpX, kron, List.map_flatMap]
    refine List.flatMap_congr fun a _ => ?_
    simp [eyeRows_eq, Function.comp_def, norm_kronRow, hammingNorm_unitRow]
  · rw [shpZ, kron, List.map_flatMap, eyeRows_eq, List.flatMap_map]
    simp only [List.map_map, Function.comp_def, norm_kronRow, hammingNorm_unitRow, one_mul]
    rw [List.flatMap_def, List.map_const', List.length_finRange]
  · rw [shpX, kron, colWeight_flatMap, eyeRows_eq]
    simp only [List.map_map, Function.comp_def, ← Fin.sum_univ_def]
    unfold colWeight
    rw [countP_eq_sum_ite]
    congr 1
    refine List.map_congr_left fun a _ => ?_
    simp only [decide_eq_true_eq]
    rw [← sum_ite_unit q]
    refine Finset.sum_congr rfl fun j _ => ?_
    rw [kronRow_flat]
    simp [unitRow, eq_comm, and_comm]
  · rw [shpZ, kron, colWeight_flatMap, eyeRows_eq]
    simp only [List.map_map, Function.comp_def, ← Fin.sum_univ_def]
    unfold colWeight
    rw [countP_eq_sum_ite]
    rw [Finset.sum_eq_single p]
    · congr 1
      refine List.map_congr_left fun a _ => ?_
      rw [kronRow_flat]
      simp [unitRow]
    · intro k _ hk
      refine List.sum_eq_zero fun x hx => ?_
      obtain ⟨b, -, rfl⟩ := List.mem_map.1 hx
      rw [kronRow_flat]
      simp [unitRow, Ne.symm hk]
    · simp

/-! ## Lifted products -/

section Lifted

variable {R : Type} [Ring R] {d : ℕ}

/-- **C108**: weights of the checks of a lifted product: the numbers of entries of the lifted members of a row of one array
and of a column of the other. -/
theorem C108_lp_checks (star : R → R) (Λ : R → Matrix (Fin d) (Fin d) F) (h0 : Λ 0 = 0)
    (hneg : ∀ x, Λ (-x) = - Λ x) (A : Rows R n) (B : Rows R m) :
    (lpMatrices star Λ A B).1.map hammingNorm =
      (A.flatMap fun a => (List.finRange m).flatMap fun j => (List.finRange d).map fun s =>
        ∑ p, liftRowWeight Λ (a p) s + ∑ l : Fin B.length, liftRowWeight Λ (star (B.get l j)) s) ∧
    (lpMatrices star Λ A B).2.map hammingNorm =
      (List.finRange n).flatMap fun k => B.flatMap fun b => (List.finRange d).map fun s =>
        ∑ q, liftRowWeight Λ (b q) s + ∑ i : Fin A.length, liftRowWeight Λ (star (A.get i k)) s := by
  constructor
  · rw [lpMatrices, lpCode]
    dsimp only
    rw [rowsOf_liftArray, List.map_flatMap, hgpX_eq, List.flatMap_assoc]
    conv_rhs => rw [rows_eq_map A, List.flatMap_map]
    refine List.flatMap_congr fun i _ => ?_
    rw [List.flatMap_map]
    refine List.flatMap_congr fun j _ => ?_
    rw [List.map_map]
    refine List.map_congr_left fun s _ => ?_
    rw [Function.comp, norm_liftedRow, hgpRowX, Fin.sum_univ_add]
    congr 1
    · simp only [Fin.append_left]
      rw [QLDPC.sum_flat]
      refine Finset.sum_congr rfl fun p _ => ?_
      rw [Finset.sum_eq_single j]
      · rw [kronRow_flat']; simp [unitRow]
      · intro q _ hq
        rw [kronRow_flat', liftRowWeight_eq_zero h0]; simp [unitRow, hq]
      · simp
    · simp only [Fin.append_right]
      rw [QLDPC.sum_flat, Finset.sum_eq_single i]
      · refine Finset.sum_congr rfl fun p _ => ?_
        rw [kronRow_flat']; simp [unitRow]
      · intro q _ hq
        refine Finset.sum_eq_zero fun p _ => ?_
        rw [kronRow_flat', liftRowWeight_eq_zero h0]; simp [unitRow, hq]
      · simp
  · rw [lpMatrices, lpCode]
    dsimp only
    rw [rowsOf_liftArray, List.map_flatMap, hgpZ_eq, List.flatMap_assoc]
    refine List.flatMap_congr fun k _ => ?_
    conv_rhs => rw [rows_eq_map B, List.flatMap_map]
    rw [List.flatMap_map]
    refine List.flatMap_congr fun l _ => ?_
    rw [List.map_map]
    refine List.map_congr_left fun s _ => ?_
    rw [Function.comp, norm_liftedRow, hgpRowZ, Fin.sum_univ_add]
    congr 1
    · simp only [Fin.append_left, liftRowWeight_neg hneg]
      rw [QLDPC.sum_flat, Finset.sum_eq_single k]
      · refine Finset.sum_congr rfl fun p _ => ?_
        rw [kronRow_flat']; simp [unitRow]
      · intro q _ hq
        refine Finset.sum_eq_zero fun p _ => ?_
        rw [kronRow_flat', liftRowWeight_eq_zero h0]; simp [unitRow, hq]
      · simp
    · simp only [Fin.append_right]
      rw [QLDPC.sum_flat]
      refine Finset.sum_congr rfl fun p _ => ?_
      rw [Finset.sum_eq_single l]
      · rw [kronRow_flat']; simp [unitRow]
      · intro q _ hq
        rw [kronRow_flat', liftRowWeight_eq_zero h0]; simp [unitRow, hq]
      · simp

/-- **C108**: numbers of checks that a qudit of a lifted product is in. -/
theorem C108_lp_qudits (star : R → R) (Λ : R → Matrix (Fin d) (Fin d) F) (h0 : Λ 0 = 0)
    (hneg : ∀ x, Λ (-x) = - Λ x) (A : Rows R n) (B : Rows R m) (t : Fin d) :
    (∀ (p : Fin n) (q : Fin m),
      colWeight (lpMatrices star Λ A B).1 (flat (Fin.castAdd _ (flat p q)) t) =
        ∑ i : Fin A.length, liftColWeight Λ (A.get i p) t ∧
      colWeight (lpMatrices star Λ A B).2 (flat (Fin.castAdd _ (flat p q)) t) =
        ∑ l : Fin B.length, liftColWeight Λ (B.get l q) t) ∧
    ∀ (k : Fin A.length) (l : Fin B.length),
      colWeight (lpMatrices star Λ A B).1 (flat (Fin.natAdd _ (flat k l)) t) = ∑ j, liftColWeight Λ (star (B.get l j)) t ∧
      colWeight (lpMatrices star Λ A B).2 (flat (Fin.natAdd _ (flat k l)) t) = ∑ j, liftColWeight Λ (star (A.get k j)) t := by
  have key : ∀ {r c : ℕ} (rows : Fin r → Fin c → Fin (n * m + A.length * B.length) → R) (e : Fin (n * m + A.length * B.length)),
      ((((List.finRange r).flatMap fun i => (List.finRange c).map fun j => rows i j).map fun r => liftColWeight Λ (r e) t).sum) =
        ∑ i, ∑ j, liftColWeight Λ (rows i j e) t := by
    intro r c rows e
    rw [List.map_flatMap, List.flatMap_def, List.sum_flatten, Fin.sum_univ_def]
    simp only [List.map_map, Function.comp_def, Fin.sum_univ_def]
  rw [lpMatrices, lpCode, rowsOf_liftArray, rowsOf_liftArray]
  simp only [colWeight_lifted, hgpX_eq, hgpZ_eq, key]
  refine ⟨fun p q => ⟨?_, ?_⟩, fun k l => ⟨?_, ?_⟩⟩
  · refine Finset.sum_congr rfl fun i _ => ?_
    rw [Finset.sum_eq_single q]
    · rw [hgpRowX, Fin.append_left, kronRow_flat']; simp [unitRow]
    · intro j _ hj
      rw [hgpRowX, Fin.append_left, kronRow_flat', liftColWeight_eq_zero h0]; simp [unitRow, Ne.symm hj]
    · simp
  · rw [Finset.sum_eq_single p]
    · refine Finset.sum_congr rfl fun i _ => ?_
      rw [hgpRowZ, Fin.append_left, kronRow_flat', liftColWeight_neg hneg]; simp [unitRow]
    · intro j _ hj
      refine Finset.sum_eq_zero fun p _ => ?_
      rw [hgpRowZ, Fin.append_left, kronRow_flat', liftColWeight_neg hneg, liftColWeight_eq_zero h0]; simp [unitRow, Ne.symm hj]
    · simp
  · rw [Finset.sum_eq_single k]
    · refine Finset.sum_congr rfl fun i _ => ?_
      rw [hgpRowX, Fin.append_right, kronRow_flat']; simp [unitRow]
    · intro j _ hj
      refine Finset.sum_eq_zero fun p _ => ?_
      rw [hgpRowX, Fin.append_right, kronRow_flat', liftColWeight_eq_zero h0]; simp [unitRow, Ne.symm hj]
    · simp
  · refine Finset.sum_congr rfl fun i _ => ?_
    rw [Finset.sum_eq_single l]
    · rw [hgpRowZ, Fin.append_right, kronRow_flat']; simp [unitRow]
    · intro j _ hj
      rw [hgpRowZ, Fin.append_right, kronRow_flat', liftColWeight_eq_zero h0]; simp [unitRow, Ne.symm hj]
    · simp

end Lifted

/-- The number of group elements that a member of a group algebra is a combination of. -/
def suppSize {G : Type} [Group G] [Fintype G] (x : GAlg F G) : ℕ := (Finset.univ.filter fun g => x.coef g ≠ 0).card

section Regular

variable {G : Type} [Group G] [DecidableEq G] [Fintype G]

theorem suppSize_transpose (x : GAlg F G) : suppSize x.transpose = suppSize x := by
  unfold suppSize
  refine Finset.card_equiv (Equiv.inv G) fun g => ?_
  rw [Finset.mem_filter, Finset.mem_filter]
  simp only [Finset.mem_univ, true_and, GAlg.coef_transpose, Equiv.inv_apply]

theorem liftRowWeight_regular {members : List G} (hnd : members.Nodup) (hall : ∀ g, g ∈ members) (x : GAlg F G)
    (s : Fin members.length) : liftRowWeight (galgLift members) x s = suppSize x := by
  unfold liftRowWeight hammingNorm suppSize
  refine Finset.card_equiv ((memberEquiv hnd hall).trans ((Equiv.inv G).trans (Equiv.mulLeft (members.get s)))) fun t => ?_
  simp only [Finset.mem_filter, Finset.mem_univ, true_and, galgLift_apply hnd hall]
  rfl

theorem liftColWeight_regular {members : List G} (hnd : members.Nodup) (hall : ∀ g, g ∈ members) (x : GAlg F G)
    (t : Fin members.length) : liftColWeight (galgLift members) x t = suppSize x := by
  unfold liftColWeight hammingNorm suppSize
  refine Finset.card_equiv ((memberEquiv hnd hall).trans (Equiv.mulRight (members.get t)⁻¹)) fun s => ?_
  simp only [Finset.mem_filter, Finset.mem_univ, true_and, galgLift_apply hnd hall]
  rfl

/-- **C108**: with the regular representation, a check of a lifted product acts on as many qudits as there are group elements in
a row of one array and in a column of the other. -/
theorem C108_lp_regular {members : List G} (hnd : members.Nodup) (hall : ∀ g, g ∈ members)
    (A : Rows (GAlg F G) n) (B : Rows (GAlg F G) m) :
    (lpMatrices GAlg.transpose (galgLift members) A B).1.map hammingNorm =
      (A.flatMap fun a => (List.finRange m).flatMap fun j => List.replicate members.length
        (∑ p, suppSize (a p) + ∑ l : Fin B.length, suppSize (B.get l j))) ∧
    (lpMatrices GAlg.transpose (galgLift members) A B).2.map hammingNorm =
      ((List.finRange n).flatMap fun k => B.flatMap fun b => List.replicate members.length
        (∑ q, suppSize (b q) + ∑ i : Fin A.length, suppSize (A.get i k))) ∧
    ∀ t : Fin members.length,
      (∀ (p : Fin n) (q : Fin m),
        colWeight (lpMatrices GAlg.transpose (galgLift members) A B).1 (flat (Fin.castAdd _ (flat p q)) t) =
          ∑ i : Fin A.length, suppSize (A.get i p) ∧
        colWeight (lpMatrices GAlg.transpose (galgLift members) A B).2 (flat (Fin.castAdd _ (flat p q)) t) =
          ∑ l : Fin B.length, suppSize (B.get l q)) ∧
      ∀ (k : Fin A.length) (l : Fin B.length),
        colWeight (lpMatrices GAlg.transpose (galgLift members) A B).1 (flat (Fin.natAdd _ (flat k l)) t) =
          ∑ j, suppSize (B.get l j) ∧
        colWeight (lpMatrices GAlg.transpose (galgLift members) A B).2 (flat (Fin.natAdd _ (flat k l)) t) =
          ∑ j, suppSize (A.get k j) := by
  obtain ⟨hadd, h0, -, -⟩ := C36_array_regular (F := F) hnd hall
  have hneg : ∀ x : GAlg F G, galgLift members (-x) = - galgLift members x := fun x => by
    rw [eq_neg_iff_add_eq_zero, ← hadd, neg_add_cancel, h0]
  obtain ⟨h1, h2⟩ := C108_lp_checks GAlg.transpose (galgLift members) h0 hneg A B
  refine ⟨?_, ?_, fun t => ?_⟩
  · rw [h1]
    simp only [liftRowWeight_regular hnd hall, suppSize_transpose, List.map_const', List.length_finRange]
  · rw [h2]
    simp only [liftRowWeight_regular hnd hall, suppSize_transpose, List.map_const', List.length_finRange]
  · have := C108_lp_qudits GAlg.transpose (galgLift members) h0 hneg A B t
    simpa only [liftColWeight_regular hnd hall, suppSize_transpose] using this

end Regular

/-! ## Quasi-cyclic codes -/

section QC

variable {S : Type} [DecidableEq S]

/-- Monomials that differ modulo the orders of the symbols. -/
def DistinctTerms (d : List (S × ℕ)) (poly : List (Term S)) : Prop :=
  poly.Pairwise fun t u => ∃ p ∈ d, ¬ (p.2 : ℤ) ∣ exponentOf t.exps p.1 - exponentOf u.exps p.1

theorem card_targets {ι κ τ : Type} [Fintype ι] [DecidableEq ι] [DecidableEq κ] (co : ι → κ) (hinj : Function.Injective co)
    (target : τ → κ) (c : τ → F) (l : List τ) :
    (Finset.univ.filter fun j => (l.map fun t => if co j = target t then c t else 0).sum ≠ 0).card ≤ l.length ∧
    ((l.Pairwise fun t u => target t ≠ target u) → (∀ t ∈ l, ∃ j, co j = target t) → (∀ t ∈ l, c t ≠ 0) →
      (Finset.univ.filter fun j => (l.map fun t => if co j = target t then c t else 0).sum ≠ 0).card = l.length) := by
  induction l with
  | nil => simp
  | cons t l ih =>
    constructor
    · by_cases h : ∃ j, co j = target t
      · obtain ⟨j, hj⟩ := h
        refine (Finset.card_le_card (t := insert j (Finset.univ.filter fun j => (l.map fun t => if co j = target t then c t else 0).sum ≠ 0)) ?_).trans
          ((Finset.card_insert_le _ _).trans (by rw [List.length_cons]; exact Nat.add_le_add_right ih.1 1))
        intro k hk
        rw [Finset.mem_insert]
        by_cases hkj : k = j
        · exact Or.inl hkj
        · right
          have : co k ≠ target t := fun h => hkj (hinj (h.trans hj.symm))
          simpa [this] using hk
      · push Not at h
        simp only [List.map_cons, List.sum_cons, if_neg (h _), zero_add, List.length_cons]
        exact ih.1.trans (Nat.le_succ _)
    · intro hp hr hc
      obtain ⟨j, hj⟩ := hr t (by simp)
      rw [List.pairwise_cons] at hp
      rw [List.length_cons, ← ih.2 hp.2 (fun u hu => hr u (by simp [hu])) (fun u hu => hc u (by simp [hu]))]
      have hz : ∀ k, co k = target t → (l.map fun u => if co k = target u then c u else 0).sum = 0 := by
        intro k hk
        refine List.sum_eq_zero fun x hx => ?_
        obtain ⟨u, hu, rfl⟩ := List.mem_map.1 hx
        rw [if_neg]
        rw [hk]
        exact hp.1 u hu
      rw [← Finset.card_insert_of_notMem (a := j) (by simp [hz j hj])]
      congr 1
      ext k
      rw [Finset.mem_insert]
      by_cases hkj : k = j
      · subst hkj
        rw [Finset.mem_filter, List.map_cons, List.sum_cons, hz k hj, if_pos hj, add_zero]
        simpa using hc t (by simp)
      · have : co k ≠ target t := fun h => hkj (hinj (h.trans hj.symm))
        simp [this, hkj]

theorem movedBy_ne {sign : ℤ} (hs : sign = 1 ∨ sign = -1) (d : List (S × ℕ)) {I : List ℕ} (hI : IsExps (d.map Prod.snd) I)
    {e e' : List (S × ℤ)} (h : ∃ p ∈ d, ¬ (p.2 : ℤ) ∣ exponentOf e p.1 - exponentOf e' p.1) :
    movedBy sign d I e ≠ movedBy sign d I e' := by
  induction d generalizing I with
  | nil => simp at h
  | cons p d ih =>
    cases hI with
    | cons ha hI =>
      rename_i a I
      have hp : 0 < p.2 := by omega
      intro heq
      unfold movedBy at heq
      rw [List.zipWith_cons_cons, List.zipWith_cons_cons, List.cons.injEq] at heq
      obtain ⟨q, hq, hq'⟩ := h
      rcases List.mem_cons.1 hq with rfl | hq
      · have h1 := congrArg (Nat.cast (R := ℤ)) heq.1
        rw [toNat_emod _ hp, toNat_emod _ hp] at h1
        have h2 : (q.2 : ℤ) ∣ ((a : ℤ) + sign * exponentOf e q.1) - ((a : ℤ) + sign * exponentOf e' q.1) :=
          Int.ModEq.dvd (Int.ModEq.symm h1)
        apply hq'
        obtain ⟨k, hk⟩ := h2
        rcases hs with rfl | rfl
        · exact ⟨k, by linarith⟩
        · exact ⟨-k, by linarith⟩
      · exact ih hI ⟨q, hq, hq'⟩ heq.2

theorem block_weight {d : List (S × ℕ)} {poly : List (Term S)} {C : ℤ → F} {sign : ℤ} (hs : sign = 1 ∨ sign = -1)
    (i : Fin (d.map Prod.snd).prod) {v : Fin (d.map Prod.snd).prod → F}
    (hv : ∀ j : Fin (d.map Prod.snd).prod, v j ≠ 0 ↔ (poly.map fun t => if torusCoords (d.map Prod.snd) j =
      movedBy sign d (torusCoords (d.map Prod.snd) i) t.exps then C t.coeff else 0).sum ≠ 0) :
    hammingNorm v ≤ poly.length ∧
      (DistinctTerms d poly → (∀ t ∈ poly, C t.coeff ≠ 0) → hammingNorm v = poly.length) := by
  obtain ⟨h1, h2⟩ := card_targets (F := F) (fun j : Fin (d.map Prod.snd).prod => torusCoords (d.map Prod.snd) j)
    (fun _ _ => torusCoords_inj) (fun t : Term S => movedBy sign d (torusCoords (d.map Prod.snd) i) t.exps) (fun t => C t.coeff) poly
  have he : hammingNorm v = (Finset.univ.filter fun j : Fin (d.map Prod.snd).prod => (poly.map fun t => if torusCoords (d.map Prod.snd) j =
      movedBy sign d (torusCoords (d.map Prod.snd) i) t.exps then C t.coeff else 0).sum ≠ 0).card := by
    unfold hammingNorm
    congr 1
    ext j
    simp only [Finset.mem_filter, Finset.mem_univ, true_and, hv]
  rw [he]
  exact ⟨h1, fun hd hc => h2 (hd.imp fun h => movedBy_ne hs d (isExps_torusCoords i) h)
    (fun t _ => exists_index (isExps_movedBy sign d (isExps_torusCoords i) t.exps)) hc⟩

theorem norm_halves {P : ℕ} (v : Fin (P + P) → F) :
    hammingNorm v = hammingNorm (fun j : Fin P => v (Fin.castAdd P j)) + hammingNorm fun j : Fin P => v (Fin.natAdd P j) := by
  rw [← hammingNorm_append]
  congr 1
  funext q
  induction q using Fin.addCases <;> simp [Fin.append_left, Fin.append_right, -Fin.natAdd_eq_addNat]

theorem colWeight_norm {N P : ℕ} {M : Rows F N} (hM : M.length = P) (q : Fin N) :
    colWeight M q = hammingNorm fun i : Fin P => matEntry M i q := by
  subst hM
  rw [← hammingNorm_column]
  congr 1
  funext i
  rw [matEntry_fin i.val i.isLt]
  rfl

theorem moved_swap (d : List (S × ℕ)) (poly : List (Term S)) (C : ℤ → F) (i j : Fin (d.map Prod.snd).prod) :
    (poly.map fun t => if torusCoords (d.map Prod.snd) i = movedBy 1 d (torusCoords (d.map Prod.snd) j) t.exps
      then C t.coeff else 0).sum =
    (poly.map fun t => if torusCoords (d.map Prod.snd) j = movedBy (-1) d (torusCoords (d.map Prod.snd) i) t.exps
      then C t.coeff else 0).sum := by
  congr 1
  refine List.map_congr_left fun t _ => ?_
  exact if_congr ⟨movedBy_symm d (isExps_torusCoords i) (isExps_torusCoords j) t.exps,
    movedBy_symm' d (isExps_torusCoords i) (isExps_torusCoords j) t.exps⟩ rfl rfl

/-- **C108**: a check of a quasi-cyclic code acts on at most as many qudits as the polynomials have terms, and a qudit is in at
most as many X-type (Z-type) checks as one of them has; exactly as many if no two terms of a polynomial agree modulo the orders
and no coefficient vanishes in the field. -/
theorem C108_qc {drop : Bool} {coeffOf : ℤ → Option F} {C : ℤ → F} {d : List (S × ℕ)} {polyA polyB : List (Term S)}
    (hA : QCInput drop coeffOf C d polyA) (hB : QCInput drop coeffOf C d polyB) :
    ∃ mx mz, qcMatrices drop coeffOf d polyA polyB = some (mx, mz) ∧
      (∀ r ∈ mx ++ mz, hammingNorm r ≤ polyA.length + polyB.length) ∧
      (∀ j : Fin (d.map Prod.snd).prod,
        colWeight mx (Fin.castAdd _ j) ≤ polyA.length ∧ colWeight mx (Fin.natAdd _ j) ≤ polyB.length ∧
        colWeight mz (Fin.castAdd _ j) ≤ polyB.length ∧ colWeight mz (Fin.natAdd _ j) ≤ polyA.length) ∧
      (DistinctTerms d polyA → DistinctTerms d polyB → (∀ t ∈ polyA, C t.coeff ≠ 0) → (∀ t ∈ polyB, C t.coeff ≠ 0) →
        (∀ r ∈ mx ++ mz, hammingNorm r = polyA.length + polyB.length) ∧
        ∀ j : Fin (d.map Prod.snd).prod,
          colWeight mx (Fin.castAdd _ j) = polyA.length ∧ colWeight mx (Fin.natAdd _ j) = polyB.length ∧
          colWeight mz (Fin.castAdd _ j) = polyB.length ∧ colWeight mz (Fin.natAdd _ j) = polyA.length) := by
  obtain ⟨mx, mz, hm, hlx, hlz, -, hent⟩ := C51_code hA hB
  refine ⟨mx, mz, hm, ?_⟩
  have p1 : (1 : ℤ) = 1 ∨ (1 : ℤ) = -1 := Or.inl rfl
  have p2 : (-1 : ℤ) = 1 ∨ (-1 : ℤ) = -1 := Or.inr rfl
  have ex : ∀ (i : Fin (d.map Prod.snd).prod) q, matEntry mx i (q : Fin _).val = (mx[i.val]'(by omega)) q := fun i q => matEntry_fin _ _ _
  have ez : ∀ (i : Fin (d.map Prod.snd).prod) q, matEntry mz i (q : Fin _).val = (mz[i.val]'(by omega)) q := fun i q => matEntry_fin _ _ _
  -- rows
  have rx : ∀ i : Fin (d.map Prod.snd).prod, _ := fun i =>
    And.intro (block_weight (F := F) (poly := polyA) (C := C) p1 i
      (v := fun j => (mx[i.val]'(by omega)) (Fin.castAdd _ j)) fun j => by rw [← ex]; exact not_congr (by rw [← (hent i j).1]; rfl))
    (block_weight (F := F) (poly := polyB) (C := C) p1 i
      (v := fun j => (mx[i.val]'(by omega)) (Fin.natAdd _ j)) fun j => by rw [← ex]; exact not_congr (by rw [← (hent i j).2.1]; rfl))
  have rz : ∀ i : Fin (d.map Prod.snd).prod, _ := fun i =>
    And.intro (block_weight (F := F) (poly := polyB) (C := C) p2 i
      (v := fun j => (mz[i.val]'(by omega)) (Fin.castAdd _ j)) fun j => by rw [← ez]; exact not_congr (by rw [← (hent i j).2.2.1]; rfl))
    (block_weight (F := F) (poly := polyA) (C := C) p2 i
      (v := fun j => (mz[i.val]'(by omega)) (Fin.natAdd _ j)) fun j => by
        rw [← ez]; exact not_congr (by rw [← neg_eq_zero (a := List.sum _), ← (hent i j).2.2.2]; rfl))
  -- columns
  have cx : ∀ j : Fin (d.map Prod.snd).prod, _ := fun j =>
    And.intro (block_weight (F := F) (poly := polyA) (C := C) p2 j
      (v := fun i => matEntry mx i (Fin.castAdd (d.map Prod.snd).prod j)) fun i => not_congr (by rw [← moved_swap, ← (hent i j).1]; rfl))
    (block_weight (F := F) (poly := polyB) (C := C) p2 j
      (v := fun i => matEntry mx i (Fin.natAdd (d.map Prod.snd).prod j)) fun i => not_congr (by rw [← moved_swap, ← (hent i j).2.1]; rfl))
  have cz : ∀ j : Fin (d.map Prod.snd).prod, _ := fun j =>
    And.intro (block_weight (F := F) (poly := polyB) (C := C) p1 j
      (v := fun i => matEntry mz i (Fin.castAdd (d.map Prod.snd).prod j)) fun i => not_congr (by rw [moved_swap, ← (hent i j).2.2.1]; rfl))
    (block_weight (F := F) (poly := polyA) (C := C) p1 j
      (v := fun i => matEntry mz i (Fin.natAdd (d.map Prod.snd).prod j)) fun i => not_congr (by
        rw [moved_swap, ← neg_eq_zero (a := List.sum _), ← (hent i j).2.2.2]; rfl))
  have hrow : ∀ r ∈ mx ++ mz, ∃ i : Fin (d.map Prod.snd).prod, r = mx[i.val]'(by omega) ∨ r = mz[i.val]'(by omega) := by
    intro r hr
    rcases List.mem_append.1 hr with hr | hr
    · obtain ⟨i, hi, rfl⟩ := List.mem_iff_getElem.1 hr
      exact ⟨⟨i, by omega⟩, Or.inl rfl⟩
    · obtain ⟨i, hi, rfl⟩ := List.mem_iff_getElem.1 hr
      exact ⟨⟨i, by omega⟩, Or.inr rfl⟩
  refine ⟨fun r hr => ?_, fun j => ?_, fun hdA hdB hcA hcB => ⟨fun r hr => ?_, fun j => ?_⟩⟩
  · obtain ⟨i, rfl | rfl⟩ := hrow r hr
    · rw [norm_halves]; exact Nat.add_le_add (rx i).1.1 (rx i).2.1
    · rw [norm_halves, add_comm polyA.length]; exact Nat.add_le_add (rz i).1.1 (rz i).2.1
  · simp only [colWeight_norm hlx, colWeight_norm hlz]
    exact ⟨(cx j).1.1, (cx j).2.1, (cz j).1.1, (cz j).2.1⟩
  · obtain ⟨i, rfl | rfl⟩ := hrow r hr
    · rw [norm_halves, (rx i).1.2 hdA hcA, (rx i).2.2 hdB hcB]
    · rw [norm_halves, (rz i).1.2 hdB hcB, (rz i).2.2 hdA hcA, add_comm]
  · simp only [colWeight_norm hlx, colWeight_norm hlz]
    exact ⟨(cx j).1.2 hdA hcA, (cx j).2.2 hdB hcB, (cz j).1.2 hdB hcB, (cz j).2.2 hdA hcA⟩

end QC

/-! ## Tanner codes -/

section TannerCodes

theorem norm_update {N : ℕ} {u : Fin N → F} {a : Fin N} (h : u a = 0) (v : F) :
    hammingNorm (Function.update u a v) = hammingNorm u + if v ≠ 0 then 1 else 0 := by
  simp only [hammingNorm, Finset.card_filter]
  rw [← Finset.add_sum_erase _ _ (Finset.mem_univ a), ← Finset.add_sum_erase _ (fun i => if u i ≠ 0 then 1 else 0) (Finset.mem_univ a)]
  simp only [Function.update_self, h, ne_eq, not_true_eq_false, if_false, zero_add]
  rw [add_comm]
  congr 1
  refine Finset.sum_congr rfl fun i hi => ?_
  rw [Function.update_of_ne (Finset.ne_of_mem_erase hi)]

theorem norm_scatter {N : ℕ} : ∀ (ps : List (Fin N × F)) (u : Fin N → F),
    (ps.map Prod.fst).Nodup → (∀ p ∈ ps, u p.1 = 0) →
    hammingNorm (ps.foldl (fun r p => Function.update r p.1 p.2) u) = hammingNorm u + (ps.map fun p => if p.2 ≠ 0 then 1 else 0).sum := by
  intro ps
  induction ps with
  | nil => intro u _ _; simp
  | cons p ps ih =>
    intro u hnd h0
    rw [List.map_cons, List.nodup_cons] at hnd
    rw [List.foldl_cons, ih _ hnd.2, norm_update (h0 p (by simp)), List.map_cons, List.sum_cons, add_assoc]
    intro q hq
    rw [Function.update_of_ne, h0 q (by simp [hq])]
    intro h
    exact hnd.1 (h ▸ List.mem_map_of_mem hq)

theorem norm_scatterRow {N : ℕ} {bits : List (Fin N)} (hnd : bits.Nodup) (r : Fin n → F) (hl : bits.length = n) :
    hammingNorm (scatterRow bits (List.ofFn r)) = hammingNorm r := by
  unfold scatterRow
  rw [norm_scatter _ _ (by rwa [List.map_fst_zip (by simp [hl])]) (fun _ _ => rfl)]
  rw [hammingNorm_zero, zero_add, hammingNorm, Finset.card_filter, ← List.sum_ofFn]
  congr 1
  have : (bits.zip (List.ofFn r)).map (fun p => if p.2 ≠ 0 then 1 else 0) =
      ((bits.zip (List.ofFn r)).map Prod.snd).map fun x => if x ≠ 0 then 1 else 0 := by rw [List.map_map]; rfl
  rw [this, List.map_snd_zip (by simp [hl]), List.map_ofFn]
  rfl

theorem support_scatter {N : ℕ} (ps : List (Fin N × F)) (u : Fin N → F) (b : Fin N)
    (h : ps.foldl (fun r p => Function.update r p.1 p.2) u b ≠ 0) : u b ≠ 0 ∨ b ∈ ps.map Prod.fst := by
  induction ps generalizing u with
  | nil => exact Or.inl h
  | cons p ps ih =>
    rw [List.foldl_cons] at h
    rcases ih _ h with h | h
    · by_cases hb : b = p.1
      · right; simp [hb]
      · left; rwa [Function.update_of_ne hb] at h
    · right; simp [h]

theorem norm_scatterRow_le {N : ℕ} (bits : List (Fin N)) (r : List F) : hammingNorm (scatterRow bits r) ≤ bits.length := by
  unfold hammingNorm
  refine (Finset.card_le_card (t := bits.toFinset) fun b hb => ?_).trans (List.toFinset_card_le _)
  rw [Finset.mem_filter] at hb
  rw [List.mem_toFinset]
  rcases support_scatter _ _ _ hb.2 with h | h
  · exact absurd rfl h
  · rw [List.mem_map] at h
    obtain ⟨p, hp, hpb⟩ := h
    rw [← hpb]
    exact (List.of_mem_zip (a := p.1) (b := p.2) hp).1

variable {α κ : Type} [DecidableEq α]

/-- **C108**: the checks of a Tanner code are as sparse as those of its subcode: the weight of each is at most the length of the
subcode, and the weight of a check of the subcode if every node has as many neighbors as the subcode has bits. -/
theorem C108_tanner {lt : κ ⊕ α → κ ⊕ α → Bool} {g : DiGraph α κ} {sub : CCode F n} {c}
    (hc : tannerCode lt g sub = some c) :
    (n ≠ 1 → ∀ r ∈ c.matrix, hammingNorm r ≤ n) ∧
    ((∀ v, ((g.succ v).map Prod.fst).Nodup) → (∀ v ∈ g.sources, (g.succ v).length = n) →
      ∀ r ∈ c.matrix, ∃ s ∈ sub.matrix, hammingNorm r = hammingNorm s) := by
  unfold tannerCode at hc
  rw [Option.map_eq_some_iff] at hc
  obtain ⟨blocks, hb, rfl⟩ := hc
  rw [mapM_some_iff] at hb
  have hrow : ∀ r ∈ (CCode.ofMatrix blocks.flatten : CCode F _).matrix, ∃ v ∈ g.sources, ∃ bits blk,
      sinkIndices (pySorted lt Sum.inr g.sinks) (sortedNeighbors lt g v) = some bits ∧
      scatterBlock bits sub.matrix = some blk ∧ r ∈ blk := by
    intro r hr
    obtain ⟨blk, hblk, hr⟩ := List.mem_flatten.1 hr
    obtain ⟨v, hv, h⟩ := forall₂_right hb blk hblk
    obtain ⟨bits, h1, h2⟩ := Option.bind_eq_some_iff.1 h
    exact ⟨v, (pySorted_perm _ _ _).subset hv, bits, blk, h1, h2, hr⟩
  constructor
  · intro hn r hr
    obtain ⟨v, hv, bits, blk, h1, h2, hr⟩ := hrow r hr
    unfold scatterBlock at h2
    by_cases hl : bits.length = n
    · rw [if_pos hl] at h2
      cases h2
      obtain ⟨s, hs, rfl⟩ := List.mem_map.1 hr
      exact (norm_scatterRow_le bits _).trans hl.le
    · rw [if_neg hl, dif_neg hn] at h2; cases h2
  · intro hnd hreg r hr
    obtain ⟨v, hv, bits, blk, h1, h2, hr⟩ := hrow r hr
    have hmap := sinkIndices_spec h1
    have hl : bits.length = n := by
      rw [← List.length_map (f := (pySorted lt Sum.inr g.sinks).get), hmap, (sortedNeighbors_perm lt g v).length_eq, List.length_map, hreg v hv]
    have hbn : bits.Nodup := by
      apply List.Nodup.of_map (f := (pySorted lt Sum.inr g.sinks).get)
      rw [hmap]
      exact (sortedNeighbors_perm lt g v).nodup_iff.2 (hnd v)
    unfold scatterBlock at h2
    rw [if_pos hl] at h2
    cases h2
    obtain ⟨s, hs, rfl⟩ := List.mem_map.1 hr
    exact ⟨s, hs, norm_scatterRow hbn s hl⟩

/-- **C108**: a check of a quantum Tanner code acts on at most as many qudits as there are pairs of bits of the two codes. -/
theorem C108_qt {H : Type} [Group H] [DecidableEq H] (lt : H → H → Bool) (A B : List H) (pick : ℕ → ℕ) (fuel : ℕ)
    (codeA : CCode F n) (codeB : CCode F m) {c} (hc : qtCode lt A B pick fuel codeA codeB = some c) (hnm : n * m ≠ 1) :
    ∀ r ∈ c.2.1 ++ c.2.2, hammingNorm r ≤ n * m := by
  unfold qtCode at hc
  split at hc
  · cases hc
  · split at hc
    · split at hc
      · rename_i cx cz hx hz hl
        cases hc
        intro r hr
        rcases List.mem_append.1 hr with hr | hr
        · exact (C108_tanner hx).1 hnm r hr
        · obtain ⟨s, hs, rfl⟩ := List.mem_map.1 hr
          refine le_trans (le_of_eq ?_) ((C108_tanner hz).1 hnm s hs)
          unfold hammingNorm
          refine Finset.card_equiv (finCongr hl.symm) fun j => ?_
          simp
      · cases hc
    · cases hc

end TannerCodes

/-! ## Examples -/

/-- The parity checks of a ring of three bits. -/
def ringThree : Rows (ZMod 2) 3 := [![1, 1, 0], ![0, 1, 1], ![1, 0, 1]]

example : (CCode.ofMatrix ringThree).getWeight = some 2 ∧ IsMaxRowWeight ringThree 2 := by
  have h : (CCode.ofMatrix ringThree).getWeight = some 2 := by decide +kernel
  exact ⟨h, ((C108_classical _).1 2).1 h⟩

/-- The toric code of linear size three has checks of weight four. -/
example : (hgpX id ringThree ringThree).map hammingNorm = List.replicate 9 4 ∧
    (hgpZ id ringThree ringThree).map hammingNorm = List.replicate 9 4 := by
  rw [(C108_hgp_checks ringThree ringThree).1, (C108_hgp_checks ringThree ringThree).2]
  decide +kernel

example : ∀ q, colWeight (hgpX id ringThree ringThree) q = 2 := by decide +kernel

/-- The generators of the Shor code of nine qubits as a subsystem code have weight two. -/
example : (shpX [![1, 1, 0], ![0, 1, (1 : ZMod 2)]] [![1, 1, 0], ![0, 1, (1 : ZMod 2)]]).map hammingNorm = List.replicate 6 2 := by
  rw [(C108_shp _ _).1]
  decide +kernel

/-- A bivariate bicycle code whose polynomials have three terms each. -/
example : ∃ mx mz, qcMatrices true coeffTwo [((0 : ℕ), 6), (1, 6)] [⟨1, [(0, 3)]⟩, ⟨1, [(1, 1)]⟩, ⟨1, [(1, 2)]⟩]
      [⟨1, [(1, 3)]⟩, ⟨1, [(0, 1)]⟩, ⟨1, [(0, 2)]⟩] = some (mx, mz) ∧ ∀ r ∈ mx ++ mz, hammingNorm r = 6 := by
  obtain ⟨mx, mz, h, -, -, heq⟩ := C108_qc (F := ZMod 2) (drop := true) (coeffOf := coeffTwo) (C := fun c => (c : ZMod 2))
    (d := [((0 : ℕ), 6), (1, 6)]) (polyA := [⟨1, [(0, 3)]⟩, ⟨1, [(1, 1)]⟩, ⟨1, [(1, 2)]⟩])
    (polyB := [⟨1, [(1, 3)]⟩, ⟨1, [(0, 1)]⟩, ⟨1, [(0, 2)]⟩])
    ⟨Or.inl (by decide +kernel), by decide +kernel, by decide +kernel, by decide +kernel⟩
    ⟨Or.inl (by decide +kernel), by decide +kernel, by decide +kernel, by decide +kernel⟩
  exact ⟨mx, mz, h, (heq (by unfold DistinctTerms; decide +kernel) (by unfold DistinctTerms; decide +kernel) (by decide +kernel) (by decide +kernel)).1⟩

example {c} (hc : tannerCode ltNat bowtie pairCode = some c) : ∀ r ∈ c.matrix, hammingNorm r ≤ 2 :=
  (C108_tanner hc).1 (by decide)

/-- The hypotheses of `C108_lp_checks` and `C108_lp_qudits` are met by the regular lift of any group algebra. -/
example {G : Type} [Group G] [DecidableEq G] [Fintype G] {members : List G} (hnd : members.Nodup)
    (hall : ∀ g, g ∈ members) (A B : Rows (GAlg F G) n) :=
  have h := C36_array_regular (F := F) hnd hall
  C108_lp_checks GAlg.transpose (galgLift members) h.2.1 (fun x => eq_neg_of_add_eq_zero_left (by rw [← h.1, neg_add_cancel, h.2.1])) A B

example : IsMaxRowWeight ringThree 2 ∧ IsMaxColWeight ringThree 2 := by
  refine ⟨⟨⟨_, List.mem_cons_self, by decide +kernel⟩, ?_⟩, ⟨0, by decide +kernel⟩, ?_⟩
  · rintro w ⟨r, hr, rfl⟩; revert r; decide +kernel
  · rintro w ⟨j, rfl⟩; revert j; decide +kernel

#print axioms C108_classical
#print axioms C108_hgp_checks
#print axioms C108_hgp_qudits
#print axioms C108_hgp_weight
#print axioms C108_shp
#print axioms C108_lp_checks
#print axioms C108_lp_qudits
#print axioms C108_lp_regular
#print axioms C108_qc
#print axioms C108_tanner
#print axioms C108_qt

/-! ### Instances of the theorems: concrete cases meet the hypotheses -/

example := C108_lp_qudits (star := id) (fun x : ZMod 3 => !![x, 0; 0, 2 * x]) (by decide) (by decide) [![1, 2]] [![1, 1, 0]] 1
example := C108_lp_regular (F := ZMod 2) (members := ([1, Multiplicative.ofAdd 1, Multiplicative.ofAdd 2] : List (Multiplicative (ZMod 3))))
  (by decide) (by decide) [![1]] [![1, 0]]

private theorem ringThree_row : IsMaxRowWeight ringThree 2 :=
  ⟨⟨_, List.mem_cons_self, by decide +kernel⟩, by rintro w ⟨r, hr, rfl⟩; revert r; decide +kernel⟩
private theorem ringThree_col : IsMaxColWeight ringThree 2 :=
  ⟨⟨0, by decide +kernel⟩, by rintro w ⟨j, rfl⟩; revert j; decide +kernel⟩
example := C108_hgp_weight (primeInts_ok 2 (by decide)) ringThree ringThree 2 2 2 2 ringThree_row ringThree_col ringThree_row ringThree_col

example : True := by
  obtain ⟨c, hc, -⟩ := C55_quadripartite [] A3 A3 (by decide +kernel) (by decide +kernel) (by decide +kernel) (by decide +kernel) (by decide +kernel)
    ltQuad ltQuad_total rep2 rep2 rfl rfl (fun k => k) 13 (by decide +kernel)
  unfold qtCodeQuad at hc
  split at hc
  · have h := C108_qt _ _ _ _ _ _ _ hc (by decide)
    trivial
  · cases hc

end QLDPC.Props
