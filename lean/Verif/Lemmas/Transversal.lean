import Verif.Lemmas.LogicalTableau

/-! # Circuits that preserve a code -/

namespace QLDPC

open Spec SPauli

variable {n k g : ℕ}

/-- Gauge operators and stabilizers, by way of the encoding tableau. -/
def InGauge (k g : ℕ) (E : Tableau n) (r : Fin (n + n) → ZMod 2) : Prop :=
  ∃ j : Fin n, (k ≤ j.val ∧ r = (E.zs j).op) ∨ (k ≤ j.val ∧ j.val < k + g ∧ r = (E.xs j).op)

/-- The decoded tableau. -/
def decodedTableau (E D : Tableau n) (c : List Instr) : Tableau n := (E.andThen (circuitTableau n c)).andThen D

theorem decoded_valid {E D : Tableau n} (hE : E.Valid) (hD : D.Valid) (c : List Instr) : (decodedTableau E D c).Valid :=
  (hE.andThen (circuitTableau_valid c)).andThen hD

theorem decoded_apply {E D : Tableau n} (hE : E.Valid) (hD : D.Valid) (c : List Instr) (p : SPauli n) :
    (decodedTableau E D c).apply p = D.apply ((circuitTableau n c).apply (E.apply p)) := by
  unfold decodedTableau
  rw [Tableau.apply_andThen (hE.andThen (circuitTableau_valid c)) hD, Tableau.apply_andThen hE (circuitTableau_valid c)]

/-- Encoding the decoded image. -/
theorem encode_decoded {E E' : Tableau n} (hE : E.Valid) (hE' : E'.Valid) (c : List Instr) (p : SPauli n) :
    (circuitTableau n c).apply (E.apply p) = E'.apply ((decodedTableau E E'.inverse c).apply p) := by
  rw [decoded_apply hE hE'.inverse, hE'.apply_apply_inverse]

theorem decoded_x {E E' : Tableau n} (hE : E.Valid) (hE' : E'.Valid) (c : List Instr) (p : SPauli n) (i : Fin n) :
    xPart ((decodedTableau E E'.inverse c).apply p).op i =
      sform (E'.zs i).op ((circuitTableau n c).opMap (E.apply p).op) := by
  rw [← sform_Z, ← hE'.isHom.sform, Tableau.apply_Z, ← encode_decoded hE hE', Tableau.apply_op]

theorem decoded_z {E E' : Tableau n} (hE : E.Valid) (hE' : E'.Valid) (c : List Instr) (p : SPauli n) (i : Fin n) :
    zPart ((decodedTableau E E'.inverse c).apply p).op i =
      sform (E'.xs i).op ((circuitTableau n c).opMap (E.apply p).op) := by
  rw [← sform_X, ← hE'.isHom.sform, Tableau.apply_X, ← encode_decoded hE hE', Tableau.apply_op]

/-- Circuits that preserve the gauge group and its commutant. -/
theorem sectors_of {E E' : Tableau n} (hE : E.Valid) (hE' : E'.Valid) (hkg : k + g ≤ n) (c : List Instr)
    (h1 : ∀ r, InGauge k g E r → ∀ w, (∀ r', InGauge k g E' r' → sform r' w = 0) →
      sform w ((circuitTableau n c).opMap r) = 0)
    (h2 : ∀ p, (∀ r, InGauge k g E r → sform r p = 0) → ∀ r', InGauge k g E' r' →
      sform r' ((circuitTableau n c).opMap p) = 0) :
    Sectors k g (decodedTableau E E'.inverse c) := by
  set T := decodedTableau E E'.inverse c with hT
  have ex : ∀ j i, xPart (T.xs j).op i = sform (E'.zs i).op ((circuitTableau n c).opMap (E.xs j).op) := by
    intro j i; rw [← Tableau.apply_X T j, hT, decoded_x hE hE', Tableau.apply_X]
  have ez : ∀ j i, zPart (T.xs j).op i = sform (E'.xs i).op ((circuitTableau n c).opMap (E.xs j).op) := by
    intro j i; rw [← Tableau.apply_X T j, hT, decoded_z hE hE', Tableau.apply_X]
  have fx : ∀ j i, xPart (T.zs j).op i = sform (E'.zs i).op ((circuitTableau n c).opMap (E.zs j).op) := by
    intro j i; rw [← Tableau.apply_Z T j, hT, decoded_x hE hE', Tableau.apply_Z]
  have fz : ∀ j i, zPart (T.zs j).op i = sform (E'.xs i).op ((circuitTableau n c).opMap (E.zs j).op) := by
    intro j i; rw [← Tableau.apply_Z T j, hT, decoded_z hE hE', Tableau.apply_Z]
  -- logical operators commute with gauge operators
  have hl : ∀ (E : Tableau n), E.Valid → ∀ j : Fin n, j.val < k → (∀ r, InGauge k g E r → sform r (E.xs j).op = 0) ∧
      ∀ r, InGauge k g E r → sform r (E.zs j).op = 0 := by
    intro E hE j hj
    constructor
    · rintro r ⟨i, ⟨hi, rfl⟩ | ⟨hi, -, rfl⟩⟩
      · rw [sform_comm2, hE.xz, if_neg (by intro e; rw [e] at hj; omega)]
      · exact hE.xx _ _
    · rintro r ⟨i, ⟨hi, rfl⟩ | ⟨hi, -, rfl⟩⟩
      · exact hE.zz _ _
      · rw [hE.xz, if_neg (by intro e; rw [← e] at hj; omega)]
  -- stabilizers commute with gauge operators
  have hs : ∀ (E : Tableau n), E.Valid → ∀ j : Fin n, k + g ≤ j.val → ∀ r, InGauge k g E r → sform r (E.zs j).op = 0 := by
    rintro E hE j hj r ⟨i, ⟨hi, rfl⟩ | ⟨hi, hi', rfl⟩⟩
    · exact hE.zz _ _
    · rw [hE.xz, if_neg (by intro e; rw [← e] at hj; omega)]
  constructor
  · exact hkg
  · intro j hj
    refine ⟨fun i hi => ?_, fun i hi hi' => ?_⟩
    · rw [ex]; exact h2 _ (hl E hE j hj).1 _ ⟨i, Or.inl ⟨hi, rfl⟩⟩
    · rw [ez]; exact h2 _ (hl E hE j hj).1 _ ⟨i, Or.inr ⟨hi, hi', rfl⟩⟩
  · intro j hj
    refine ⟨fun i hi => ?_, fun i hi hi' => ?_⟩
    · rw [fx]; exact h2 _ (hl E hE j hj).2 _ ⟨i, Or.inl ⟨hi, rfl⟩⟩
    · rw [fz]; exact h2 _ (hl E hE j hj).2 _ ⟨i, Or.inr ⟨hi, hi', rfl⟩⟩
  · intro j hj hj'
    have hg : InGauge k g E (E.xs j).op := ⟨j, Or.inr ⟨hj, hj', rfl⟩⟩
    refine ⟨fun i hi => ?_, fun i hi => ⟨?_, ?_⟩⟩
    · rw [ex]; exact h1 _ hg _ (hs E' hE' i hi)
    · rw [ex]; exact h1 _ hg _ (hl E' hE' i hi).2
    · rw [ez]; exact h1 _ hg _ (hl E' hE' i hi).1
  · intro j hj hj'
    have hg : InGauge k g E (E.zs j).op := ⟨j, Or.inl ⟨hj, rfl⟩⟩
    refine ⟨fun i hi => ?_, fun i hi => ⟨?_, ?_⟩⟩
    · rw [fx]; exact h1 _ hg _ (hs E' hE' i hi)
    · rw [fx]; exact h1 _ hg _ (hl E' hE' i hi).2
    · rw [fz]; exact h1 _ hg _ (hl E' hE' i hi).1
  · intro j hj
    have hg : InGauge k g E (E.zs j).op := ⟨j, Or.inl ⟨by omega, rfl⟩⟩
    have hc := h2 _ (hs E hE j hj)
    refine ⟨fun i => ?_, fun i hi => ?_⟩
    · rw [fx]
      by_cases hi : i.val < k
      · exact h1 _ hg _ (hl E' hE' i hi).2
      · exact hc _ ⟨i, Or.inl ⟨by omega, rfl⟩⟩
    · rw [fz]
      by_cases hi' : i.val < k
      · exact h1 _ hg _ (hl E' hE' i hi').1
      · exact hc _ ⟨i, Or.inr ⟨by omega, hi, rfl⟩⟩

/-! ## The assertions are sufficient -/

theorem Tableau.Valid.opMap_inj {T : Tableau n} (hT : T.Valid) : Function.Injective T.opMap :=
  Finite.injective_iff_surjective.2 hT.opMap_surj

theorem Tableau.Valid.sform_opMap {T : Tableau n} (hT : T.Valid) (u v : Fin (n + n) → ZMod 2) :
    sform (T.opMap u) (T.opMap v) = sform u v := hT.isHom.sform ⟨0, u⟩ ⟨0, v⟩

theorem opMap_X (T : Tableau n) (j : Fin n) : T.opMap (SPauli.X j).op = (T.xs j).op := by
  rw [← Tableau.apply_op, Tableau.apply_X]

theorem opMap_Z (T : Tableau n) (j : Fin n) : T.opMap (SPauli.Z j).op = (T.zs j).op := by
  rw [← Tableau.apply_op, Tableau.apply_Z]

/-- A property of bits that is preserved is preserved both ways. -/
theorem opMap_preserved {T : Tableau n} (hT : T.Valid) {P : (Fin (n + n) → ZMod 2) → Prop} (h : ∀ u, P u → P (T.opMap u))
    {v : Fin (n + n) → ZMod 2} (hv : P v) : ∃ u, P u ∧ T.opMap u = v := by
  let f : {u : Fin (n + n) → ZMod 2 // P u} → {u : Fin (n + n) → ZMod 2 // P u} := fun u => ⟨T.opMap u, h u u.2⟩
  have hf : Function.Injective f := fun a b e => Subtype.ext (hT.opMap_inj (congrArg Subtype.val e))
  obtain ⟨u, e⟩ := Finite.injective_iff_surjective.1 hf ⟨v, hv⟩
  exact ⟨u, u.2, congrArg Subtype.val e⟩

theorem xPart_sum_smul (a : Fin n → ZMod 2) (u : Fin n → Fin (n + n) → ZMod 2) (i : Fin n) :
    xPart (∑ j, a j • u j) i = ∑ j, a j * xPart (u j) i := by
  change (∑ j, a j • u j) (Fin.castAdd n i) = _
  rw [Finset.sum_apply]; rfl

theorem zPart_sum_smul (a : Fin n → ZMod 2) (u : Fin n → Fin (n + n) → ZMod 2) (i : Fin n) :
    zPart (∑ j, a j • u j) i = ∑ j, a j * zPart (u j) i := by
  change (∑ j, a j • u j) (Fin.natAdd n i) = _
  rw [Finset.sum_apply]; rfl

theorem sectors_of_ok {T : Tableau n} (hT : T.Valid) (hkg : k + g ≤ n) (h : sectorsOk k g T = true) : Sectors k g T := by
  unfold sectorsOk at h
  simp only [Bool.and_eq_true, decide_eq_true_eq] at h
  obtain ⟨⟨⟨⟨⟨⟨a1, a2⟩, a3⟩, a4⟩, a5⟩, a6⟩, a7⟩ := h
  -- no X on stabilizer qubits
  have hV : ∀ u : Fin (n + n) → ZMod 2, (∀ i : Fin n, k + g ≤ i.val → xPart u i = 0) →
      ∀ i : Fin n, k + g ≤ i.val → xPart (T.opMap u) i = 0 := by
    intro u hu i hi
    rw [opMap_eq, SPauli.xPart_add, xPart_sum_smul, xPart_sum_smul, Finset.sum_eq_zero, Finset.sum_eq_zero, add_zero]
    · intro j _; rw [a1 j i trivial hi, mul_zero]
    · intro j _
      by_cases h1 : j.val < k
      · rw [a2 j i h1 hi, mul_zero]
      · by_cases h2 : j.val < k + g
        · rw [a3 j i ⟨by omega, h2⟩ hi, mul_zero]
        · rw [hu j (by omega), zero_mul]
  have hsz : ∀ j : Fin n, k + g ≤ j.val → (∀ i, xPart (T.zs j).op i = 0) ∧ ∀ i : Fin n, i.val < k + g → zPart (T.zs j).op i = 0 := by
    intro j hj
    have key : ∀ v : Fin (n + n) → ZMod 2, (∀ i : Fin n, k + g ≤ i.val → xPart v i = 0) → sform v (T.zs j).op = 0 := by
      intro v hv
      obtain ⟨u, hu, rfl⟩ := opMap_preserved hT hV hv
      rw [← opMap_Z, hT.sform_opMap, sform_comm2, sform_Z]
      exact hu j hj
    refine ⟨fun i => ?_, fun i hi => ?_⟩
    · rw [← sform_Z]
      exact key _ fun i' _ => by rw [Z_op, xPart_append]; rfl
    · rw [← sform_X]
      refine key _ fun i' hi' => ?_
      rw [X_op, xPart_append, Pi.single_apply, if_neg]
      intro e; rw [e] at hi'; omega
  -- gauge operators and stabilizers
  have hW : ∀ u : Fin (n + n) → ZMod 2, ((∀ i : Fin n, i.val < k → xPart u i = 0 ∧ zPart u i = 0) ∧
      ∀ i : Fin n, k + g ≤ i.val → xPart u i = 0) → ((∀ i : Fin n, i.val < k → xPart (T.opMap u) i = 0 ∧ zPart (T.opMap u) i = 0) ∧
      ∀ i : Fin n, k + g ≤ i.val → xPart (T.opMap u) i = 0) := by
    rintro u ⟨hu, hu'⟩
    refine ⟨fun i hi => ⟨?_, ?_⟩, hV u hu'⟩
    · rw [opMap_eq, SPauli.xPart_add, xPart_sum_smul, xPart_sum_smul, Finset.sum_eq_zero, Finset.sum_eq_zero, add_zero]
      · intro j _
        by_cases h1 : j.val < k
        · rw [(hu j h1).2, zero_mul]
        · by_cases h2 : j.val < k + g
          · rw [a6 j i ⟨by omega, h2⟩ hi, mul_zero]
          · rw [(hsz j (by omega)).1, mul_zero]
      · intro j _
        by_cases h1 : j.val < k
        · rw [(hu j h1).1, zero_mul]
        · by_cases h2 : j.val < k + g
          · rw [a4 j i ⟨by omega, h2⟩ hi, mul_zero]
          · rw [hu' j (by omega), zero_mul]
    · rw [opMap_eq, SPauli.zPart_add, zPart_sum_smul, zPart_sum_smul, Finset.sum_eq_zero, Finset.sum_eq_zero, add_zero]
      · intro j _
        by_cases h1 : j.val < k
        · rw [(hu j h1).2, zero_mul]
        · by_cases h2 : j.val < k + g
          · rw [a7 j i ⟨by omega, h2⟩ hi, mul_zero]
          · rw [(hsz j (by omega)).2 i (by omega), mul_zero]
      · intro j _
        by_cases h1 : j.val < k
        · rw [(hu j h1).1, zero_mul]
        · by_cases h2 : j.val < k + g
          · rw [a5 j i ⟨by omega, h2⟩ hi, mul_zero]
          · rw [hu' j (by omega), zero_mul]
  -- logical operators
  have hL : ∀ u : Fin (n + n) → ZMod 2, (∀ v : Fin (n + n) → ZMod 2, ((∀ i : Fin n, i.val < k → xPart v i = 0 ∧ zPart v i = 0) ∧
      ∀ i : Fin n, k + g ≤ i.val → xPart v i = 0) → sform v u = 0) →
      (∀ i : Fin n, k ≤ i.val → xPart (T.opMap u) i = 0) ∧ ∀ i : Fin n, k ≤ i.val → i.val < k + g → zPart (T.opMap u) i = 0 := by
    intro u hu
    have key : ∀ v : Fin (n + n) → ZMod 2, ((∀ i : Fin n, i.val < k → xPart v i = 0 ∧ zPart v i = 0) ∧
      ∀ i : Fin n, k + g ≤ i.val → xPart v i = 0) → sform v (T.opMap u) = 0 := by
      intro v hv
      obtain ⟨w, hw, rfl⟩ := opMap_preserved hT hW hv
      rw [hT.sform_opMap]; exact hu w hw
    refine ⟨fun i hi => ?_, fun i hi hi' => ?_⟩
    · rw [← sform_Z]
      refine key _ ⟨fun i' hi' => ?_, fun i' _ => by rw [Z_op, xPart_append]; rfl⟩
      rw [Z_op, xPart_append, zPart_append, Pi.single_apply, if_neg]
      · exact ⟨rfl, rfl⟩
      · intro e; rw [e] at hi'; omega
    · rw [← sform_X]
      refine key _ ⟨fun i' hi'' => ?_, fun i' hi'' => ?_⟩
      · rw [X_op, xPart_append, zPart_append, Pi.single_apply, if_neg]
        · exact ⟨rfl, rfl⟩
        · intro e; rw [e] at hi''; omega
      · rw [X_op, xPart_append, Pi.single_apply, if_neg]
        intro e; rw [e] at hi''; omega
  constructor
  · exact hkg
  · intro j hj
    rw [← opMap_X]
    exact hL _ fun v hv => by rw [sform_comm2, sform_X]; exact (hv.1 j hj).2
  · intro j hj
    rw [← opMap_Z]
    exact hL _ fun v hv => by rw [sform_comm2, sform_Z]; exact (hv.1 j hj).1
  · exact fun j hj hj' => ⟨fun i hi => a3 j i ⟨hj, hj'⟩ hi, fun i hi => ⟨a4 j i ⟨hj, hj'⟩ hi, a5 j i ⟨hj, hj'⟩ hi⟩⟩
  · exact fun j hj hj' => ⟨fun i hi => a1 j i trivial hi, fun i hi => ⟨a6 j i ⟨hj, hj'⟩ hi, a7 j i ⟨hj, hj'⟩ hi⟩⟩
  · exact hsz

/-! ## Corrections -/

theorem zPart_correction (T : Tableau n) (i : Fin n) : zPart (decodedCorrection k T) i = 0 := by
  unfold decodedCorrection; rw [zPart_append]; rfl

theorem xPart_correction (T : Tableau n) (i : Fin n) :
    xPart (decodedCorrection k T) i = if k ≤ i.val ∧ SPauli.isMinus (T.zs i) then 1 else 0 := by
  unfold decodedCorrection; rw [xPart_append, Tableau.apply_Z]

/-- A Pauli string in front of a circuit. -/
theorem decoded_pauli {E D : Tableau n} (hE : E.Valid) (hD : D.Valid) (c : List Instr) (q p : SPauli n) :
    (decodedTableau E D (pauliStringCircuit (E.apply q).op ++ c)).apply p =
      SPauli.scalar (double (sform q.op p.op)) * (decodedTableau E D c).apply p := by
  rw [decoded_apply hE hD, decoded_apply hE hD, apply_circuit_append, apply_pauliString]
  unfold conjPauli
  rw [hE.isHom.sform, (circuitTableau_valid c).isHom.smul, hD.isHom.smul]

theorem isMinus_double {p : SPauli n} (hp : Signed p) (b : ZMod 2) :
    SPauli.isMinus (SPauli.scalar (double b) * p) = (SPauli.isMinus p != decide (b = 1)) := by
  have hb : b = 0 ∨ b = 1 := by revert b; decide
  rcases hb with rfl | rfl
  · rw [double_zero, SPauli.scalar_zero, one_mul]; simp
  · have d1 : double 1 = 2 := rfl
    rw [d1]
    conv_lhs => rw [eq_signed hp]
    cases h : SPauli.isMinus p
    · rw [← signed_true, isMinus_signed]; rfl
    · have : SPauli.scalar 2 * SPauli.signed true p.op = SPauli.signed false p.op := by
        rw [signed_true, ← mul_assoc, ← scalar_add, show (2 + 2 : ZMod 4) = 0 by decide, SPauli.scalar_zero, one_mul]
      rw [this, isMinus_signed]; rfl

/-- After the correction, stabilizers do not change sign. -/
theorem corrected_zs {E D : Tableau n} (hE : E.Valid) (hD : D.Valid) (c : List Instr) (j : Fin n) (hj : k ≤ j.val) :
    SPauli.isMinus ((decodedTableau E D (pauliStringCircuit
      (E.apply (plus (decodedCorrection k (decodedTableau E D c)))).op ++ c)).zs j) = false := by
  rw [← Tableau.apply_Z, decoded_pauli hE hD, Tableau.apply_Z, isMinus_double ((decoded_valid hE hD c).sz j)]
  change (_ != decide (sform (decodedCorrection k (decodedTableau E D c)) _ = 1)) = false
  rw [sform_comm2, sform_Z, xPart_correction]
  cases h : SPauli.isMinus ((decodedTableau E D c).zs j) <;> simp [hj]

/-- The main statement about circuits with corrections. -/
theorem automorphismData_spec {E E' : Tableau n} (hE : E.Valid) (hE' : E'.Valid) {c : List Instr}
    (hs : Sectors k g (decodedTableau E E'.inverse c)) :
    ∃ T c', ∃ u : Fin (n + n) → ZMod 2, automorphismData k g E E'.inverse c = some (T, c') ∧ c' = pauliStringCircuit u ++ c ∧ T.Valid ∧
      (∀ q, ZTail (k + g) ((decodedTableau E E'.inverse c').apply q) ↔ ZTail (k + g) q) ∧
      (∀ P, ∃ s, ZTail (k + g) s ∧ (decodedTableau E E'.inverse c').apply (embed n P) = embed n (T.apply P) * s) := by
  have hD := hE'.inverse
  set u := (E.apply (plus (decodedCorrection k (decodedTableau E E'.inverse c)))).op with hu
  set c' := pauliStringCircuit u ++ c with hc'
  have hop : ∀ p, ((decodedTableau E E'.inverse c').apply p).op = ((decodedTableau E E'.inverse c).apply p).op := by
    intro p
    rw [hc', hu, decoded_pauli hE hD, scalar_mul_op]
  have hs' : Sectors k g (decodedTableau E E'.inverse c') := by
    refine hs.congr (fun j => ?_) fun j => ?_
    · rw [← Tableau.apply_X, hop, Tableau.apply_X]
    · rw [← Tableau.apply_Z, hop, Tableau.apply_Z]
  have hv := decoded_valid hE hD c'
  refine ⟨(decodedTableau E E'.inverse c').block k, c', u, ?_, rfl, hs'.block_valid hv, ?_, hs'.block_apply hv⟩
  · unfold automorphismData logicalTableau
    dsimp only
    change Option.map _ (if k ≤ n ∧ sectorsOk k g (decodedTableau E E'.inverse c') = true then _ else _) = _
    rw [if_pos ⟨by have := hs.kg; omega, hs'.ok⟩]
    rfl
  · refine ztail_iff hv.injective fun q hq => ?_
    rw [hq.eq, hv.isHom.powProd]
    unfold powProd
    have hl : ∀ l : List (SPauli n), (∀ p ∈ l, ZTail (k + g) p) → ZTail (k + g) l.prod := by
      intro l hl
      induction l with
      | nil => exact ZTail.one _
      | cons a l ih =>
        rw [List.prod_cons]
        exact (hl a List.mem_cons_self).mul (ih fun p hp => hl p (List.mem_cons_of_mem _ hp))
    apply hl
    intro p hp
    rw [List.mem_ofFn] at hp
    obtain ⟨j, rfl⟩ := hp
    unfold Tableau.bitPow
    split_ifs with h
    · exact ZTail.one _
    · have hj : k + g ≤ j.val := by
        by_contra hj
        exact h (hq.z j (by omega))
      change ZTail (k + g) ((decodedTableau E E'.inverse c').apply (SPauli.Z j))
      rw [Tableau.apply_Z]
      have hm : SPauli.isMinus ((decodedTableau E E'.inverse c').zs j) = false := by
        rw [hc', hu]; exact corrected_zs hE hD c j (by omega)
      refine ⟨?_, (hs'.sz j hj).1, (hs'.sz j hj).2⟩
      rw [eq_signed (hv.sz j), hm]
      unfold SPauli.signed
      rw [if_neg (by simp), SPauli.scalar_zero, one_mul]
      change ((countY _ : ℕ) : ZMod 4) = 0
      rw [countY_zero_left fun i => Or.inl ((hs'.sz j hj).1 i), Nat.cast_zero]

end QLDPC
