import Verif.Lemmas.TransversalCode
import Verif.Lemmas.Circuits

/-! # Searches for logical gates -/

namespace QLDPC

open Spec SPauli

variable {n k g : ℕ}

/-! ## Targets of SWAPs -/

theorem followCycle_mem {p : ℕ → ℕ} {n : ℕ} (hp : ∀ i < n, p i < n) (fuel : ℕ) (checked : List ℕ) (j : ℕ) (hj : j < n) :
    ∀ i ∈ followCycle p fuel checked j, i < n := by
  induction fuel generalizing checked j with
  | zero => intro i hi; simp [followCycle] at hi
  | succ fuel ih =>
    intro i hi
    unfold followCycle at hi
    split_ifs at hi with h
    · simp at hi
    · rcases List.mem_cons.1 hi with rfl | hi
      · exact hp j hj
      · exact ih _ _ (hp j hj) i hi

theorem cycleLoop_mem {p : ℕ → ℕ} {n : ℕ} (hp : ∀ i < n, p i < n) (l checked : List ℕ) (hl : ∀ i ∈ l, i < n) :
    ∀ c ∈ cycleLoop p n l checked, ∀ i ∈ c, i < n := by
  induction l generalizing checked with
  | nil => intro c hc; simp [cycleLoop] at hc
  | cons a l ih =>
    intro c hc
    have ha := hl a List.mem_cons_self
    have hl' : ∀ i ∈ l, i < n := fun i hi => hl i (List.mem_cons_of_mem _ hi)
    unfold cycleLoop at hc
    simp only at hc
    split_ifs at hc
    · exact ih _ hl' c hc
    · rcases List.mem_cons.1 hc with rfl | hc
      · intro i hi
        rcases List.mem_cons.1 hi with rfl | hi
        · exact ha
        · exact followCycle_mem hp _ _ _ ha i hi
      · exact ih _ hl' c hc
    · exact ih _ hl' c hc

theorem swapCircuit_inRange {σ : ℕ → ℕ} {c : List Gate} (h : swapCircuit n σ = some c) : ∀ x ∈ c, x.InRange n := by
  unfold swapCircuit at h
  rw [Option.map_eq_some_iff] at h
  obtain ⟨cyc, hc, rfl⟩ := h
  unfold cyclicForm at hc
  split_ifs at hc
  simp only [Option.some.injEq] at hc
  subst hc
  intro x hx
  obtain ⟨l, hl, hx⟩ := List.mem_flatMap.1 hx
  have hlt := cycleLoop_mem (p := fun i => ((List.range n).map fun q => σ q % n).getD i i) (n := n) ?_ _ _ ?_ l
    (by simpa using hl)
  · cases l with
    | nil => simp [cycleSwaps] at hx
    | cons a l =>
      obtain ⟨b, hb, rfl⟩ := List.mem_map.1 hx
      exact ⟨hlt a List.mem_cons_self, hlt b (List.mem_cons_of_mem _ hb)⟩
  · intro i hi
    have : ((List.range n).map fun q => σ q % n).getD i i = σ i % n := by
      rw [List.getD_eq_getElem _ _ (by simpa using hi)]; simp
    simp only [this]
    exact Nat.mod_lt _ (by omega)
  · intro i hi; simpa using hi

theorem automorphismCircuit_inRange {gs : GateSet} {σ : ℕ → ℕ} {c : List Gate} (h : automorphismCircuit gs n σ = some c) :
    ∀ x ∈ c, x.InRange n := by
  unfold automorphismCircuit at h
  rw [Option.map_eq_some_iff] at h
  obtain ⟨s, hs, rfl⟩ := h
  intro x hx
  rcases List.mem_append.1 hx with hx | hx
  · unfold pauliCircuit at hx
    simp only at hx
    split_ifs at hx
    · obtain ⟨q, -, rfl⟩ := List.mem_map.1 hx
      trivial
    · obtain ⟨q, -, rfl⟩ := List.mem_map.1 hx
      trivial
    · obtain ⟨q, -, rfl⟩ := List.mem_map.1 hx
      trivial
    · simp only [List.mem_append, List.mem_map] at hx
      rcases hx with (((hx | hx) | hx) | hx) | hx <;> obtain ⟨q, -, rfl⟩ := hx <;> trivial
    · simp at hx
  · exact swapCircuit_inRange hs x hx

/-! ## Gauge groups -/

/-- Products of gauge operators and stabilizers, decoded. -/
def GaugeBits (k g : ℕ) (w : Fin (n + n) → ZMod 2) : Prop :=
  (∀ i : Fin n, i.val < k → xPart w i = 0 ∧ zPart w i = 0) ∧ ∀ i : Fin n, k + g ≤ i.val → xPart w i = 0

variable {S LX LZ GX GZ D S' GX' GZ' D' : Rows (ZMod 2) (n + n)}

theorem opMap_x {T : Tableau n} (hT : T.Valid) (w : Fin (n + n) → ZMod 2) (i : Fin n) : sform (T.opMap w) (T.zs i).op = xPart w i := by
  rw [← opMap_Z, hT.sform_opMap, sform_comm2, sform_Z]

theorem opMap_z {T : Tableau n} (hT : T.Valid) (w : Fin (n + n) → ZMod 2) (i : Fin n) : sform (T.opMap w) (T.xs i).op = zPart w i := by
  rw [← opMap_X, hT.sform_opMap, sform_comm2, sform_X]

theorem Frame.mem_span (h : Frame S LX LZ GX GZ D) (w : Fin (n + n) → ZMod 2) :
    (frameTableau S LX LZ GX GZ D).opMap w ∈ rowSpan (S ++ GX ++ GZ) ↔ GaugeBits LX.length GX.length w := by
  have hE := h.valid
  constructor
  · intro hw
    have key : ∀ v : Fin (n + n) → ZMod 2, (∀ r, InGauge LX.length GX.length (frameTableau S LX LZ GX GZ D) r → sform r v = 0) →
        sform ((frameTableau S LX LZ GX GZ D).opMap w) v = 0 := fun v hv =>
      sform_span_left (fun r hr => hv r ((h.inGauge r).2 hr)) hw
    refine ⟨fun i hi => ⟨?_, ?_⟩, fun i hi => ?_⟩
    · rw [← opMap_x hE]
      refine key _ ?_
      rintro r ⟨j, ⟨hj, rfl⟩ | ⟨hj, -, rfl⟩⟩
      · exact hE.zz _ _
      · rw [hE.xz, if_neg]; rintro rfl; omega
    · rw [← opMap_z hE]
      refine key _ ?_
      rintro r ⟨j, ⟨hj, rfl⟩ | ⟨hj, -, rfl⟩⟩
      · rw [sform_comm2, hE.xz, if_neg]; rintro rfl; omega
      · exact hE.xx _ _
    · rw [← opMap_x hE]
      refine key _ ?_
      rintro r ⟨j, ⟨hj, rfl⟩ | ⟨hj, hj', rfl⟩⟩
      · exact hE.zz _ _
      · rw [hE.xz, if_neg]; rintro rfl; omega
  · rintro ⟨h1, h2⟩
    have hg : ∀ r, InGauge LX.length GX.length (frameTableau S LX LZ GX GZ D) r → r ∈ rowSpan (S ++ GX ++ GZ) :=
      fun r hr => subset_rowSpan ((h.inGauge r).1 hr)
    rw [opMap_eq]
    refine Submodule.add_mem _ (Submodule.sum_mem _ fun j _ => ?_) (Submodule.sum_mem _ fun j _ => ?_)
    · by_cases hj : j.val < LX.length
      · rw [(h1 j hj).1, zero_smul]; exact Submodule.zero_mem _
      · by_cases hj' : j.val < LX.length + GX.length
        · exact Submodule.smul_mem _ _ (hg _ ⟨j, Or.inr ⟨by omega, hj', rfl⟩⟩)
        · rw [h2 j (by omega), zero_smul]; exact Submodule.zero_mem _
    · by_cases hj : j.val < LX.length
      · rw [(h1 j hj).2, zero_smul]; exact Submodule.zero_mem _
      · exact Submodule.smul_mem _ _ (hg _ ⟨j, Or.inl ⟨by omega, rfl⟩⟩)

theorem Sectors.gaugeBits {T : Tableau n} (h : Sectors k g T) {w : Fin (n + n) → ZMod 2} (hw : GaugeBits k g w) :
    GaugeBits k g (T.opMap w) := by
  obtain ⟨h1, h2⟩ := hw
  refine ⟨fun i hi => ⟨?_, ?_⟩, fun i hi => ?_⟩
  · rw [opMap_eq, SPauli.xPart_add, xPart_sum_smul, xPart_sum_smul, Finset.sum_eq_zero, Finset.sum_eq_zero, add_zero] <;>
      intro j _ <;> by_cases hj : j.val < k
    · rw [(h1 j hj).2, zero_mul]
    · by_cases hj' : j.val < k + g
      · rw [((h.gz j (by omega) hj').2 i hi).1, mul_zero]
      · rw [(h.sz j (by omega)).1, mul_zero]
    · rw [(h1 j hj).1, zero_mul]
    · by_cases hj' : j.val < k + g
      · rw [((h.gx j (by omega) hj').2 i hi).1, mul_zero]
      · rw [h2 j (by omega), zero_mul]
  · rw [opMap_eq, SPauli.zPart_add, zPart_sum_smul, zPart_sum_smul, Finset.sum_eq_zero, Finset.sum_eq_zero, add_zero] <;>
      intro j _ <;> by_cases hj : j.val < k
    · rw [(h1 j hj).2, zero_mul]
    · by_cases hj' : j.val < k + g
      · rw [((h.gz j (by omega) hj').2 i hi).2, mul_zero]
      · rw [(h.sz j (by omega)).2 i (by omega), mul_zero]
    · rw [(h1 j hj).1, zero_mul]
    · by_cases hj' : j.val < k + g
      · rw [((h.gx j (by omega) hj').2 i hi).2, mul_zero]
      · rw [h2 j (by omega), zero_mul]
  · rw [opMap_eq, SPauli.xPart_add, xPart_sum_smul, xPart_sum_smul, Finset.sum_eq_zero, Finset.sum_eq_zero, add_zero] <;>
      intro j _ <;> by_cases hj : j.val < k
    · rw [(h1 j hj).2, zero_mul]
    · by_cases hj' : j.val < k + g
      · rw [(h.gz j (by omega) hj').1 i hi, mul_zero]
      · rw [(h.sz j (by omega)).1, mul_zero]
    · rw [(h1 j hj).1, zero_mul]
    · by_cases hj' : j.val < k + g
      · rw [(h.gx j (by omega) hj').1 i hi, mul_zero]
      · rw [h2 j (by omega), zero_mul]

theorem opMap_encode {E E' : Tableau n} (hE : E.Valid) (hE' : E'.Valid) (c : List Instr) (w : Fin (n + n) → ZMod 2) :
    (circuitTableau n c).opMap (E.opMap w) = E'.opMap ((decodedTableau E E'.inverse c).opMap w) := by
  have e := congrArg SPauli.op (encode_decoded hE hE' c ⟨0, w⟩)
  rw [Tableau.apply_op, Tableau.apply_op, Tableau.apply_op, Tableau.apply_op] at e
  exact e

/-- The assertions hold precisely if the circuit sends the gauge group to the gauge group, modulo signs. -/
theorem Frame.sectors_iff (h : Frame S LX LZ GX GZ D) (h' : Frame S' LX LZ GX' GZ' D') (hg : GX.length = GX'.length)
    (c : List Instr) : Sectors LX.length GX.length
      (decodedTableau (frameTableau S LX LZ GX GZ D) (frameTableau S' LX LZ GX' GZ' D').inverse c) ↔
      ∀ u, (circuitTableau n c).opMap u ∈ rowSpan (S' ++ GX' ++ GZ') ↔ u ∈ rowSpan (S ++ GX ++ GZ) := by
  have hT := decoded_valid h.valid h'.valid.inverse c
  constructor
  · intro hs u
    obtain ⟨w, rfl⟩ := h.valid.opMap_surj u
    rw [opMap_encode h.valid h'.valid, h.mem_span, h'.mem_span, ← hg]
    refine ⟨fun hw => ?_, fun hw => hs.gaugeBits hw⟩
    obtain ⟨w', hw', e⟩ := opMap_preserved hT (P := GaugeBits LX.length GX.length) (fun _ => hs.gaugeBits) hw
    rw [← hT.opMap_inj e]; exact hw'
  · intro hu
    refine h.sectors h' hg (fun r hr => (hu r).2 (subset_rowSpan hr)) fun r hr => ?_
    obtain ⟨p, rfl⟩ := (circuitTableau_valid c).opMap_surj r
    exact ⟨p, (hu p).1 (subset_rowSpan hr), rfl⟩

theorem Frame.logicalTableau_iff (h : Frame S LX LZ GX GZ D) (h' : Frame S' LX LZ GX' GZ' D') (hg : GX.length = GX'.length)
    (c : List Instr) : (∃ T, logicalTableau LX.length GX.length (frameTableau S LX LZ GX GZ D)
        (frameTableau S' LX LZ GX' GZ' D').inverse c = some T) ↔
      ∀ u, (circuitTableau n c).opMap u ∈ rowSpan (S' ++ GX' ++ GZ') ↔ u ∈ rowSpan (S ++ GX ++ GZ) := by
  rw [← h.sectors_iff h' hg]
  have hk : LX.length ≤ n := by have := h.kg; omega
  have hT := decoded_valid h.valid h'.valid.inverse c
  unfold logicalTableau
  simp only
  constructor
  · rintro ⟨T, e⟩
    split_ifs at e with hc
    exact sectors_of_ok hT h.kg hc.2
  · intro hs
    exact ⟨_, if_pos ⟨hk, hs.ok⟩⟩

theorem Frame.logicalTableau_spec (h : Frame S LX LZ GX GZ D) (h' : Frame S' LX LZ GX' GZ' D') (hg : GX.length = GX'.length)
    (c : List Instr) {T : Tableau LX.length} (e : logicalTableau LX.length GX.length (frameTableau S LX LZ GX GZ D)
        (frameTableau S' LX LZ GX' GZ' D').inverse c = some T) :
    T.Valid ∧ ∀ P, ∃ s, InStabilizerGroup S' s ∧
      (circuitTableau n c).apply (SPauli.logical LX LZ P) = SPauli.logical LX LZ (T.apply P) * s := by
  have hT := decoded_valid h.valid h'.valid.inverse c
  unfold logicalTableau at e
  simp only at e
  split_ifs at e with hc
  have hs := sectors_of_ok hT h.kg hc.2
  simp only [Option.some.injEq] at e
  subst e
  refine ⟨hs.block_valid hT, fun P => ?_⟩
  obtain ⟨s, hz, es⟩ := hs.block_apply hT P
  refine ⟨(frameTableau S' LX LZ GX' GZ' D').apply s, (h'.inStab _).2 ⟨s, by rw [← hg]; exact hz, rfl⟩, ?_⟩
  rw [h.logical, encode_decoded h.valid h'.valid, es, h'.valid.isHom.mul, h'.logical]
  rfl

/-! ## Uniqueness -/

/-- No scalar other than 1 is a product of stabilizers. -/
theorem Frame.scalar_stab (h : Frame S LX LZ GX GZ D) {a : ZMod 4} (ha : InStabilizerGroup S (SPauli.scalar a)) : a = 0 := by
  obtain ⟨q, hq, e⟩ := (h.inStab _).1 ha
  rw [← h.valid.isHom.scalar] at e
  have := h.valid.injective e
  rw [← this] at hq
  exact hq.phase

/-- Logical operators are determined by their products with stabilizers. -/
theorem Frame.logical_inj (h : Frame S LX LZ GX GZ D) {P Q : SPauli LX.length} {s t : SPauli n}
    (hs : InStabilizerGroup S s) (ht : InStabilizerGroup S t)
    (e : SPauli.logical LX LZ P * s = SPauli.logical LX LZ Q * t) : P = Q := by
  obtain ⟨s, hs', rfl⟩ := (h.inStab _).1 hs
  obtain ⟨t, ht', rfl⟩ := (h.inStab _).1 ht
  have hk : LX.length ≤ n := by have := h.kg; omega
  rw [h.logical, h.logical, ← h.valid.isHom.mul, ← h.valid.isHom.mul] at e
  have e := h.valid.injective e
  have hb : P.op = Q.op := by
    have e' := congrArg SPauli.op e
    rw [mul_op, mul_op] at e'
    apply ext_bits <;> intro i
    · have := congrArg (fun u => xPart u (Fin.castLE hk i)) e'
      simp only [SPauli.xPart_add, hs'.x, ht'.x, add_zero] at this
      change xPart (padBits n P.op) _ = xPart (padBits n Q.op) _ at this
      rw [xPart_pad, xPart_pad, dif_pos (show (Fin.castLE hk i).val < LX.length from i.isLt),
        dif_pos (show (Fin.castLE hk i).val < LX.length from i.isLt)] at this
      exact this
    · have := congrArg (fun u => zPart u (Fin.castLE hk i)) e'
      simp only [SPauli.zPart_add] at this
      rw [hs'.z _ (by simp; omega), ht'.z _ (by simp; omega), add_zero, add_zero] at this
      change zPart (padBits n P.op) _ = zPart (padBits n Q.op) _ at this
      rw [zPart_pad, zPart_pad, dif_pos (show (Fin.castLE hk i).val < LX.length from i.isLt),
        dif_pos (show (Fin.castLE hk i).val < LX.length from i.isLt)] at this
      exact this
  refine SPauli.ext ?_ hb
  have e' := congrArg SPauli.phase e
  rw [mul_phase, mul_phase, hs'.phase, ht'.phase, Finset.sum_eq_zero fun i _ => by rw [hs'.x, mul_zero],
    Finset.sum_eq_zero fun i _ => by rw [ht'.x, mul_zero], double_zero, add_zero, add_zero, add_zero, add_zero] at e'
  exact e'

/-- The same modulo signs. -/
theorem Frame.logical_op_inj (h : Frame S LX LZ GX GZ D) {P Q : SPauli LX.length} {s t : SPauli n}
    (hs : InStabilizerGroup S s) (ht : InStabilizerGroup S t)
    (e : (SPauli.logical LX LZ P * s).op = (SPauli.logical LX LZ Q * t).op) : P.op = Q.op := by
  have h1 : SPauli.logical LX LZ P * s = SPauli.scalar ((SPauli.logical LX LZ P * s).phase - (SPauli.logical LX LZ Q * t).phase) *
      (SPauli.logical LX LZ Q * t) := by
    rw [scalar_mul]
    refine SPauli.ext ?_ e
    simp
  rw [← mul_assoc, ← h.isHom_logical.smul] at h1
  rw [h.logical_inj hs ht h1, scalar_mul_op]

/-! ## Logical corrections -/

theorem logicalCorrection_op (h : Frame S LX LZ GX GZ D) (target found : Tableau LX.length) :
    logicalCorrection LX LZ target found = (SPauli.logical LX LZ (SPauli.plus
      (Fin.append (fun j => if SPauli.isMinus (target.zs j) ≠ SPauli.isMinus (found.zs j) then 1 else 0)
        (fun j => if SPauli.isMinus (target.xs j) ≠ SPauli.isMinus (found.xs j) then 1 else 0)))).op := by
  unfold SPauli.logical
  rw [scalar_mul_op, mul_op, Frame.product_eq, Frame.product_eq, powProd_op, powProd_op, ← Finset.sum_add_distrib]
  unfold logicalCorrection
  refine Finset.sum_congr rfl fun j _ => ?_
  have hp : ∀ {m : ℕ} (v : Fin (m + m) → ZMod 2), (plus v).op = v := fun _ => rfl
  rw [hp, hp, hp, xPart_append, zPart_append]
  refine (add_comm _ _).trans ?_
  congr 1 <;> split_ifs <;> simp

/-- Tableaus that are equal up to signs differ by a Pauli operator. -/
theorem apply_of_equiv {T U : Tableau k} (hT : T.Valid) (hU : U.Valid) (h : equivModPaulis T U = true) (P : SPauli k) :
    T.apply P = U.apply (conjPauli (Fin.append (fun j => if SPauli.isMinus (T.zs j) ≠ SPauli.isMinus (U.zs j) then 1 else 0)
        (fun j => if SPauli.isMinus (T.xs j) ≠ SPauli.isMinus (U.xs j) then 1 else 0)) P) := by
  unfold equivModPaulis at h
  rw [decide_eq_true_eq] at h
  have hv := hU.isHom.comp (isHom_conjPauli (Fin.append
    (fun j => if SPauli.isMinus (T.zs j) ≠ SPauli.isMinus (U.zs j) then (1 : ZMod 2) else 0)
    (fun j => if SPauli.isMinus (T.xs j) ≠ SPauli.isMinus (U.xs j) then 1 else 0)))
  refine hv.eq_apply (fun j => ?_) (fun j => ?_) P
  · rw [signed_eq_iff (hT.sx j) (hv.signed (show Signed (SPauli.X j) from signed_plus _)), Function.comp_apply]
    unfold conjPauli
    rw [hU.isHom.smul, Tableau.apply_X, sform_comm2, sform_X, zPart_append, isMinus_double (hU.sx j), scalar_mul_op]
    refine ⟨?_, (h j).1⟩
    cases SPauli.isMinus (T.xs j) <;> cases SPauli.isMinus (U.xs j) <;> decide
  · rw [signed_eq_iff (hT.sz j) (hv.signed (show Signed (SPauli.Z j) from signed_plus _)), Function.comp_apply]
    unfold conjPauli
    rw [hU.isHom.smul, Tableau.apply_Z, sform_comm2, sform_Z, xPart_append, isMinus_double (hU.sz j), scalar_mul_op]
    refine ⟨?_, (h j).2⟩
    cases SPauli.isMinus (T.zs j) <;> cases SPauli.isMinus (U.zs j) <;> decide

theorem equiv_iff {T U : Tableau k} (hT : T.Valid) (hU : U.Valid) :
    equivModPaulis T U = true ↔ ∃ v, ∀ P, T.apply P = U.apply (conjPauli v P) := by
  refine ⟨fun h => ⟨_, apply_of_equiv hT hU h⟩, ?_⟩
  rintro ⟨v, hv⟩
  unfold equivModPaulis
  rw [decide_eq_true_eq]
  intro j
  rw [← Tableau.apply_X, ← Tableau.apply_Z, hv, hv, ← Tableau.apply_X, ← Tableau.apply_Z]
  exact ⟨hU.isHom.op_congr (conjPauli_op _ _), hU.isHom.op_congr (conjPauli_op _ _)⟩

/-- Conjugation. -/
theorem conj_eq (Q P : SPauli k) : Q * P * Q⁻¹ = conjPauli Q.op P := by
  unfold conjPauli
  rw [mul_comm_sform Q P, mul_assoc, mul_assoc, mul_inv_cancel, mul_one]

theorem isPauli_eq (T : Tableau k) : isPauliTableau T = equivModPaulis T (Tableau.identity k) := rfl

/-- The corrected circuit implements the target. -/
theorem Frame.correct (h : Frame S LX LZ GX GZ D) {S' : Rows (ZMod 2) (n + n)} {c : List Instr} {T U : Tableau LX.length} (hT : T.Valid) (hU : U.Valid)
    (hi : ImplementsLogical S S' LX LZ (circuitTableau n c).apply U.apply) (he : equivModPaulis T U = true) :
    ImplementsLogical S S' LX LZ (circuitTableau n (pauliStringCircuit (logicalCorrection LX LZ T U) ++ c)).apply T.apply := by
  rw [logicalCorrection_op h]
  have hv := apply_of_equiv hT hU he
  generalize (Fin.append (fun j => if SPauli.isMinus (T.zs j) ≠ SPauli.isMinus (U.zs j) then (1 : ZMod 2) else 0)
        (fun j => if SPauli.isMinus (T.xs j) ≠ SPauli.isMinus (U.xs j) then (1 : ZMod 2) else 0)) = v at hv ⊢
  have hc : ∀ p, (circuitTableau n (pauliStringCircuit (SPauli.logical LX LZ (plus v)).op ++ c)).apply p =
      (circuitTableau n c).apply (conjPauli (SPauli.logical LX LZ (plus v)).op p) := by
    intro p; rw [apply_circuit_append, apply_pauliString]
  have hfix : ∀ p, InStabilizerGroup S p → conjPauli (SPauli.logical LX LZ (plus v)).op p = p := by
    intro p hp
    unfold conjPauli
    rw [h.sform_stab hp, double_zero, SPauli.scalar_zero, one_mul]
  constructor
  · intro p
    rw [hc, hi.stab]
    constructor
    · intro hp
      have e := hfix _ hp
      have hz : sform (SPauli.logical LX LZ (plus v)).op p.op = 0 := by
        have := h.sform_stab hp (plus v)
        rwa [conjPauli_op] at this
      have : conjPauli (SPauli.logical LX LZ (plus v)).op p = p := by
        unfold conjPauli; rw [hz, double_zero, SPauli.scalar_zero, one_mul]
      rwa [this] at hp
    · intro hp
      rw [hfix p hp]; exact hp
  · intro P
    obtain ⟨s, hs, e⟩ := hi.logical (conjPauli v P)
    refine ⟨s, hs, ?_⟩
    rw [hc, hv, ← e]
    congr 1
    unfold conjPauli
    rw [h.isHom_logical.smul, h.isHom_logical.sform]
    rfl

/-- The logical gate is determined by the circuit, and modulo signs by the circuit up to Pauli gates. -/
theorem Frame.unique (h' : Frame S' LX LZ GX' GZ' D') {c : List Instr} {u u' : Fin (n + n) → ZMod 2} {T U : Tableau LX.length}
    (hi : ImplementsLogical S S' LX LZ (circuitTableau n (pauliStringCircuit u ++ c)).apply T.apply)
    (hi' : ImplementsLogical S S' LX LZ (circuitTableau n (pauliStringCircuit u' ++ c)).apply U.apply) :
    equivModPaulis T U = true := by
  have key : ∀ P, (T.apply P).op = (U.apply P).op := by
    intro P
    obtain ⟨s, hs, e⟩ := hi.logical P
    obtain ⟨t, ht, e'⟩ := hi'.logical P
    refine h'.logical_op_inj hs ht ?_
    rw [← e, ← e', apply_circuit_append, apply_circuit_append, apply_pauliString, apply_pauliString]
    exact (circuitTableau_valid c).isHom.op_congr (by rw [conjPauli_op, conjPauli_op])
  unfold equivModPaulis
  rw [decide_eq_true_eq]
  intro j
  rw [← Tableau.apply_X, ← Tableau.apply_Z, ← Tableau.apply_X, ← Tableau.apply_Z]
  exact ⟨key _, key _⟩

/-! ## Redundancies -/

theorem transversalOps_spec (data : List (Tableau k × List Instr)) :
    (∀ d ∈ transversalOps true data, d ∈ data ∧ isPauliTableau d.1 = false) ∧
    (transversalOps true data).Pairwise (fun d e => equivModPaulis e.1 d.1 = false) ∧
    ∀ d ∈ data, isPauliTableau d.1 = true ∨ ∃ e ∈ transversalOps true data, e = d ∨ equivModPaulis d.1 e.1 = true := by
  unfold transversalOps
  induction data using List.reverseRecOn with
  | nil => simp
  | append_singleton l d ih =>
    rw [List.foldl_append]
    simp only [List.foldl_cons, List.foldl_nil, Bool.not_true, Bool.false_or]
    simp only [Bool.not_true, Bool.false_or] at ih
    generalize l.foldl _ _ = ops at ih ⊢
    obtain ⟨h1, h2, h3⟩ := ih
    split_ifs with hc
    · simp only [Bool.not_eq_true', Bool.or_eq_false_iff, List.any_eq_false] at hc
      refine ⟨?_, ?_, ?_⟩
      · intro e he
        rcases List.mem_append.1 he with he | he
        · exact ⟨List.mem_append_left _ (h1 e he).1, (h1 e he).2⟩
        · rw [List.mem_singleton.1 he]
          exact ⟨by simp, hc.1⟩
      · rw [List.pairwise_append]
        refine ⟨h2, List.pairwise_singleton _ _, ?_⟩
        intro a ha b hb
        rw [List.mem_singleton.1 hb]
        simpa using hc.2 a ha
      · intro e he
        rcases List.mem_append.1 he with he | he
        · rcases h3 e he with h | ⟨e', he', h⟩
          · exact Or.inl h
          · exact Or.inr ⟨e', List.mem_append_left _ he', h⟩
        · rw [List.mem_singleton.1 he]
          exact Or.inr ⟨d, by simp, Or.inl rfl⟩
    · simp only [Bool.not_eq_true', Bool.not_eq_false, Bool.or_eq_true, List.any_eq_true] at hc
      refine ⟨fun e he => ⟨List.mem_append_left _ (h1 e he).1, (h1 e he).2⟩, h2, ?_⟩
      intro e he
      rcases List.mem_append.1 he with he | he
      · exact h3 e he
      · rw [List.mem_singleton.1 he]
        rcases hc with hc | ⟨o, ho, hc⟩
        · exact Or.inl hc
        · exact Or.inr ⟨o, ho, Or.inr hc⟩

theorem transversalOps_all (data : List (Tableau k × List Instr)) : transversalOps false data = data := by
  unfold transversalOps
  have : ∀ l acc : List (Tableau k × List Instr), l.foldl (fun ops d =>
      if !false || !(isPauliTableau d.1 || ops.any fun o => equivModPaulis d.1 o.1) then ops ++ [d] else ops) acc = acc ++ l := by
    intro l
    induction l with
    | nil => simp
    | cons a l ih => intro acc; rw [List.foldl_cons, ih]; simp
  rw [this]; rfl

end QLDPC
