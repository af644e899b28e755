import Verif.Lemmas.Isometry

/-! # Every stabilizer code has an encoding isometry -/

namespace QLDPC

open Spec SPauli ComplexConjugate

variable {n k : ℕ}

theorem act_smul (p : SPauli n) (a : ℂ) (ψ : State n) : p.act (a • ψ) = a • p.act ψ := by
  rw [← actL_apply, map_smul]; rfl

theorem act_sum {ι : Type} [Fintype ι] (p : SPauli n) (c : ι → ℂ) (v : ι → State n) :
    p.act (∑ i, c i • v i) = ∑ i, c i • p.act (v i) := by
  rw [← actL_apply, map_sum]
  exact Finset.sum_congr rfl fun i _ => by rw [map_smul]; rfl

/-- `X^b` -/
def xOnly (b : Fin k → ZMod 2) : SPauli k := ⟨0, Fin.append b 0⟩

/-- `Z^z` -/
def zOnly (z : Fin k → ZMod 2) : SPauli k := ⟨0, Fin.append 0 z⟩

/-- `i^a X^x Z^z X^b = i^a (-1)^(z · b) X^(x + b) Z^z` -/
theorem mul_xOnly (P : SPauli k) (b : Fin k → ZMod 2) :
    P * xOnly b = scalar (P.phase + double (∑ i, zPart P.op i * b i)) * (xOnly (xPart P.op + b) * zOnly (zPart P.op)) := by
  apply SPauli.ext
  · rw [scalar_mul_phase, mul_phase, mul_phase]
    simp [xOnly, zOnly, xPart_append, zPart_append, double_zero]
  · rw [scalar_mul_op, mul_op, mul_op]
    apply ext_bits <;> intro i
    · rw [SPauli.xPart_add, SPauli.xPart_add, xOnly, zOnly, xOnly, xPart_append, xPart_append, xPart_append]; simp
    · rw [SPauli.zPart_add, SPauli.zPart_add, xOnly, zOnly, xOnly, zPart_append, zPart_append, zPart_append]; simp

namespace Frame

variable {S LX LZ D : Rows (ZMod 2) (n + n)}

theorem exists_ket (h : Frame S LX LZ [] [] D) : ∃ φ : State n, stateNorm φ = 1 ∧ IsCodeState (LZ ++ S) φ := by
  have h1 := finrank_codeSpace h.indep
  rw [h.tab.lenZ, List.append_nil] at h1
  have h2 : Module.finrank ℂ (codeSpace (LZ ++ S)) = 1 :=
    Nat.eq_of_mul_eq_mul_right (show 0 < 2 ^ n by positivity) (by rw [h1, one_mul])
  have : Nontrivial (codeSpace (LZ ++ S)) := Module.nontrivial_of_finrank_pos (R := ℂ) (by rw [h2]; exact one_pos)
  obtain ⟨⟨φ, hφ⟩, hne⟩ := exists_ne (0 : codeSpace (LZ ++ S))
  have hφ0 : φ ≠ 0 := fun e => hne (Subtype.ext e)
  have hpos : 0 < stateNorm φ := by
    rcases lt_or_eq_of_le (show 0 ≤ stateNorm φ from Finset.sum_nonneg fun b _ => Complex.normSq_nonneg _) with h | h
    · exact h
    · exact absurd (stateNorm_eq_zero h.symm) hφ0
  refine ⟨((1 / √(stateNorm φ) : ℝ) : ℂ) • φ, ?_, ?_⟩
  · have : stateNorm (((1 / √(stateNorm φ) : ℝ) : ℂ) • φ) = (1 / √(stateNorm φ)) * (1 / √(stateNorm φ)) * stateNorm φ := by
      unfold stateNorm
      rw [Finset.mul_sum]
      refine Finset.sum_congr rfl fun s _ => ?_
      rw [Pi.smul_apply, smul_eq_mul, Complex.normSq_mul, Complex.normSq_ofReal]
    rw [this, div_mul_div_comm, one_mul, Real.mul_self_sqrt hpos.le, one_div, inv_mul_cancel₀ hpos.ne']
  · intro s hs
    rw [act_smul, hφ s hs]

theorem logical_zOnly (h : Frame S LX LZ [] [] D) {φ : State n} (hφ : IsCodeState (LZ ++ S) φ) (z : Fin LX.length → ZMod 2) :
    (SPauli.logical LX LZ (zOnly z)).act φ = φ := by
  have e : SPauli.logical LX LZ (zOnly z) = SPauli.product LZ z := by
    unfold SPauli.logical zOnly
    rw [xPart_append, zPart_append, product_eq, powProd_zero, one_mul]
    exact one_mul _
  rw [e, product_eq]
  unfold powProd
  have key : ∀ l : List (SPauli n), (∀ p ∈ l, p.act φ = φ) → l.prod.act φ = φ := by
    intro l
    induction l with
    | nil => intro _; exact act_one φ
    | cons p l ih =>
      intro hl
      rw [List.prod_cons, act_mul, ih fun q hq => hl q (List.mem_cons_of_mem _ hq), hl p List.mem_cons_self]
  apply key
  intro p hp
  rw [List.mem_ofFn] at hp
  obtain ⟨j, rfl⟩ := hp
  unfold Tableau.bitPow
  split
  · exact act_one φ
  · exact hφ _ (List.mem_append_left _ (getD_mem_of_lt 0 (by rw [← h.lenL]; exact j.isLt)))

/-- The image of the basis state `b`. -/
noncomputable def ket (LX LZ : Rows (ZMod 2) (n + n)) (φ : State n) (b : Fin LX.length → ZMod 2) : State n :=
  (SPauli.logical LX LZ (xOnly b)).act φ

theorem logical_ket (h : Frame S LX LZ [] [] D) {φ : State n} (hφ : IsCodeState (LZ ++ S) φ) (P : SPauli LX.length)
    (b : Fin LX.length → ZMod 2) : (SPauli.logical LX LZ P).act (ket LX LZ φ b) =
      (ipow P.phase * sgn (∑ i, zPart P.op i * b i)) • ket LX LZ φ (xPart P.op + b) := by
  unfold ket
  rw [← act_mul, ← h.isHom_logical.mul, mul_xOnly, h.isHom_logical.mul, h.isHom_logical.scalar, act_mul, act_scalar,
    h.isHom_logical.mul, act_mul, h.logical_zOnly hφ, ipow_add, ipow_double]
  rfl

theorem ket_orth (h : Frame S LX LZ [] [] D) {φ : State n} (hφ : IsCodeState (LZ ++ S) φ) (hn : stateNorm φ = 1)
    (a b : Fin LX.length → ZMod 2) : inner' (ket LX LZ φ a) (ket LX LZ φ b) = if a = b then 1 else 0 := by
  split
  · rename_i e
    subst e
    rw [ket, inner'_act, inner'_self, hn, Complex.ofReal_one]
  · rename_i hne
    have : ∃ j, a j ≠ b j := by
      by_contra hc
      push Not at hc
      exact hne (funext hc)
    obtain ⟨j, hj⟩ := this
    have e := inner'_act (SPauli.logical LX LZ (zOnly (Pi.single j 1))) (ket LX LZ φ a) (ket LX LZ φ b)
    have es : ∀ c : Fin LX.length → ZMod 2, ∑ i, (Pi.single j 1 : Fin LX.length → ZMod 2) i * c i = c j := by
      intro c
      rw [Finset.sum_eq_single j]
      · simp
      · intro i _ hi; simp [Pi.single_eq_of_ne hi]
      · simp
    rw [h.logical_ket hφ, h.logical_ket hφ] at e
    have h1 : xPart (zOnly (Pi.single j 1) : SPauli LX.length).op = 0 := xPart_append _ _
    have h2 : zPart (zOnly (Pi.single j 1) : SPauli LX.length).op = Pi.single j 1 := zPart_append _ _
    have h3 : (zOnly (Pi.single j 1) : SPauli LX.length).phase = 0 := rfl
    rw [h1, h2, h3, ipow_zero, one_mul, one_mul, zero_add, zero_add, es, es] at e
    have e4 : inner' (sgn (a j) • ket LX LZ φ a) (sgn (b j) • ket LX LZ φ b) =
        conj (sgn (a j)) * sgn (b j) * inner' (ket LX LZ φ a) (ket LX LZ φ b) := by
      unfold inner'
      rw [Finset.mul_sum]
      refine Finset.sum_congr rfl fun s _ => ?_
      simp only [Pi.smul_apply, smul_eq_mul, map_mul]
      ring
    rw [e4] at e
    have e5 : conj (sgn (a j)) * sgn (b j) = -1 := by
      unfold sgn
      have h01 : ∀ x y : ZMod 2, x ≠ y → (x = 0 ∧ y ≠ 0) ∨ (x ≠ 0 ∧ y = 0) := by decide
      rcases h01 _ _ hj with ⟨h, h'⟩ | ⟨h, h'⟩
      · rw [if_pos h, if_neg h']; simp
      · rw [if_neg h, if_pos h']; simp
    rw [e5] at e
    linear_combination -e / 2

/-- Every stabilizer code has an encoding. -/
theorem exists_encoding (h : Frame S LX LZ [] [] D) : ∃ E : State LX.length → State n, IsEncoding S LX LZ E := by
  obtain ⟨φ, hn, hφ⟩ := h.exists_ket
  let E : State LX.length → State n := fun ψ => ∑ b, ψ b • ket LX LZ φ b
  have hlin : ∀ (a b : ℂ) (ψ ψ' : State LX.length), E (a • ψ + b • ψ') = a • E ψ + b • E ψ' := by
    intro a b ψ ψ'
    change ∑ s, _ = a • ∑ s, _ + b • ∑ s, _
    rw [Finset.smul_sum, Finset.smul_sum, ← Finset.sum_add_distrib]
    refine Finset.sum_congr rfl fun s _ => ?_
    rw [smul_smul, smul_smul, ← add_smul]; rfl
  have hnorm : ∀ ψ, stateNorm (E ψ) = stateNorm ψ := fun ψ => norm_sum _ _ (h.ket_orth hφ hn)
  have hiso : IsIsometry E := ⟨hlin, hnorm⟩
  have hmem : ∀ ψ, IsCodeState S (E ψ) := by
    intro ψ s hs
    change (plus s).act (∑ b, _) = ∑ b, _
    rw [act_sum]
    refine Finset.sum_congr rfl fun b _ => ?_
    congr 1
    unfold ket
    have hc : Commute (plus s) (SPauli.logical LX LZ (xOnly b)) := by
      rw [commute_iff, sform_comm2]
      exact h.sform_stab (inGroup_of_mem hs) _
    rw [← act_mul, hc.eq, act_mul, hφ s (List.mem_append_right _ hs)]
  refine ⟨E, ⟨hiso, fun φ' => ⟨fun hc => ?_, ?_⟩, ?_⟩⟩
  · have hle : LinearMap.range (Iso.toLin hiso) ≤ codeSpace S := by
      rintro _ ⟨ψ, rfl⟩
      exact hmem ψ
    have hr : Module.finrank ℂ (LinearMap.range (Iso.toLin hiso)) = Module.finrank ℂ (codeSpace S) := by
      rw [LinearMap.finrank_range_of_inj (Iso.injective hiso), h.finrank, Module.finrank_fintype_fun_eq_card]
      simp [ZMod.card]
    have := Submodule.eq_of_le_of_finrank_eq hle hr
    have hc' : φ' ∈ codeSpace S := hc
    rw [← this] at hc'
    exact hc'
  · rintro ⟨ψ, rfl⟩
    exact hmem ψ
  · intro P ψ
    change ∑ b, P.act ψ b • ket LX LZ φ b = (SPauli.logical LX LZ P).act (∑ b, ψ b • ket LX LZ φ b)
    rw [act_sum, ← Equiv.sum_comp (Equiv.addLeft (xPart P.op))]
    refine Finset.sum_congr rfl fun b _ => ?_
    rw [h.logical_ket hφ, smul_smul]
    simp only [Equiv.coe_addLeft, SPauli.act]
    have e1 : xPart P.op + b + xPart P.op = b := by
      funext i
      simp only [Pi.add_apply]
      rw [add_comm, ← add_assoc, CharTwo.add_self_eq_zero, zero_add]
    have e2 : ∀ i, (xPart P.op + b) i + xPart P.op i = b i := fun i => congrFun e1 i
    rw [e1]
    simp only [e2]
    congr 1
    ring

end Frame

/-- Circuits that implement a logical gate are, up to the encoding, a unitary on the logical qubits. -/
theorem encoded {S S' LX LZ : Rows (ZMod 2) (n + n)} {E E' : State k → State n} (hE : IsEncoding S LX LZ E)
    (hE' : IsEncoding S' LX LZ E') {c : List Instr} {t : SPauli k → SPauli k}
    (h : ImplementsLogical S S' LX LZ (circuitTableau n c).apply t) :
    ∃ V : State k → State k, IsIsometry V ∧ (∀ ψ, circuitUnitary c (E ψ) = E' (V ψ)) ∧
      ∀ P ψ, V (SPauli.act P ψ) = (t P).act (V ψ) := by
  have hinv : ∀ p : SPauli n, ∃ q, (circuitTableau n c).apply q = p := fun p =>
    ⟨_, (circuitTableau_valid c).apply_preimage p⟩
  have hex : ∀ ψ, ∃ ψ', E' ψ' = circuitUnitary c (E ψ) := fun ψ =>
    (hE'.range _).1 ((implements_states h hinv _).1.2 ((hE.range _).2 ⟨ψ, rfl⟩))
  choose V hV using hex
  have hinj := Iso.injective hE'.toIsIsometry
  refine ⟨V, ⟨fun a b ψ φ => hinj ?_, fun ψ => ?_⟩, fun ψ => (hV ψ).symm, fun P ψ => hinj ?_⟩
  · rw [hV, hE.linear, circuit_linear, hE'.linear, hV, hV]
  · rw [← hE'.norm, hV, circuit_norm, hE.norm]
  · rw [hV, hE.logical, (implements_states h hinv _).2 P ((hE.range _).2 ⟨ψ, rfl⟩), hE'.logical, hV]

/-! ## Operators on code states -/

theorem act_faithful {P : SPauli k} (h : ∀ ψ, P.act ψ = ψ) : P = 1 := by
  have hx : xPart P.op = 0 := by
    by_contra hne
    have := congrFun (h (ket0 : State k)) 0
    simp only [SPauli.act, ket0, zero_add, Pi.single_eq_of_ne hne, Pi.single_eq_same, mul_zero] at this
    exact zero_ne_one this
  have e : ∀ (b : Fin k → ZMod 2), ipow P.phase * sgn (∑ i, zPart P.op i * b i) = 1 := by
    intro b
    have := congrFun (h (Pi.single b 1)) b
    simp only [SPauli.act, hx, Pi.zero_apply, add_zero, Pi.single_eq_same, mul_one] at this
    exact this
  have e0 : ipow P.phase = 1 := by
    have := e 0
    simpa [sgn] using this
  have hp : P.phase = 0 := by
    have hI : Complex.I ≠ 1 := fun e => by have := congrArg Complex.re e; simp at this
    have h4 : ∀ a : ZMod 4, a = 0 ∨ a = 1 ∨ a = 2 ∨ a = 3 := by decide
    rcases h4 P.phase with h | h | h | h
    · exact h
    · rw [h, ipow_one] at e0; exact absurd e0 hI
    · rw [h, ipow_two] at e0; norm_num at e0
    · rw [h, ipow_three] at e0
      have := congrArg Complex.re e0
      simp at this
  have hz : zPart P.op = 0 := by
    funext j
    have := e (Pi.single j 1)
    have es : ∑ i, zPart P.op i * (Pi.single j 1 : Fin k → ZMod 2) i = zPart P.op j := by
      rw [Finset.sum_eq_single j]
      · simp
      · intro i _ hi; simp [Pi.single_eq_of_ne hi]
      · simp
    rw [e0, one_mul, es] at this
    by_contra hne
    rw [sgn, if_neg (show ¬ zPart P.op j = 0 from hne)] at this
    norm_num at this
  exact SPauli.ext hp (ext_bits (fun i => by rw [hx]; rfl) fun i => by rw [hz]; rfl)

namespace Frame

variable {S LX LZ D : Rows (ZMod 2) (n + n)}

/-- Operators that commute with all stabilizers are logical operators times stabilizers. -/
theorem normalizer (h : Frame S LX LZ [] [] D) {p : SPauli n} (hp : ∀ s ∈ S, sform p.op s = 0) :
    ∃ (P : SPauli LX.length) (s : SPauli n), InStabilizerGroup S s ∧ p = SPauli.logical LX LZ P * s := by
  have hv := h.valid
  set T := frameTableau S LX LZ [] [] D
  set q := T.preimage p with hq
  have hpq : p = T.apply q := (hv.apply_preimage p).symm
  have hlow : Low LX.length (plus q.op : SPauli n).op := by
    intro i hi
    change xPart q.op i = 0
    rw [← sform_Z i q.op, ← hv.isHom.sform, ← hpq, Tableau.apply_Z, h.zs_s i (by simpa using hi), sform_comm2]
    refine hp _ (getD_mem_of_lt 0 ?_)
    have := h.len
    have := i.isLt
    simp only [List.length_nil] at *
    omega
  obtain ⟨s, hs, e⟩ := split_head (k := LX.length) (g := 0) (by have := h.kg; simpa using this) (signed_plus q.op) hlow
    (by intro i h1 h2; omega)
  have hqs : q = scalar (q.phase - (plus q.op : SPauli n).phase) * plus q.op := by
    rw [scalar_mul]
    refine SPauli.ext ?_ rfl
    simp
  refine ⟨scalar (q.phase - (plus q.op : SPauli n).phase) * SPauli.signed (SPauli.isMinus (plus q.op : SPauli n)) (headBits LX.length (plus q.op : SPauli n).op),
    T.apply s, (h.inStab _).2 ⟨s, hs, rfl⟩, ?_⟩
  have hk : LX.length ≤ n := by have := h.kg; omega
  rw [h.logical, ← hv.isHom.mul, (isHom_embed hk).mul, (isHom_embed hk).scalar, mul_assoc, ← e, ← hqs]
  exact hpq

/-- The stabilizer group consists of the operators that leave all code states as they are. -/
theorem stab_iff_states (h : Frame S LX LZ [] [] D) {E : State LX.length → State n} (hE : IsEncoding S LX LZ E) (p : SPauli n) :
    InStabilizerGroup S p ↔ ∀ φ, IsCodeState S φ → p.act φ = φ := by
  refine ⟨fun hp φ hφ => codeState_group hφ hp, fun hp => ?_⟩
  have hcomm : ∀ s ∈ S, sform p.op s = 0 := by
    intro s hs
    by_contra hne
    have h1 : sform p.op s = 1 := by
      have : ∀ a : ZMod 2, a ≠ 0 → a = 1 := by decide
      exact this _ hne
    have hφ : IsCodeState S (E ket0) := (hE.range _).2 ⟨_, rfl⟩
    have e1 : p.act (E ket0) = E ket0 := hp _ hφ
    have e2 : (plus s).act (E ket0) = E ket0 := hφ s hs
    have e3 : (p * plus s).act (E ket0) = E ket0 := by rw [act_mul, e2, e1]
    rw [mul_comm_sform, act_mul, act_scalar, act_mul, e1, e2] at e3
    have e4 : (plus s : SPauli n).op = s := rfl
    rw [e4, h1, ipow_double] at e3
    have e5 : E ket0 = 0 := by
      funext b
      have := congrFun e3 b
      simp only [sgn, one_ne_zero, if_false] at this
      rw [Pi.zero_apply]
      linear_combination -this / 2
    have n0 := hE.norm ket0
    rw [e5] at n0
    have hz : (ket0 : State LX.length) = 0 := stateNorm_eq_zero (by rw [← n0]; simp [stateNorm])
    have := congrFun hz 0
    simp [ket0] at this
  obtain ⟨P, s, hs, rfl⟩ := h.normalizer hcomm
  have hP : P = 1 := by
    apply act_faithful
    intro ψ
    apply Iso.injective hE.toIsIsometry
    rw [hE.logical]
    have hc : IsCodeState S (E ψ) := (hE.range _).2 ⟨ψ, rfl⟩
    have := hp _ hc
    rw [act_mul, codeState_group hc hs] at this
    exact this
  rw [hP, h.isHom_logical.one, one_mul]
  exact hs

/-- A circuit implements a logical gate if it acts as a unitary with this action on the logical qubits. -/
theorem implements_of_states {S' D' : Rows (ZMod 2) (n + n)} (h : Frame S LX LZ [] [] D) (h' : Frame S' LX LZ [] [] D')
    {E E' : State LX.length → State n} (hE : IsEncoding S LX LZ E) (hE' : IsEncoding S' LX LZ E') {c : List Instr}
    {t : SPauli LX.length → SPauli LX.length} {V : State LX.length → State LX.length} (hV : IsIsometry V)
    (hU : ∀ ψ, circuitUnitary c (E ψ) = E' (V ψ)) (hT : ∀ P ψ, V (SPauli.act P ψ) = (t P).act (V ψ)) :
    ImplementsLogical S S' LX LZ (circuitTableau n c).apply t := by
  have hsurj : ∀ ψ', ∃ ψ, V ψ = ψ' :=
    (LinearMap.injective_iff_surjective (f := Iso.toLin hV)).1 (Iso.injective hV)
  have hall : ∀ φ', IsCodeState S' φ' → ∃ ψ, circuitUnitary c (E ψ) = φ' := by
    intro φ' hφ'
    obtain ⟨ψ', rfl⟩ := (hE'.range _).1 hφ'
    obtain ⟨ψ, rfl⟩ := hsurj ψ'
    exact ⟨ψ, hU ψ⟩
  constructor
  · intro p
    rw [h'.stab_iff_states hE', h.stab_iff_states hE]
    constructor
    · intro hp φ hφ
      obtain ⟨ψ, rfl⟩ := (hE.range _).1 hφ
      apply circuit_injective c
      rw [circuit_intertwines c]
      exact hp _ (by rw [hU]; exact (hE'.range _).2 ⟨_, rfl⟩)
    · intro hp φ' hφ'
      obtain ⟨ψ, rfl⟩ := hall φ' hφ'
      rw [← circuit_intertwines c, hp _ ((hE.range _).2 ⟨_, rfl⟩)]
  · intro P
    refine ⟨(SPauli.logical LX LZ (t P))⁻¹ * (circuitTableau n c).apply (SPauli.logical LX LZ P), ?_, by
      rw [mul_inv_cancel_left]⟩
    rw [h'.stab_iff_states hE']
    intro φ' hφ'
    obtain ⟨ψ, rfl⟩ := hall φ' hφ'
    rw [act_mul, ← circuit_intertwines c, ← hE.logical, hU, hT, hE'.logical, ← act_mul, inv_mul_cancel, act_one, hU]

end Frame

end QLDPC
