import Verif.Lemmas.Transversal

/-! # Logical gates in terms of logical operators and stabilizers -/

namespace QLDPC

open Spec SPauli

variable {n : ℕ}

/-- The operators of an encoding tableau. -/
structure Frame (S LX LZ GX GZ D : Rows (ZMod 2) (n + n)) : Prop where
  tab : IsTableau (LX ++ GX ++ D) (LZ ++ GZ ++ S)
  lenL : LX.length = LZ.length
  lenG : GX.length = GZ.length

/-- The encoding tableau. -/
abbrev frameTableau (S LX LZ GX GZ D : Rows (ZMod 2) (n + n)) : Tableau n := tableauOf (LX ++ GX ++ D) (LZ ++ GZ ++ S)

namespace Frame

variable {S LX LZ GX GZ D : Rows (ZMod 2) (n + n)}

theorem valid (h : Frame S LX LZ GX GZ D) : (frameTableau S LX LZ GX GZ D).Valid := valid_tableauOf h.tab

theorem len (h : Frame S LX LZ GX GZ D) : LX.length + GX.length + S.length = n := by
  have := h.tab.lenZ
  simp only [List.length_append] at this
  have := h.lenL
  have := h.lenG
  omega

theorem kg (h : Frame S LX LZ GX GZ D) : LX.length + GX.length ≤ n := by have := h.len; omega

theorem xs_l (j : Fin n) (hj : j.val < LX.length) : (frameTableau S LX LZ GX GZ D).xs j = plus (LX.getD j 0) := by
  change plus ((LX ++ GX ++ D).getD j 0) = _
  rw [List.append_assoc, List.getD_append _ _ _ _ hj]

theorem zs_l (h : Frame S LX LZ GX GZ D) (j : Fin n) (hj : j.val < LX.length) :
    (frameTableau S LX LZ GX GZ D).zs j = plus (LZ.getD j 0) := by
  change plus ((LZ ++ GZ ++ S).getD j 0) = _
  rw [List.append_assoc, List.getD_append _ _ _ _ (by rw [← h.lenL]; exact hj)]

theorem xs_g (j : Fin n) (hj : LX.length ≤ j.val) (hj' : j.val < LX.length + GX.length) :
    (frameTableau S LX LZ GX GZ D).xs j = plus (GX.getD (j - LX.length) 0) := by
  change plus ((LX ++ GX ++ D).getD j 0) = _
  rw [List.append_assoc, List.getD_append_right _ _ _ _ hj, List.getD_append _ _ _ _ (by omega)]

theorem zs_g (h : Frame S LX LZ GX GZ D) (j : Fin n) (hj : LX.length ≤ j.val) (hj' : j.val < LX.length + GX.length) :
    (frameTableau S LX LZ GX GZ D).zs j = plus (GZ.getD (j - LX.length) 0) := by
  have := h.lenL
  have := h.lenG
  change plus ((LZ ++ GZ ++ S).getD j 0) = _
  rw [List.append_assoc, List.getD_append_right _ _ _ _ (by omega), List.getD_append _ _ _ _ (by omega), ← h.lenL]

theorem zs_s (h : Frame S LX LZ GX GZ D) (j : Fin n) (hj : LX.length + GX.length ≤ j.val) :
    (frameTableau S LX LZ GX GZ D).zs j = plus (S.getD (j - (LX.length + GX.length)) 0) := by
  have := h.lenL
  have := h.lenG
  change plus ((LZ ++ GZ ++ S).getD j 0) = _
  rw [List.getD_append_right _ _ _ _ (by rw [List.length_append]; omega), List.length_append, ← h.lenL, ← h.lenG]

theorem stab (h : Frame S LX LZ GX GZ D) (p : SPauli n) :
    (∃ s ∈ S, p = plus s) ↔ ∃ b : Fin n, LX.length + GX.length ≤ b.val ∧ p = (frameTableau S LX LZ GX GZ D).zs b := by
  have hl := h.len
  constructor
  · rintro ⟨s, hs, rfl⟩
    obtain ⟨i, hi, rfl⟩ := List.getElem_of_mem hs
    refine ⟨⟨LX.length + GX.length + i, by omega⟩, by simp, ?_⟩
    rw [h.zs_s _ (by simp)]
    simp only [Nat.add_sub_cancel_left]
    rw [List.getD_eq_getElem _ _ hi]
  · rintro ⟨b, hb, rfl⟩
    exact ⟨_, getD_mem_of_lt 0 (by have := b.isLt; omega), h.zs_s b hb⟩

theorem inGauge (h : Frame S LX LZ GX GZ D) (r : Fin (n + n) → ZMod 2) :
    InGauge LX.length GX.length (frameTableau S LX LZ GX GZ D) r ↔ r ∈ S ++ GX ++ GZ := by
  have hl := h.len
  have hg := h.lenG
  constructor
  · rintro ⟨j, ⟨hj, rfl⟩ | ⟨hj, hj', rfl⟩⟩
    · by_cases hj' : j.val < LX.length + GX.length
      · rw [h.zs_g j hj hj']
        exact List.mem_append_right _ (getD_mem_of_lt 0 (by omega))
      · rw [h.zs_s j (by omega)]
        exact List.mem_append_left _ (List.mem_append_left _ (getD_mem_of_lt 0 (by have := j.isLt; omega)))
    · rw [xs_g j hj hj']
      exact List.mem_append_left _ (List.mem_append_right _ (getD_mem_of_lt 0 (by omega)))
  · intro hr
    rcases List.mem_append.1 hr with hr | hr
    · rcases List.mem_append.1 hr with hr | hr
      · obtain ⟨b, hb, e⟩ := (h.stab (plus r)).1 ⟨r, hr, rfl⟩
        exact ⟨b, Or.inl ⟨by omega, congrArg SPauli.op e⟩⟩
      · obtain ⟨i, hi, rfl⟩ := List.getElem_of_mem hr
        refine ⟨⟨LX.length + i, by omega⟩, Or.inr ⟨by simp, by simp; omega, ?_⟩⟩
        rw [xs_g _ (by simp) (by simp; omega)]
        simp only [Nat.add_sub_cancel_left]
        rw [List.getD_eq_getElem _ _ hi]; rfl
    · obtain ⟨i, hi, rfl⟩ := List.getElem_of_mem hr
      refine ⟨⟨LX.length + i, by omega⟩, Or.inl ⟨by simp, ?_⟩⟩
      rw [h.zs_g _ (by simp) (by simp; omega)]
      simp only [Nat.add_sub_cancel_left]
      rw [List.getD_eq_getElem _ _ hi]; rfl

theorem product_eq {k : ℕ} (L : Rows (ZMod 2) (n + n)) (b : Fin k → ZMod 2) :
    SPauli.product L b = powProd (fun j : Fin k => plus (L.getD j 0)) b := by
  unfold SPauli.product powProd
  rw [List.prod_eq_foldr]; rfl

/-- Logical operators are encoded operators. -/
theorem logical (h : Frame S LX LZ GX GZ D) (P : SPauli LX.length) :
    SPauli.logical LX LZ P = (frameTableau S LX LZ GX GZ D).apply (embed n P) := by
  have hk : LX.length ≤ n := by have := h.kg; omega
  have hc := h.valid.isHom.comp (isHom_embed (k := LX.length) hk)
  have e := hc.eq_powProd P
  simp only [Function.comp_apply] at e
  rw [e]
  unfold SPauli.logical
  rw [product_eq, product_eq]
  have e1 : (fun j : Fin LX.length => (frameTableau S LX LZ GX GZ D).apply (embed n (SPauli.X j))) =
      fun j : Fin LX.length => plus (LX.getD j 0) := by
    funext j
    rw [embed_X hk, Tableau.apply_X, xs_l _ j.isLt]; rfl
  have e2 : (fun j : Fin LX.length => (frameTableau S LX LZ GX GZ D).apply (embed n (SPauli.Z j))) =
      fun j : Fin LX.length => plus (LZ.getD j 0) := by
    funext j
    rw [embed_Z hk, Tableau.apply_Z, h.zs_l _ j.isLt]; rfl
  rw [e1, e2]

theorem isHom_logical (h : Frame S LX LZ GX GZ D) : IsHom (SPauli.logical LX LZ : SPauli LX.length → SPauli n) := by
  have hk : LX.length ≤ n := by have := h.kg; omega
  have hc := h.valid.isHom.comp (isHom_embed (k := LX.length) hk)
  have e : (SPauli.logical LX LZ : SPauli LX.length → SPauli n) = (frameTableau S LX LZ GX GZ D).apply ∘ embed n :=
    funext h.logical
  rw [e]; exact hc

theorem inStab (h : Frame S LX LZ GX GZ D) (p : SPauli n) :
    InStabilizerGroup S p ↔ ∃ q, ZTail (LX.length + GX.length) q ∧ p = (frameTableau S LX LZ GX GZ D).apply q :=
  inStabilizerGroup_iff h.valid h.stab p

/-- Stabilizers commute with logical operators. -/
theorem sform_stab (h : Frame S LX LZ GX GZ D) {s : SPauli n} (hs : InStabilizerGroup S s) (P : SPauli LX.length) :
    sform (SPauli.logical LX LZ P).op s.op = 0 := by
  obtain ⟨q, hq, rfl⟩ := (h.inStab s).1 hs
  rw [h.logical, h.valid.isHom.sform]
  exact (commute_iff _ _).1 (commute_embed_ztail h.kg P hq)

end Frame

variable {S LX LZ GX GZ D S' GX' GZ' D' : Rows (ZMod 2) (n + n)}

/-- Decoded tableaus of circuits that send gauge groups to gauge groups. -/
theorem Frame.sectors (h : Frame S LX LZ GX GZ D) (h' : Frame S' LX LZ GX' GZ' D') (hg : GX.length = GX'.length)
    {c : List Instr}
    (hc : ∀ r ∈ S ++ GX ++ GZ, (circuitTableau n c).opMap r ∈ rowSpan (S' ++ GX' ++ GZ'))
    (hc' : ∀ r ∈ S' ++ GX' ++ GZ', ∃ p ∈ rowSpan (S ++ GX ++ GZ), (circuitTableau n c).opMap p = r) :
    Sectors LX.length GX.length
      (decodedTableau (frameTableau S LX LZ GX GZ D) (frameTableau S' LX LZ GX' GZ' D').inverse c) := by
  refine sectors_of h.valid h'.valid h.kg c ?_ ?_
  · intro r hr w hw
    rw [h.inGauge] at hr
    rw [hg] at hw
    rw [sform_comm2]
    exact sform_span_left (fun r' hr' => hw r' ((h'.inGauge r').2 hr')) (hc r hr)
  · intro p hp r' hr'
    rw [hg, h'.inGauge] at hr'
    obtain ⟨q, hq, rfl⟩ := hc' r' hr'
    rw [(circuitTableau_valid c).sform_opMap]
    exact sform_span_left (fun r hr => hp r ((h.inGauge r).2 hr)) hq

/-- `_get_transversal_automorphism_data` for all circuits of this kind. -/
theorem Frame.data (h : Frame S LX LZ GX GZ D) (h' : Frame S' LX LZ GX' GZ' D') (hg : GX.length = GX'.length)
    {c : List Instr} (hs : Sectors LX.length GX.length
      (decodedTableau (frameTableau S LX LZ GX GZ D) (frameTableau S' LX LZ GX' GZ' D').inverse c)) :
    ∃ T c', ∃ u : Fin (n + n) → ZMod 2, automorphismData LX.length GX.length (frameTableau S LX LZ GX GZ D)
      (frameTableau S' LX LZ GX' GZ' D').inverse c = some (T, c') ∧ c' = pauliStringCircuit u ++ c ∧ T.Valid ∧
      ImplementsLogical S S' LX LZ (circuitTableau n c').apply T.apply := by
  obtain ⟨T, c', u, e, e', hT, h1, h2⟩ := automorphismData_spec h.valid h'.valid hs
  refine ⟨T, c', u, e, e', hT, fun p => ?_, fun P => ?_⟩
  · obtain ⟨q, rfl⟩ : ∃ q, p = (frameTableau S LX LZ GX GZ D).apply q := ⟨_, (h.valid.apply_preimage p).symm⟩
    rw [encode_decoded h.valid h'.valid, h.inStab, h'.inStab, ← hg]
    constructor
    · rintro ⟨r, hr, er⟩
      rw [← h'.valid.injective er, h1] at hr
      exact ⟨q, hr, rfl⟩
    · rintro ⟨r, hr, er⟩
      rw [h.valid.injective er]
      exact ⟨_, (h1 r).2 hr, rfl⟩
  · obtain ⟨s, hs', es⟩ := h2 P
    refine ⟨(frameTableau S' LX LZ GX' GZ' D').apply s, (h'.inStab _).2 ⟨s, by rw [← hg]; exact hs', rfl⟩, ?_⟩
    rw [h.logical, encode_decoded h.valid h'.valid, es, h'.valid.isHom.mul, h'.logical]

end QLDPC
