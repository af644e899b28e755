import Verif.Lemmas.Wiring

/-!
# Properties C25, C26: stacking and concatenation of qudit codes

Theorems are about the model of `QuditCode.stack` and `QuditCode.concatenate` in `Verif/Model/Concat.lean`.
-/

set_option linter.unusedSectionVars false

namespace QLDPC.Props

open Spec

variable {F : Type} [Field F] [DecidableEq F] {n m : ℕ}

/-! ## Codes to which the theorems apply

`Valid c LX LZ` (`Verif/Lemmas/Concat.lean`): `get_logical_ops` returns the complete set of logical
operators `LX`, `LZ`, `dimension` is their number, the checks commute unless the code is flagged as a
subsystem code. -/

/-- Every stabilizer code object is valid. -/
theorem StabOk.valid {c : QCode F n} (h : StabOk c) : ∃ LX LZ, Valid c LX LZ := by
  obtain ⟨LX, LZ, h1, h2, _, h4⟩ := h.logicals
  exact ⟨LX, LZ, h1, isComplete_iff.2 h2, fun _ => h.comm, h4⟩

/-! ## C25 -/

/-- The stacked code has the checks of the blocks on disjoint sets of qudits, in order; its logical
operators are those of the blocks; numbers of qudits and of logical qudits add up. -/
theorem C25_stack (codes : List (AnyQ F)) (hne : codes ≠ [])
    (h : ∀ c ∈ codes, ∃ LX LZ, Valid c.2 LX LZ) :
    ∃ s, stackQ codes true = .ok s ∧
      blocksLen codes = (codes.map Sigma.fst).sum ∧
      s.matrix = blockRows 0 (codes.map fun c => ⟨c.1, c.2.matrix⟩) ∧
      (∃ SX SZ, Valid s SX SZ ∧
        SX = blockRows 0 (codes.map fun c => ⟨c.1, c.2.logicalsX⟩) ∧
        SZ = blockRows 0 (codes.map fun c => ⟨c.1, c.2.logicalsZ⟩)) ∧
      s.dimension = (codes.map fun c => c.2.dimension).sum ∧
      s.isSub = codes.any fun c => c.2.isSub := by
  obtain ⟨s, h1, h2, h3, h4⟩ := valid_stack codes hne h
  refine ⟨s, h1, blocksLen_eq codes, by rw [h3, blocksRows_eq], ⟨_, _, h2, ?_, ?_⟩, ?_, h4⟩
  · rw [blocksRows_eq]
  · rw [blocksRows_eq]
  · rw [h2.dim, length_blocksRows (fun _ c => c.logicalsX)]
    congr 1
    refine List.map_congr_left fun c hc => ?_
    obtain ⟨LX, LZ, hv⟩ := h c hc
    rw [hv.logicalsX, hv.dim]

/-- Without inherited logical operators: same checks, flag and dimension. -/
theorem C25_stack_fresh (codes : List (AnyQ F)) (hne : codes ≠ [])
    (h : ∀ c ∈ codes, ∃ LX LZ, Valid c.2 LX LZ) :
    ∃ s, stackQ codes false = .ok s ∧
      s.matrix = blockRows 0 (codes.map fun c => ⟨c.1, c.2.matrix⟩) ∧
      s.dimension = (codes.map fun c => c.2.dimension).sum ∧
      s.isSub = codes.any fun c => c.2.isSub := by
  have hlog : LogComplete (blocksRows (fun _ c => c.matrix) codes)
      (blocksRows (fun _ c => c.logicalsX) codes) (blocksRows (fun _ c => c.logicalsZ) codes) := by
    apply logComplete_blocks codes (fun _ c => c.logicalsX) (fun _ c => c.logicalsZ)
    intro c hc
    obtain ⟨LX, LZ, hv⟩ := h c hc
    simp only [hv.logicalsX, hv.logicalsZ]
    exact hv.log
  have hcomm : (codes.any fun c => c.2.isSub) = false →
      AllCommute (blocksRows (fun _ c => c.matrix) codes) := by
    intro hs
    rw [allCommute_blocks]
    intro c hc
    obtain ⟨LX, LZ, hv⟩ := h c hc
    apply hv.comm
    rw [List.any_eq_false] at hs
    simpa using hs c hc
  refine ⟨stackBase codes, ?_, ?_, ?_, rfl⟩
  · unfold stackQ
    rw [if_neg hne]
    rfl
  · change blocksRows _ codes = _
    rw [blocksRows_eq]
  · unfold stackBase
    rw [dimension_fresh hlog hcomm, length_blocksRows (fun _ c => c.logicalsX)]
    congr 1
    refine List.map_congr_left fun c hc => ?_
    obtain ⟨LX, LZ, hv⟩ := h c hc
    rw [hv.logicalsX, hv.dim]

/-- The checks of the stacked code commute exactly if those of every block do. -/
theorem C25_commute (codes : List (AnyQ F)) (inherit : Bool) (s) (h : stackQ codes inherit = .ok s) :
    AllCommute s.matrix ↔ ∀ c ∈ codes, AllCommute c.2.matrix := by
  have hm : s.matrix = blocksRows (fun _ c => c.matrix) codes := by
    unfold stackQ at h
    split at h
    · cases h
    · split at h
      · split at h
        · rw [setLogicalOps_ok h]; rfl
        · cases h
      · cases h; rfl
  rw [hm, allCommute_blocks]

/-- The distance of the stacked code is the smallest distance of its blocks. -/
theorem C25_distance (codes : List (AnyQ F)) (inherit : Bool) (s) (h : stackQ codes inherit = .ok s)
    (d : ℕ) : IsCodeDistance s.matrix d ↔
      IsLeast {k | ∃ c ∈ codes, IsCodeDistance c.2.matrix k} d := by
  have hm : s.matrix = blocksRows (fun _ c => c.matrix) codes := by
    unfold stackQ at h
    split at h
    · cases h
    · split at h
      · split at h
        · rw [setLogicalOps_ok h]; rfl
        · cases h
      · cases h; rfl
  rw [hm]
  have hw := weights_blocks codes
  -- a code with a nontrivial operator of weight at most `k` has a distance of at most `k`
  have hd : ∀ {j : ℕ} (M : Rows F (j + j)) (k : ℕ), (∃ p, IsNontrivialLogical M p ∧ sweight p ≤ k) ↔
      ∃ d ≤ k, IsCodeDistance M d := by
    intro j M k
    constructor
    · rintro ⟨p, hp, hk⟩
      have hne : {k | ∃ p, IsNontrivialLogical M p ∧ k = sweight p}.Nonempty := ⟨_, p, hp, rfl⟩
      refine ⟨_, ?_, Nat.sInf_mem hne, fun x hx => Nat.sInf_le hx⟩
      exact (Nat.sInf_le (show sweight p ∈ {k | ∃ p, IsNontrivialLogical M p ∧ k = sweight p} from
        ⟨p, hp, rfl⟩)).trans hk
    · rintro ⟨d, hk, ⟨p, hp, rfl⟩, _⟩; exact ⟨p, hp, hk⟩
  simp only [hd] at hw
  constructor
  · intro hdist
    obtain ⟨c, hc, d', hd', hcd⟩ := (hw d).1 ⟨d, le_refl d, hdist⟩
    have hmin : ∀ k ∈ {k | ∃ c ∈ codes, IsCodeDistance c.2.matrix k}, d ≤ k := by
      rintro k ⟨c', hc', hk⟩
      obtain ⟨d'', h1, h2⟩ := (hw k).2 ⟨c', hc', k, le_refl k, hk⟩
      have := h2.unique hdist
      omega
    have := hmin d' ⟨c, hc, hcd⟩
    have e : d' = d := by omega
    subst e
    exact ⟨⟨c, hc, hcd⟩, hmin⟩
  · rintro ⟨⟨c, hc, hcd⟩, hmin⟩
    obtain ⟨d'', h1, h2⟩ := (hw d).2 ⟨c, hc, d, le_refl d, hcd⟩
    obtain ⟨c', hc', d3, h3, h4⟩ := (hw d'').1 ⟨d'', le_refl _, h2⟩
    have := hmin ⟨c', hc', h4⟩
    have e : d'' = d := by omega
    exact e ▸ h2

/-! ## C26 -/

/-- Without a wiring, each logical qudit of an inner block is a physical qudit of another outer block: the
wiring is a permutation, and both block counts are right. -/
theorem C26_default_wiring (m k : ℕ) :
    (interleavedWiring m k).Perm (List.range (m * k)) ∧
      ∀ i j, i < k → j < m → (interleavedWiring m k)[i * m + j]? = some (j * k + i) := by
  have hmem : ∀ x, x ∈ interleavedWiring m k ↔ x < m * k := by
    intro x
    unfold interleavedWiring
    simp only [List.mem_flatMap, List.mem_range, List.mem_map]
    constructor
    · rintro ⟨i, hi, j, hj, rfl⟩
      calc j * k + i < j * k + k := by omega
        _ = (j + 1) * k := by ring
        _ ≤ m * k := Nat.mul_le_mul_right _ (by omega)
    · intro hx
      have hk : 0 < k := by
        rcases Nat.eq_zero_or_pos k with rfl | hk
        · omega
        · exact hk
      exact ⟨x % k, Nat.mod_lt _ hk, x / k, (Nat.div_lt_iff_lt_mul hk).2 hx, by
        rw [Nat.mul_comm]; exact Nat.div_add_mod x k⟩
  have hlen : ∀ k', (((List.range k').flatMap fun i => (List.range m).map fun j => j * k + i)).length =
      k' * m := by intro k'; simp
  refine ⟨?_, ?_⟩
  · apply List.Perm.symm
    apply List.Subperm.perm_of_length_le
    · exact List.subperm_of_subset List.nodup_range fun x hx => (hmem x).2 (List.mem_range.1 hx)
    · unfold interleavedWiring
      rw [hlen, List.length_range, Nat.mul_comm]
  · intro i j hi hj
    unfold interleavedWiring
    suffices H : ∀ k', i < k' →
        ((List.range k').flatMap fun i => (List.range m).map fun j => j * k + i)[i * m + j]? =
          some (j * k + i) from H k hi
    intro k'
    induction k' with
    | zero => intro h; omega
    | succ k' ih =>
      intro h
      rw [List.range_succ, List.flatMap_append]
      by_cases h2 : i < k'
      · rw [List.getElem?_append_left, ih h2]
        rw [hlen]
        calc i * m + j < i * m + m := by omega
          _ = (i + 1) * m := by ring
          _ ≤ k' * m := Nat.mul_le_mul_right _ (by omega)
      · have : i = k' := by omega
        subst this
        rw [List.getElem?_append_right (by rw [hlen]; omega), hlen]
        simp [hj]

/-- The wiring used by `concatenate`. -/
def wiringOf (m k : ℕ) (wiring? : Option (List ℕ)) : List ℕ := wiring?.getD (interleavedWiring m k)

/-- Operator `t` of the stacked copies of a block of `n` qudits with operators `L`. -/
def copyOp {N : ℕ} (L : Rows F (n + n)) (t : ℕ) : Fin (N + N) → F :=
  onQudits (n * (t / L.length)) (L.getD (t % L.length) 0)

/-- Concatenation of valid codes along a permutation: the number of qudits is that of the copies of the
inner code, the checks are those of the inner blocks and those of the outer blocks with single-qudit
operators replaced by the logical operators of the inner blocks, the logical operators are those of the
outer blocks with the same replacement and form a complete set, and the number of logical qudits is that of
the outer blocks.  If copies of the inner code were used, the caller's inner code is unchanged; otherwise
its logical operators were permuted, and it is still valid.  Without `inherit_logicals` the code has the same
checks, flag and dimension. -/
theorem C26_concatenate (inner : QCode F n) (outer : QCode F m) (LX LZ : Rows F (n + n))
    (KX KZ : Rows F (m + m)) (hi : Valid inner LX LZ) (ho : Valid outer KX KZ)
    (wiring? : Option (List ℕ)) (w : List ℕ) (hw : w = wiringOf m LX.length wiring?)
    (hperm : w.Perm (List.range w.length)) (hne : w ≠ [])
    (h1 : LX.length ∣ w.length) (h2 : m ∣ w.length) :
    ∃ (N : ℕ) (code : QCode F N) (after : QCode F n),
      concatenate inner outer wiring? true = .ok (⟨N, code⟩, after) ∧
      N = n * (w.length / LX.length) ∧
      (∃ X Z : Fin w.length → Fin (N + N) → F,
        (∀ j, X j = copyOp LX w[j]) ∧ (∀ j, Z j = copyOp LZ w[j]) ∧
        code.matrix = blockCopies (w.length / LX.length) inner.matrix ++
          (blockCopies (w.length / m) outer.matrix).map (encode X Z) ∧
        Valid code ((blockCopies (w.length / m) KX).map (encode X Z))
          ((blockCopies (w.length / m) KZ).map (encode X Z))) ∧
      code.dimension = outer.dimension * (w.length / m) ∧
      code.isSub = (inner.isSub || outer.isSub) ∧
      (if 1 < w.length / LX.length then after = inner else
        after.matrix = inner.matrix ∧ ∃ LX' LZ', indexList LX w = some LX' ∧ indexList LZ w = some LZ' ∧
          Valid after LX' LZ') ∧
      ∃ fresh : QCode F N, concatenate inner outer wiring? false = .ok (⟨N, fresh⟩, after) ∧
        fresh.matrix = code.matrix ∧ fresh.isSub = code.isSub ∧ fresh.dimension = code.dimension ∧
        fresh.logicals? = none := by
  have hwl : 0 < w.length := List.length_pos_iff.2 hne
  have hk : 0 < LX.length := Nat.pos_of_dvd_of_pos h1 hwl
  have hm : 0 < m := Nat.pos_of_dvd_of_pos h2 hwl
  have hdim := hi.dim
  have hlenZ : LZ.length = LX.length := hi.complete.basis.len.symm
  have hbi : w.length / LX.length * LX.length = w.length := Nat.div_mul_cancel h1
  have hbo : w.length / m * m = w.length := Nat.div_mul_cancel h2
  have hbi1 : 1 ≤ w.length / LX.length := (Nat.one_le_div_iff hk).2 (Nat.le_of_dvd hwl h1)
  have hbo1 : 1 ≤ w.length / m := (Nat.one_le_div_iff hm).2 (Nat.le_of_dvd hwl h2)
  obtain ⟨N, si, ei, hN, hvi, hsi, hmi⟩ := copies_spec inner LX LZ hi _ hbi1
  obtain ⟨N', so, eo, hN', hvo, hso, hmo⟩ := copies_spec outer KX KZ ho _ hbo1
  have hN'' : N' = w.length := by rw [hN', Nat.mul_comm]; exact hbo
  subst hN''
  -- the permuted logical operators of the inner code
  have lX := length_blockCopies (N := N) (w.length / LX.length) LX
  have lZ := length_blockCopies (N := N) (w.length / LX.length) LZ
  rw [hlenZ] at lZ
  rw [hbi] at lX lZ
  have hlt : ∀ i ∈ w, i < w.length := fun i hi => List.mem_range.1 (hperm.mem_iff.1 hi)
  obtain ⟨LX', LZ', eX, eZ, hpl, hval⟩ := permute_valid hvi w (by rw [lX]; exact hperm)
  obtain ⟨_, eX', l1, g1⟩ := indexList_get (blockCopies (N := N) (w.length / LX.length) LX) w
    (by rw [lX]; exact hlt)
  obtain ⟨_, eZ', l2, g2⟩ := indexList_get (blockCopies (N := N) (w.length / LX.length) LZ) w
    (by rw [lZ]; exact hlt)
  rw [eX] at eX'; rw [eZ] at eZ'
  cases eX'; cases eZ'
  -- as functions
  have hX : LX' = List.ofFn fun j : Fin w.length => (copyOp LX w[j] : Fin (N + N) → F) := by
    apply List.ext_getElem (by simp [l1])
    intro i hi1 hi2
    have hiw : i < w.length := by omega
    have := g1 i hiw hi1
    have hb := hlt w[i] (List.getElem_mem _)
    rw [getElem?_blockCopies _ _ _ (by rw [hbi]; exact hb),
      List.getElem?_eq_getElem (Nat.mod_lt _ hk), Option.map_some, Option.some_inj] at this
    rw [← this, List.getElem_ofFn]
    unfold copyOp
    simp only [Fin.getElem_fin]
    rw [List.getD_eq_getElem _ _ (Nat.mod_lt _ hk)]
  have hZ : LZ' = List.ofFn fun j : Fin w.length => (copyOp LZ w[j] : Fin (N + N) → F) := by
    apply List.ext_getElem (by simp [l2])
    intro i hi1 hi2
    have hiw : i < w.length := by omega
    have := g2 i hiw hi1
    have hb := hlt w[i] (List.getElem_mem _)
    have hkz : 0 < LZ.length := by omega
    rw [getElem?_blockCopies _ _ _ (by rw [hlenZ, hbi]; exact hb),
      List.getElem?_eq_getElem (Nat.mod_lt _ hkz), Option.map_some, Option.some_inj] at this
    rw [← this, List.getElem_ofFn]
    unfold copyOp
    simp only [Fin.getElem_fin]
    rw [List.getD_eq_getElem _ _ (Nat.mod_lt _ hkz)]
  set X := fun j : Fin w.length => (copyOp LX w[j] : Fin (N + N) → F) with hXdef
  set Z := fun j : Fin w.length => (copyOp LZ w[j] : Fin (N + N) → F) with hZdef
  clear_value X Z
  subst hX hZ
  -- lengths
  have hexp : ∀ R : Rows F (w.length + w.length),
      expandRows R (List.ofFn X ++ List.ofFn Z) = some (R.map (encode X Z)) := by
    intro R
    unfold expandRows
    rw [if_pos (by simp)]
    congr 1
    exact List.map_congr_left fun r _ => vecMat_encode X Z r
  have hg : QCode.getLogicalOps { si with logicals? := some (List.ofFn X ++ List.ofFn Z) } =
      some (List.ofFn X ++ List.ofFn Z) := rfl
  have hcl := logComplete_concat hval.log hvo.log
  have hstd : standardize inner outer wiring? = .ok (⟨N, { si with logicals? := some (List.ofFn X ++ List.ofFn Z) }⟩,
      ⟨w.length, so⟩, if 1 < w.length / LX.length then inner else
        { inner with logicals? := inner.getLogicalOps.bind (permuteLogicals w) }) := by
    have hz : ¬ (inner.dimension = 0 ∨ m = 0) := by rw [hdim]; omega
    have hwm : resolveWiring m inner.dimension wiring? = .ok w := by
      cases wiring? with
      | none => rw [hw, hdim]; rfl
      | some w' =>
        have : w = w' := hw
        subst this
        unfold resolveWiring
        dsimp only
        rw [if_neg hz, if_neg]
        rw [hdim, Nat.mod_eq_zero_of_dvd h1, Nat.mod_eq_zero_of_dvd h2]
        simp
    unfold standardize
    rw [hwm]
    change (if inner.dimension = 0 ∨ m = 0 then _ else _) = _
    rw [if_neg hz, hdim, ei]
    change (copies outer (w.length / m) >>= _) = _
    rw [eo]
    simp only [bind, Except.bind]
    rw [hpl]
  have hcomm : (inner.isSub || outer.isSub) = false →
      AllCommute (si.matrix ++ so.matrix.map (encode X Z)) := by
    intro hs
    rw [Bool.or_eq_false_iff] at hs
    exact allCommute_concat hval.complete.basis (hvi.comm (by rw [hsi]; exact hs.1))
      (hvo.comm (by rw [hso]; exact hs.2))
  have hlen2 : ((blockCopies (w.length / m) KX : Rows F (w.length + w.length)).map (encode X Z) ++
      (blockCopies (w.length / m) KZ : Rows F (w.length + w.length)).map (encode X Z)).length / 2 =
      KX.length * (w.length / m) := by
    rw [List.length_append, List.length_map, List.length_map, length_blockCopies, length_blockCopies,
      ← ho.complete.basis.len, Nat.mul_comm KX.length]
    omega
  refine ⟨N, { QCode.ofMatrix (si.matrix ++ so.matrix.map (encode X Z)) (some (inner.isSub || outer.isSub)) with
    logicals? := some ((blockCopies (w.length / m) KX ++ blockCopies (w.length / m) KZ).map (encode X Z)) },
    if 1 < w.length / LX.length then inner else
      { inner with logicals? := inner.getLogicalOps.bind (permuteLogicals w) },
    ?_, hN, ⟨X, Z, ?_, ?_, ?_, ?_⟩, ?_, rfl, ?_,
    QCode.ofMatrix (si.matrix ++ so.matrix.map (encode X Z)) (some (inner.isSub || outer.isSub)), ?_, rfl, rfl,
    ?_, rfl⟩
  rotate_left 1
  · intro j; rw [hXdef]
  · intro j; rw [hZdef]
  · rw [← hmi, ← hmo]; rfl
  · refine ⟨?_, isComplete_iff.2 hcl, hcomm, ?_⟩
    · change some _ = _
      rw [List.map_append]
    · change ((blockCopies (w.length / m) KX ++ blockCopies (w.length / m) KZ).map (encode X Z)).length / 2 = _
      rw [List.map_append, hlen2, List.length_map, length_blockCopies, Nat.mul_comm]
  · change ((blockCopies (w.length / m) KX ++ blockCopies (w.length / m) KZ).map (encode X Z)).length / 2 = _
    rw [List.map_append, hlen2, ho.dim]
  rotate_left 3
  · unfold concatenate
    rw [hstd]
    simp only [bind, Except.bind]
    rw [hg]
    dsimp only
    rw [hexp]
    dsimp only
    rw [if_pos trivial, hvo.ops]
    dsimp only [Option.bind]
    rw [hexp]
    dsimp only
    rw [hsi, hso]
  rotate_left 1
  · unfold concatenate
    rw [hstd]
    simp only [bind, Except.bind]
    rw [hg]
    dsimp only
    rw [hexp]
    dsimp only
    rw [if_neg (by simp), hsi, hso]
  · rw [dimension_fresh hcl hcomm, List.length_map, length_blockCopies, Nat.mul_comm]
    change _ = ((blockCopies (w.length / m) KX ++ blockCopies (w.length / m) KZ).map (encode X Z)).length / 2
    rw [List.map_append, hlen2]
  · split
    · rfl
    · have hone : w.length / LX.length = 1 := by omega
      have hwk : w.length = LX.length := by rw [← hbi, hone, Nat.one_mul]
      obtain ⟨A, B, h3, h4, h5, h6⟩ := permute_valid hi w (by rw [← hwk]; exact hperm)
      rw [h5]
      exact ⟨rfl, A, B, h3, h4, h6⟩

/-- The claim that the inputs are unchanged fails: with one copy of the inner code, the caller's object has
other logical operators afterwards, and the same call gives another code the second time. -/
theorem C26_disagreement : ∃ (inner after after' : QCode (ZMod 2) 2) (outer : QCode (ZMod 2) 2)
    (N N' : ℕ) (code : QCode (ZMod 2) N) (code' : QCode (ZMod 2) N'),
    StabOk inner ∧ StabOk outer ∧
      concatenate inner outer (some [1, 0]) true = .ok (⟨N, code⟩, after) ∧
      after.getLogicalOps ≠ inner.getLogicalOps ∧
      concatenate after outer (some [1, 0]) true = .ok (⟨N', code'⟩, after') ∧
      code.matrix.map List.ofFn ≠ code'.matrix.map List.ofFn := by
  have e1 : StabOk (QCode.ofMatrix (F := ZMod 2) (n := 2) [![0, 0, 0, 0]]) :=
    stabOk_ofMatrix _ (by unfold AllCommute; decide +kernel)
  have e2 : StabOk (QCode.ofMatrix (F := ZMod 2) (n := 2) [![0, 0, 1, 0]]) :=
    stabOk_ofMatrix _ (by unfold AllCommute; decide +kernel)
  have h : (match concatenate (QCode.ofMatrix (F := ZMod 2) (n := 2) [![0, 0, 0, 0]])
      (QCode.ofMatrix (F := ZMod 2) (n := 2) [![0, 0, 1, 0]]) (some [1, 0]) true with
    | .error _ => false
    | .ok (c, a) =>
      match concatenate a (QCode.ofMatrix (F := ZMod 2) (n := 2) [![0, 0, 1, 0]]) (some [1, 0]) true with
      | .error _ => false
      | .ok (c', _) =>
        decide (a.getLogicalOps ≠
          (QCode.ofMatrix (F := ZMod 2) (n := 2) [![0, 0, 0, 0]]).getLogicalOps) &&
        decide (c.2.matrix.map List.ofFn ≠ c'.2.matrix.map List.ofFn)) = true := by decide +kernel
  split at h
  · cases h
  · rename_i c a hc
    split at h
    · cases h
    · rename_i c' a' hc'
      rw [Bool.and_eq_true, decide_eq_true_iff, decide_eq_true_iff] at h
      exact ⟨_, a, a', _, c.1, c'.1, c.2, c'.2, e1, e2, hc, h.1, hc', h.2⟩

/-! ## Examples -/

/-- Two different valid codes: the five-qubit code and a code with a gauge qubit. -/
example : ∃ LX LZ, Valid (QCode.ofMatrix fiveQubit) LX LZ :=
  (stabOk_ofMatrix _ (by unfold AllCommute; decide +kernel)).valid

/-- A subsystem code: gauge operators `X_1`, `Z_1` and the stabilizer `Z_2 Z_3`. -/
example : Valid (QCode.ofMatrix (F := ZMod 2) (n := 3)
      [![1, 0, 0, 0, 0, 0], ![0, 0, 0, 1, 0, 0], ![0, 0, 0, 0, 1, 1]])
    [![0, 1, 1, 0, 0, 1]] [![0, 0, 0, 0, 0, 1]] := by
  refine ⟨by decide +kernel, isComplete_iff.2 ⟨⟨rfl, by decide +kernel, by decide +kernel, ?_,
    by decide +kernel, by decide +kernel⟩, by decide +kernel⟩, fun h => absurd h (by decide +kernel), by decide +kernel⟩
  intro i j hi hj
  have hi' : i = 0 := by simpa using hi
  have hj' : j = 0 := by simpa using hj
  subst hi' hj'
  decide +revert +kernel

/-- The five-qubit code concatenated with itself has 25 qubits and one logical qubit. -/
example : ∃ (code : QCode (ZMod 2) 25) (after : QCode (ZMod 2) 5),
    concatenate (QCode.ofMatrix fiveQubit) (QCode.ofMatrix fiveQubit) none true = .ok (⟨25, code⟩, after) ∧
      code.dimension = 1 ∧ after = QCode.ofMatrix fiveQubit ∧ AllCommute code.matrix := by
  have h : StabOk (QCode.ofMatrix fiveQubit) := stabOk_ofMatrix _ (by unfold AllCommute; decide +kernel)
  obtain ⟨LX, LZ, hv⟩ := h.valid
  have hk : (QCode.ofMatrix fiveQubit).dimension = 1 := by decide +kernel
  have hs : (QCode.ofMatrix fiveQubit).isSub = false := by decide +kernel
  have hl : LX.length = 1 := by rw [← hv.dim, hk]
  obtain ⟨N, code, after, e, hN, ⟨X, Z, _, _, _, hc⟩, hd, hs', ha, _⟩ :=
    C26_concatenate _ _ LX LZ LX LZ hv hv none [0, 1, 2, 3, 4] (by rw [hl]; rfl) (by decide) (by decide)
      (by rw [hl]; decide) (by decide)
  rw [hl] at hN ha
  have : N = 25 := hN
  subst this
  exact ⟨code, after, e, by rw [hd, hk]; rfl, by simpa using ha, hc.comm (by rw [hs', hs]; rfl)⟩

/-- A wiring with two inner blocks. -/
example : ([1, 3, 0, 2] : List ℕ).Perm (List.range 4) ∧ (2 ∣ 4) ∧ (4 ∣ 4) := by decide

/-! ### Instances of the theorems: concrete cases meet the hypotheses -/

private def fiveCode : QCode (ZMod 2) 5 := QCode.ofMatrix fiveQubit (some false)
private theorem fiveCode_valid : ∃ LX LZ, Valid fiveCode LX LZ :=
  (stabOk_ofMatrix fiveQubit (by unfold AllCommute; decide +kernel)).valid
private theorem fiveCodes_valid : ∀ c ∈ ([⟨5, fiveCode⟩, ⟨5, fiveCode⟩] : List (AnyQ (ZMod 2))), ∃ LX LZ, Valid c.snd LX LZ := by
  intro c hc
  simp only [List.mem_cons, List.not_mem_nil, or_false, or_self] at hc
  subst hc
  exact fiveCode_valid
example := C25_stack [⟨5, fiveCode⟩, ⟨5, fiveCode⟩] (by simp) fiveCodes_valid
example := C25_stack_fresh [⟨5, fiveCode⟩, ⟨5, fiveCode⟩] (by simp) fiveCodes_valid
example : True := by
  obtain ⟨s, h, -⟩ := C25_stack [⟨5, fiveCode⟩, ⟨5, fiveCode⟩] (by simp) fiveCodes_valid
  have h1 := C25_commute _ _ s h
  have h2 := C25_distance _ _ s h 3
  trivial

end QLDPC.Props

#print axioms QLDPC.Props.C25_stack
#print axioms QLDPC.Props.C25_stack_fresh
#print axioms QLDPC.Props.C25_commute
#print axioms QLDPC.Props.C25_distance
#print axioms QLDPC.Props.C26_default_wiring
#print axioms QLDPC.Props.C26_concatenate
#print axioms QLDPC.Props.C26_disagreement
